import Verif.Rdb.Props

/-!
# Termination of the loader, and files that were cut off

`Tr r' r`: the reader `r'` delivers the same as `r`, but its file ends earlier.
-/

namespace Verif.Rdb

open Verif.Resp

/-- The file of `r'` is a proper beginning of that of `r`. -/
def Tr (r' r : Rd) : Prop :=
  (r'.buf = r.buf ∧ ∃ c q, r'.net = [c] ∧ r.net = [c ++ q] ∧ q ≠ []) ∨
  (∃ q, r.buf = r'.buf ++ q ∧ q ≠ [] ∧ r'.net.flatten = [])

theorem Tr.flat {r' r : Rd} (h : Tr r' r) : r'.flat.length < r.flat.length := by
  rcases h with ⟨h1, c, q, h2, h3, h4⟩ | ⟨q, h1, h2, h3⟩
  · have := List.length_pos_iff.mpr h4
    simp [Rd.flat, h1, h2, h3]; omega
  · have := List.length_pos_iff.mpr h2
    simp only [Rd.flat, h1, h3, List.length_append, List.length_nil]; omega

/-- The same result and readers still related; or no result; or everything was read. -/
def Cut {α : Type} (x' x : RRes α × Rd) : Prop :=
  (∃ a, x'.1 = .ok a ∧ x.1 = .ok a ∧ Tr x'.2 x.2) ∨ (∀ a, x'.1 ≠ .ok a) ∨ x'.2.flat = []

/-- Operations on a reader that end, never put bytes back, and notice the end of the file. -/
structure Nice {α : Type} (op : Rd → RRes α × Rd) : Prop where
  live : ∀ r, r.WF → (op r).1 ≠ .err .stuck
  mono : ∀ r, r.WF → (op r).2.flat <:+ r.flat
  wf : ∀ r, r.WF → (op r).2.WF
  cut : ∀ r' r, r'.WF → r.WF → Tr r' r → Cut (op r') (op r)

theorem Nice.bindOf {α β : Type} {op : Rd → RRes α × Rd} {f : α → Rd → RRes β × Rd} (P : α → Prop) (h : Nice op)
    (hP : ∀ r a, r.WF → (op r).1 = .ok a → P a) (hf' : ∀ a, P a → Nice (f a)) : Nice (fun r => andThen (op r) f) where
  live := by
    intro r hw
    have h1 := h.live r hw
    have h2 := h.wf r hw
    have hp := hP r
    rcases hx : op r with ⟨x, r1⟩
    rw [hx] at h1 h2 hp
    cases x with
    | ok a =>
      have hf := fun b h => hf' b (hp b hw h)
      exact (hf a rfl).live r1 h2
    | err e => simpa using h1
    | panic => simp
  mono := by
    intro r hw
    have h1 := h.mono r hw
    have h2 := h.wf r hw
    have hp := hP r
    rcases hx : op r with ⟨x, r1⟩
    rw [hx] at h1 h2 hp
    cases x with
    | ok a =>
      have hf := fun b h => hf' b (hp b hw h)
      exact ((hf a rfl).mono r1 h2).trans h1
    | err e => exact h1
    | panic => exact h1
  wf := by
    intro r hw
    have h2 := h.wf r hw
    have hp := hP r
    rcases hx : op r with ⟨x, r1⟩
    rw [hx] at h2 hp
    cases x with
    | ok a =>
      have hf := fun b h => hf' b (hp b hw h)
      exact (hf a rfl).wf r1 h2
    | err e => exact h2
    | panic => exact h2
  cut := by
    intro r' r hw' hw ht
    have h1 := h.cut r' r hw' hw ht
    have w1 := h.wf r hw
    have w2 := h.wf r' hw'
    rcases hx : op r with ⟨x, r1⟩
    rcases hx' : op r' with ⟨x', r1'⟩
    rw [hx, hx'] at h1
    rw [hx] at w1
    have hp := hP r' 
    rw [hx'] at w2 hp
    have hf := fun b h => hf' b (hp b hw' h)
    rcases h1 with ⟨a, h1, h2, h3⟩ | h1 | h1
    · simp only at h1 h2
      subst h1 h2
      exact (hf a rfl).cut r1' r1 w2 w1 h3
    · refine .inr (.inl ?_)
      intro b
      cases x' with
      | ok a => exact absurd rfl (h1 a)
      | err e => simp
      | panic => simp
    · refine .inr (.inr ?_)
      cases x' with
      | ok a =>
        have := (hf a rfl).mono r1' w2
        simp only at h1
        rw [h1] at this
        exact List.suffix_nil.mp this
      | err e => exact h1
      | panic => exact h1

theorem Nice.bind {α β : Type} {op : Rd → RRes α × Rd} {f : α → Rd → RRes β × Rd} (h : Nice op) (hf : ∀ a, Nice (f a)) :
    Nice (fun r => andThen (op r) f) := h.bindOf (fun _ => True) (fun _ _ _ _ => trivial) (fun a _ => hf a)

theorem Nice.pure {α : Type} (x : RRes α) (h : x ≠ .err .stuck) : Nice (fun r => (x, r)) where
  live := fun _ _ => h
  mono := fun _ _ => List.suffix_refl _
  wf := fun _ h => h
  cut := by
    intro r' r _ _ ht
    cases x with
    | ok a => exact .inl ⟨a, rfl, rfl, ht⟩
    | err e => exact .inr (.inl (by simp))
    | panic => exact .inr (.inl (by simp))

theorem Nice.ok {α : Type} (a : α) : Nice (fun r => ((.ok a : RRes α), r)) := .pure _ (by simp)

theorem Nice.ite {α : Type} {c : Prop} [Decidable c] {f g : Rd → RRes α × Rd} (hf : Nice f) (hg : Nice g) :
    Nice (fun r => if c then f r else g r) := by
  by_cases hc : c
  · simpa [hc] using hf
  · simpa [hc] using hg

/-- A byte is read from both, or from neither. -/
theorem readByte_tr {r' r : Rd} (ht : Tr r' r) :
    (∃ b s' s, readByte r' = (.ok b, s') ∧ readByte r = (.ok b, s) ∧ Tr s' s) ∨ (∃ s', readByte r' = (.err .eof, s')) := by
  obtain ⟨buf', net'⟩ := r'
  obtain ⟨buf, net⟩ := r
  rcases ht with ⟨h1, c, q, h2, h3, h4⟩ | ⟨q, h1, h2, h3⟩
  · simp only at h1 h2 h3
    subst h1 h2 h3
    cases buf' with
    | cons b bs => exact .inl ⟨b, _, _, rfl, rfl, .inl ⟨rfl, c, q, rfl, rfl, h4⟩⟩
    | nil =>
      cases c with
      | nil => exact .inr ⟨⟨[], []⟩, by simp [readByte, fill, netRead]⟩
      | cons b bs =>
        left
        have hb : bufSize = 4095 + 1 := rfl
        refine ⟨b, ⟨bs.take 4095, [bs.drop 4095]⟩, ⟨(bs ++ q).take 4095, [(bs ++ q).drop 4095]⟩, ?_, ?_, ?_⟩
        · simp [readByte, fill, netRead, hb]
        · simp [readByte, fill, netRead, hb]
        · by_cases hl : 4095 ≤ bs.length
          · refine .inl ⟨?_, bs.drop 4095, q, rfl, ?_, h4⟩
            · rw [List.take_append, Nat.sub_eq_zero_of_le hl]; simp
            · rw [List.drop_append, Nat.sub_eq_zero_of_le hl]; simp
          · refine .inr ⟨q.take (4095 - bs.length), ?_, ?_, ?_⟩
            · simp only [List.take_append]
            · intro e
              have := congrArg List.length e
              have := List.length_pos_iff.mpr h4
              rw [List.length_take, List.length_nil] at *
              omega
            · simp; omega
  · simp only at h1 h3
    subst h1
    cases buf' with
    | cons b bs => exact .inl ⟨b, ⟨bs, net'⟩, ⟨bs ++ q, net⟩, rfl, rfl, .inr ⟨q, rfl, h2, h3⟩⟩
    | nil =>
      have hn : ∀ cap, netRead cap net' = none := by
        intro cap
        induction net' with
        | nil => rfl
        | cons c cs ih =>
          simp at h3
          obtain ⟨rfl, h3⟩ := h3
          simp only [netRead]
          exact ih (by simpa using h3)
      exact .inr ⟨⟨[], []⟩, by simp [readByte, fill, hn]⟩

theorem nice_readByte : Nice readByte where
  live := by
    intro r hw
    obtain ⟨h1, h2⟩ := readByte_flat r hw
    have := congrArg Prod.fst h1
    cases hf : r.flat with
    | nil => rw [hf] at this; simp only [flatByte] at this; rw [this]; simp
    | cons b bs => rw [hf] at this; simp only [flatByte] at this; rw [this]; simp
  mono := by
    intro r hw
    obtain ⟨h1, h2⟩ := readByte_flat r hw
    have := congrArg Prod.snd h1
    cases hf : r.flat with
    | nil => rw [hf] at this; simp only [flatByte] at this; rw [this]; exact List.suffix_refl _
    | cons b bs => rw [hf] at this; simp only [flatByte] at this; rw [this]; exact List.suffix_cons b bs
  wf := fun r hw => (readByte_flat r hw).2
  cut := by
    intro r' r _ _ ht
    rcases readByte_tr ht with ⟨b, s', s, h1, h2, h3⟩ | ⟨s', h1⟩
    · rw [h1, h2]; exact .inl ⟨b, rfl, rfl, h3⟩
    · rw [h1]; exact .inr (.inl (by simp))

theorem netRead_empty {net : List Bytes} (h : net.flatten = []) (cap : Nat) : netRead cap net = none := by
  induction net with
  | nil => rfl
  | cons c cs ih =>
    simp at h
    obtain ⟨rfl, h⟩ := h
    simp only [netRead]
    exact ih (by simpa using h)

theorem read_tr {n : Nat} {r' r : Rd} (hn : 0 < n) (ht : Tr r' r) : Cut (Resp.read n r') (Resp.read n r) := by
  obtain ⟨buf', net'⟩ := r'
  obtain ⟨buf, net⟩ := r
  have h0 : n ≠ 0 := by omega
  rcases ht with ⟨h1, c, q, h2, h3, h4⟩ | ⟨q, h1, h2, h3⟩
  · simp only at h1 h2 h3
    subst h1 h2 h3
    cases buf' with
    | cons b bs =>
      refine .inl ⟨(b :: bs).take n, by simp [Resp.read, h0], by simp [Resp.read, h0], ?_⟩
      simp only [Resp.read, h0, if_false]
      exact .inl ⟨rfl, c, q, rfl, rfl, h4⟩
    | nil =>
      cases c with
      | nil => 
        refine .inr (.inl ?_)
        intro a
        simp [Resp.read, h0, netRead]
      | cons b bs =>
        by_cases hb : bufSize ≤ n
        · by_cases hl : n ≤ (b :: bs).length
          · refine .inl ⟨(b :: bs).take n, by simp [Resp.read, h0, hb, netRead], ?_, ?_⟩
            · simp only [Resp.read, h0, if_false, hb, if_true, netRead, List.cons_append]
              rw [← List.cons_append, List.take_append, Nat.sub_eq_zero_of_le hl]; simp
            · simp only [Resp.read, h0, if_false, hb, if_true, netRead, List.cons_append]
              refine .inl ⟨rfl, (b :: bs).drop n, q, rfl, ?_, h4⟩
              simp only
              rw [← List.cons_append, List.drop_append, Nat.sub_eq_zero_of_le hl]; simp
          · refine .inr (.inr ?_)
            simp only [Resp.read, h0, if_false, hb, if_true, netRead, Rd.flat]
            rw [List.drop_eq_nil_of_le (by omega)]; rfl
        · by_cases hl : bufSize ≤ (b :: bs).length
          · have e1 : ((b :: bs) ++ q).take bufSize = (b :: bs).take bufSize := by
              rw [List.take_append, Nat.sub_eq_zero_of_le hl]; simp
            have e2 : ((b :: bs) ++ q).drop bufSize = (b :: bs).drop bufSize ++ q := by
              rw [List.drop_append, Nat.sub_eq_zero_of_le hl]; simp
            refine .inl ⟨((b :: bs).take bufSize).take n, by simp only [Resp.read, h0, if_false, hb, netRead], ?_, ?_⟩
            · simp only [Resp.read, h0, if_false, hb, netRead, List.cons_append]
              rw [← List.cons_append, e1]
            · simp only [Resp.read, h0, if_false, hb, netRead, List.cons_append]
              rw [← List.cons_append, e1, e2]
              exact .inl ⟨rfl, (b :: bs).drop bufSize, q, rfl, rfl, h4⟩
          · have e0 : (b :: bs).take bufSize = b :: bs := List.take_of_length_le (by omega)
            have e1 : ((b :: bs) ++ q).take bufSize = (b :: bs) ++ q.take (bufSize - (b :: bs).length) := by
              rw [List.take_append, e0]
            have e2 : (b :: bs).drop bufSize = [] := List.drop_eq_nil_of_le (by omega)
            by_cases hk : n ≤ (b :: bs).length
            · refine .inl ⟨(b :: bs).take n, ?_, ?_, ?_⟩
              · simp only [Resp.read, h0, if_false, hb, netRead]; rw [e0]
              · simp only [Resp.read, h0, if_false, hb, netRead, List.cons_append]
                rw [← List.cons_append, e1, List.take_append, Nat.sub_eq_zero_of_le hk]; simp
              · simp only [Resp.read, h0, if_false, hb, netRead, List.cons_append]
                rw [← List.cons_append, e1, e0, e2]
                refine .inr ⟨q.take (bufSize - (b :: bs).length), ?_, ?_, rfl⟩
                · simp only
                  rw [List.drop_append, Nat.sub_eq_zero_of_le hk]; simp
                · intro e
                  have := congrArg List.length e
                  have := List.length_pos_iff.mpr h4
                  rw [List.length_take, List.length_nil] at *
                  omega
            · refine .inr (.inr ?_)
              simp only [Resp.read, h0, if_false, hb, netRead, Rd.flat]
              rw [e0, e2, List.drop_eq_nil_of_le (by omega)]; rfl
  · simp only at h1 h3
    subst h1
    cases buf' with
    | cons b bs =>
      by_cases hk : n ≤ (b :: bs).length
      · refine .inl ⟨(b :: bs).take n, by simp only [Resp.read, h0, if_false], ?_, ?_⟩
        · simp only [Resp.read, h0, if_false, List.cons_append]
          rw [← List.cons_append, List.take_append, Nat.sub_eq_zero_of_le hk]; simp
        · simp only [Resp.read, h0, if_false, List.cons_append]
          rw [← List.cons_append, List.drop_append, Nat.sub_eq_zero_of_le hk]
          exact .inr ⟨q, by simp, h2, h3⟩
      · refine .inr (.inr ?_)
        simp only [Resp.read, h0, if_false, Rd.flat, h3]
        rw [List.drop_eq_nil_of_le (by omega)]; rfl
    | nil =>
      refine .inr (.inl ?_)
      intro a
      simp [Resp.read, h0, netRead_empty h3]

theorem nice_read (n : Nat) : Nice (Resp.read n) where
  live := by
    intro r hw
    rcases read_flat n r hw with ⟨⟨d, h1, _⟩, _⟩ | ⟨h1, _⟩ <;> rw [h1] <;> simp
  mono := by
    intro r hw
    rcases read_flat n r hw with ⟨⟨d, h1, h2, _⟩, _⟩ | ⟨h1, _⟩
    · rw [h2]; exact List.suffix_append _ _
    · rw [read_eof_flat h1]; exact List.nil_suffix
  wf := by
    intro r hw
    rcases read_flat n r hw with ⟨_, h⟩ | ⟨_, _, _, h⟩ <;> exact h
  cut := by
    intro r' r _ _ ht
    by_cases hn : n = 0
    · subst hn
      exact .inl ⟨[], by simp [Resp.read], by simp [Resp.read], by simpa [Resp.read] using ht⟩
    · exact read_tr (by omega) ht

theorem nice_readFullAux {f n : Nat} (h : n ≤ f) : Nice (readFullAux f n) := by
  induction f generalizing n with
  | zero =>
    obtain rfl : n = 0 := by omega
    exact Nice.ok []
  | succ f ih =>
    cases n with
    | zero => exact Nice.ok []
    | succ n =>
      refine Nice.bindOf (fun d => d ≠ []) (nice_read (n + 1)) ?_ ?_
      · intro r a hw ha
        rcases read_flat (n + 1) r hw with ⟨⟨d, h1, _, _, h4⟩, _⟩ | ⟨h1, _⟩
        · rw [ha] at h1; cases h1; exact h4 (by omega)
        · rw [ha] at h1; cases h1
      · intro d hd
        have := List.length_pos_iff.mpr hd
        exact (ih (by omega)).bind fun _ => Nice.ok _

theorem nice_readFull (n : Nat) : Nice (readFull n) := nice_readFullAux (Nat.le_refl n)

theorem Nice.congr {α : Type} {f g : Rd → RRes α × Rd} (h : ∀ r, f r = g r) (hg : Nice g) : Nice f := by
  have : f = g := funext h
  rw [this]; exact hg

/-- Turning every failure into a panic. -/
def die {α β : Type} (x : RRes α × Rd) (f : α → Rd → RRes β × Rd) : RRes β × Rd :=
  match x with
  | (.ok a, r) => f a r
  | (_, r) => (.panic, r)

theorem Nice.orDie {α β : Type} {op : Rd → RRes α × Rd} {f : α → Rd → RRes β × Rd} (h : Nice op) (hf : ∀ a, Nice (f a)) :
    Nice (fun r => die (op r) f) := by
  have hb := h.bind hf
  have e : ∀ r, die (op r) f =
      (match (op r).1 with | .ok _ => andThen (op r) f | _ => (.panic, (op r).2)) := by
    intro r
    rcases op r with ⟨x, r1⟩
    cases x <;> rfl
  refine Nice.congr e ?_
  constructor
  · intro r hw
    have := hb.live r hw
    cases hx : (op r).1 <;> simp_all
  · intro r hw
    have h1 := hb.mono r hw
    have h2 := h.mono r hw
    cases hx : (op r).1 <;> simp_all
  · intro r hw
    have h1 := hb.wf r hw
    have h2 := h.wf r hw
    cases hx : (op r).1 <;> simp_all
  · intro r' r hw' hw ht
    have h1 := hb.cut r' r hw' hw ht
    have h2 := h.cut r' r hw' hw ht
    cases hx' : (op r').1 with
    | err e => exact .inr (.inl (by simp))
    | panic => exact .inr (.inl (by simp))
    | ok a' =>
      simp only
      rcases h2 with ⟨a, g1, g2, _⟩ | g | g
      · rw [g2]; exact h1
      · exact absurd hx' (g a')
      · refine .inr (.inr ?_)
        rcases ho : op r' with ⟨x, r1⟩
        have w := h.wf r' hw'
        rw [ho] at hx' g w
        simp only at hx' g
        subst hx'
        have := (hf a').mono r1 w
        rw [g] at this
        exact List.suffix_nil.mp this

/-- Reading a wide length: whatever is there. -/
theorem nice_skip (n : Nat) : Nice (fun r => ((.ok (0, false) : RRes (Nat × Bool)), (readFull n r).2)) where
  live := by intros; simp
  mono := fun r hw => (nice_readFull n).mono r hw
  wf := fun r hw => (nice_readFull n).wf r hw
  cut := by
    intro r' r hw' hw ht
    by_cases hl : n ≤ r'.flat.length
    · rcases (nice_readFull n).cut r' r hw' hw ht with ⟨a, g1, g2, g3⟩ | g | g
      · exact .inl ⟨_, rfl, rfl, g3⟩
      · obtain ⟨r1, h1, _⟩ := (readFullAux_flat (n := n) hw' (Nat.le_refl n)).1 hl
        exact absurd (congrArg Prod.fst h1) (g _)
      · exact .inr (.inr g)
    · obtain ⟨r1, h1, h2, _⟩ := (readFullAux_flat (n := n) hw' (Nat.le_refl n)).2 (by omega)
      refine .inr (.inr ?_)
      simp only [readFull]
      rw [h1]; exact h2

theorem nice_loadLen : Nice loadLen := by
  unfold loadLen
  refine nice_readByte.bind fun b => ?_
  refine .ite (.ok _) (.ite (.ok _) (.ite (Nice.congr (fun r => ?_) (Nice.orDie (f := fun b1 r => (.ok (b.toNat % 64 * 256 + b1.toNat, false), r)) nice_readByte fun _ => .ok _)) (.ite (nice_skip 4) (.ite (nice_skip 8) (.pure _ (by simp))))))
  rcases readByte r with ⟨x, r1⟩
  cases x <;> rfl

theorem nice_loadLzf : Nice loadLzf := by
  unfold loadLzf
  refine nice_loadLen.bind fun n => nice_loadLen.bind fun l => (nice_readFull _).bind fun c => ?_
  cases Lzf.goDecompress c l.1 with
  | ok s => exact .ok s
  | err e => exact e.elim
  | panic => exact .pure _ (by simp)

theorem nice_loadString : Nice loadString := by
  unfold loadString
  refine nice_loadLen.bind fun l => .ite ?_ ((nice_read _).bind fun d => .ok _)
  refine .ite (nice_readByte.bind fun _ => .ok _) (.ite ((nice_readFull 2).bind fun _ => .ok _)
    (.ite (Nice.congr (fun r => ?_) (Nice.orDie (f := fun b r => (.ok (natText (le b)), r)) (nice_readFull 4) fun _ => .ok _)) (.ite nice_loadLzf (.pure _ (by simp)))))
  rcases readFull 4 r with ⟨x, r1⟩
  cases x <;> rfl

theorem nice_loadDouble : Nice loadDouble := by
  unfold loadDouble
  refine nice_readByte.bind fun l => .ite (.ok _) (.ite (.ok _) ((nice_readFull _).bind fun d => ?_))
  cases parseFloat d with
  | some x => exact .ok x
  | none => exact .pure _ (by simp)

theorem nice_loadBinaryDouble : Nice loadBinaryDouble := (nice_readFull 8).bind fun _ => .ok _

theorem nice_loadStrings (n : Nat) : Nice (loadStrings n) := by
  induction n with
  | zero => exact .ok _
  | succ n ih => exact nice_loadString.bind fun _ => ih.bind fun _ => .ok _

theorem nice_loadScored (bin : Bool) (n : Nat) : Nice (loadScored bin n) := by
  induction n with
  | zero => exact .ok _
  | succ n ih => exact nice_loadString.bind fun _ => (Nice.ite nice_loadBinaryDouble nice_loadDouble).bind fun _ => ih.bind fun _ => .ok _

theorem nice_loadPairs (n : Nat) : Nice (loadPairs n) := by
  induction n with
  | zero => exact .ok _
  | succ n ih => exact nice_loadString.bind fun _ => nice_loadString.bind fun _ => ih.bind fun _ => .ok _

theorem nice_orPanic {α : Type} (x : Option α) : Nice (orPanic x) := by
  cases x with
  | some a => exact .ok a
  | none => exact .pure _ (by simp)

theorem nice_loadNodes (n : Nat) : Nice (loadNodes n) := by
  induction n with
  | zero => exact .ok _
  | succ n ih =>
    refine nice_loadString.bind fun s => ?_
    cases ziplistLoad s with
    | none => exact .pure _ (by simp)
    | some xs => exact ih.bind fun _ => .ok _

theorem nice_loadObj (ord : MapOrd) (n : Nat) (op : UInt8) (key : Bytes) : Nice (loadObj ord n op key) := by
  unfold loadObj
  refine .ite (nice_loadString.bind fun _ => .ok _) (.ite (nice_loadLen.bind fun _ => (nice_loadStrings _).bind fun _ => .ok _)
    (.ite (nice_loadLen.bind fun _ => (nice_loadStrings _).bind fun _ => .ok _)
    (.ite (nice_loadLen.bind fun _ => (nice_loadScored _ _).bind fun _ => .ok _)
    (.ite (nice_loadLen.bind fun _ => (nice_loadPairs _).bind fun _ => .ok _)
    (.ite (nice_loadLen.bind fun _ => (nice_loadNodes _).bind fun _ => .ok _) ?_)))))
  have h : ∀ {α : Type} (p : Bytes → Option α) (k : α → Obj), Nice (fun r => andThen (loadString r) fun s r =>
      andThen (orPanic (p s) r) fun m r => ((.ok (k m) : RRes Obj), r)) :=
    fun p k => nice_loadString.bind fun s => (nice_orPanic (p s)).bind fun m => .ok _
  exact .ite (h _ _) (.ite (h _ _) (.ite (h _ _) (.ite (h _ _) (.ite (h _ _) (.ite (nice_loadLen.bind fun _ => .ok _) (.ite (.ok _) (.ok _)))))))

/-- What follows the first byte of a record. -/
def recTail (ord : MapOrd) (n : Nat) (op : UInt8) (r : Rd) : RRes Rec × Rd :=
    if op = 253 then
      andThen (readFull 4 r) fun b r => (.ok (.expire (UInt64.ofNat (le b * 1000 % 2 ^ 32))), r)
    else if op = 252 then andThen (readFull 8 r) fun b r => (.ok (.expire (UInt64.ofNat (le b))), r)
    else if op = 249 then andThen (readByte r) fun _ r => (.ok .ignored, r)
    else if op = 248 then andThen (loadLen r) fun _ r => (.ok .ignored, r)
    else if op = 255 then (.ok .eof, r)
    else if op = 254 then andThen (loadLen r) fun l r => (.ok (.select l.1), r)
    else if op = 251 then andThen (loadLen r) fun _ r => andThen (loadLen r) fun _ r => (.ok .ignored, r)
    else if op = 250 then
      andThen (loadString r) fun k r => andThen (loadString r) fun v r => (.ok (.aux k v), r)
    else if op = 247 then
      andThen (loadLen r) fun _ r => andThen (loadLen r) fun w r =>
        if w.1 = 2 then
          andThen (loadLen r) fun _ r => andThen (loadLen r) fun e r =>
            if e.1 = 0 then (.ok .ignored, r) else (.err .syntaxErr, r)
        else (.err .syntaxErr, r)
    else
      andThen (loadString r) fun key r =>
        if key = [] then (.err .syntaxErr, r)
        else andThen (loadObj ord n op key r) fun o r => (.ok (.entry key o), r)

theorem loadRec_eq (ord : MapOrd) (n : Nat) (r : Rd) : loadRec ord n r = andThen (readByte r) (recTail ord n) := rfl

theorem nice_recTail (ord : MapOrd) (n : Nat) (op : UInt8) : Nice (recTail ord n op) := by
  unfold recTail
  refine .ite ((nice_readFull 4).bind fun _ => .ok _) (.ite ((nice_readFull 8).bind fun _ => .ok _)
    (.ite (nice_readByte.bind fun _ => .ok _) (.ite (nice_loadLen.bind fun _ => .ok _) (.ite (.ok _)
    (.ite (nice_loadLen.bind fun _ => .ok _) (.ite (nice_loadLen.bind fun _ => nice_loadLen.bind fun _ => .ok _)
    (.ite (nice_loadString.bind fun _ => nice_loadString.bind fun _ => .ok _) (.ite ?_ ?_))))))))
  · exact nice_loadLen.bind fun _ => nice_loadLen.bind fun _ => .ite
      (nice_loadLen.bind fun _ => nice_loadLen.bind fun _ => .ite (.ok _) (.pure _ (by simp))) (.pure _ (by simp))
  · exact nice_loadString.bind fun _ => .ite (.pure _ (by simp)) ((nice_loadObj _ _ _ _).bind fun _ => .ok _)

theorem nice_loadRec (ord : MapOrd) (n : Nat) : Nice (loadRec ord n) := nice_readByte.bind fun op => nice_recTail ord n op

end Verif.Rdb

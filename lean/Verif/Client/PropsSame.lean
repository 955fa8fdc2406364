import Verif.Client.PropsRemote
import Verif.Cache.PropsRefExact
/-!
# C95, exact: which calls the local cache and a remote server answer alike

`Ref.Alike` (Cache/PropsRefExact.lean) is sufficient for the answers the remote client shows (`C95_alike_partial`), and necessary as
soon as the keys are read again (`C95_exact`).
-/
namespace Verif.Client
open Verif Cache

/-- A store as the documented methods of the remote client leave it: texts without deadlines. -/
def Flat (st : Ref.Store) : Prop := ∀ k e, st k = some e → ∃ s, e = ⟨.str s, none⟩

theorem Flat.live {st : Ref.Store} (h : Flat st) (t : Int) (k : Bytes) : Ref.live st t k = st k := by
  unfold Ref.live
  cases hk : st k with
  | none => rfl
  | some e => obtain ⟨s, rfl⟩ := h k e hk; rfl

theorem Flat.put {st : Ref.Store} (h : Flat st) (k v : Bytes) : Flat (Ref.put st k v) := by
  intro j e he
  simp only [Ref.put, upd] at he
  split at he
  · cases he; exact ⟨_, rfl⟩
  · exact h j e he

theorem Flat.keep {st : Ref.Store} (h : Flat st) (t : Int) (k v : Bytes) : Flat (Ref.keep st t k (.str v)) := by
  intro j e he
  simp only [Ref.keep, upd, h.live] at he
  split at he
  · cases hk : st k with
    | none => rw [hk] at he; cases he; exact ⟨_, rfl⟩
    | some e' => obtain ⟨s, rfl⟩ := h k e' hk; rw [hk] at he; cases he; exact ⟨_, rfl⟩
  · exact h j e he

theorem Flat.puts (kv : List (Bytes × Bytes)) : ∀ {st : Ref.Store}, Flat st → Flat (kv.foldl (fun st p => Ref.put st p.1 p.2) st) := by
  induction kv with
  | nil => exact fun h => h
  | cons p kv ih => exact fun h => ih (h.put _ _)

theorem Flat.addTo {st : Ref.Store} (h : Flat st) (t : Int) (k : Bytes) (n : Int) : Flat (Ref.addTo st t k n).1 := by
  unfold Ref.addTo
  split
  · split
    · exact h
    · split
      · exact h.keep _ _ _
      · exact h
  · exact h
  · exact h

theorem Flat.exec {st : Ref.Store} (h : Flat st) (t : Int) {q : Req} {op : Call} (ho : asCall q = some op) : Flat (Ref.exec st t op).1 := by
  cases q with
  | set k v => cases ho; exact h.put _ _
  | get k => cases ho; exact h
  | getSet k v =>
    cases ho
    simp only [Ref.exec]
    split
    · exact h
    · exact h.put _ _
  | strLen k => cases ho; exact h
  | append k v =>
    cases ho
    simp only [Ref.exec]
    split
    · exact h.keep _ _ _
    · exact h
    · exact h
  | setRange k n v =>
    cases ho
    simp only [Ref.exec]
    split
    · exact h
    · split
      · split
        · exact h
        · split
          · exact h
          · exact h.keep _ _ _
      · exact h
      · exact h
  | getRange k a b => cases ho; exact h
  | incr k => cases ho; exact h.addTo _ _ _
  | decr k => cases ho; exact h.addTo _ _ _
  | decrBy k n => cases ho; exact h.addTo _ _ _
  | mSet kv =>
    cases kv with
    | nil => simp [asCall] at ho
    | cons p kv => cases ho; exact h.puts (p :: kv)
  | mSetNX kv =>
    cases kv with
    | nil => simp [asCall] at ho
    | cons p kv =>
      cases ho
      simp only [Ref.exec]
      split
      · exact h
      · exact h.puts (p :: kv)
  | mGet ks =>
    cases ks with
    | nil => simp [asCall] at ho
    | cons k ks => cases ho; exact h
  | select | setNX | setEX | pSetEX | incrBy | incrByFloat => simp [asCall] at ho

theorem asCall_told {q : Req} {op : Call} (ho : asCall q = some op) : Ref.Told op := by
  cases q <;> first
    | (cases ho; trivial)
    | (rename_i l; cases l <;> first | (cases ho; trivial) | simp [asCall] at ho)
    | simp [asCall] at ho

theorem asCall_noTTL {q : Req} {op : Call} (ho : asCall q = some op) (k : Bytes) :
    (∀ v n, op ≠ .setEX k v n) ∧ ∀ v n, op ≠ .pSetEX k v n := by
  cases q <;> first
    | (cases ho; exact ⟨nofun, nofun⟩)
    | (rename_i l; cases l <;> first | (cases ho; exact ⟨nofun, nofun⟩) | simp [asCall] at ho)
    | simp [asCall] at ho

/-! ## What the remote client shows of an answer -/

theorem errText_inj : ∀ {a b : Err}, errText a = errText b → a = b := by
  intro a b; cases a <;> cases b <;> decide

theorem shown_int {op : Call} {a b : Res Int} (hb : b ≠ .panic) (h : shown op (.int a) = shown op (.int b)) :
    a = b ∨ ∃ n m, a = .ok n ∧ b = .ok m ∧ Int64.ofInt n = Int64.ofInt m := by
  cases a with
  | ok n =>
    cases b with
    | ok m => simp only [shown, Out.mk.injEq, Val.int.injEq, and_true] at h; exact .inr ⟨n, m, rfl, rfl, h⟩
    | err e => simp [shown] at h
    | panic => exact absurd rfl hb
  | err e =>
    cases b with
    | ok m => simp [shown] at h
    | err e' =>
      simp only [shown, Out.mk.injEq, true_and, Option.some.injEq] at h
      injection h with h
      rw [errText_inj h]; exact .inl rfl
    | panic => exact absurd rfl hb
  | panic =>
    cases b with
    | ok m => simp [shown] at h
    | err e' => simp [shown] at h
    | panic => exact .inl rfl

theorem ofInt_inj {n m : Int} (hn : -(2 ^ 63) ≤ n ∧ n < 2 ^ 63) (hm : -(2 ^ 63) ≤ m ∧ m < 2 ^ 63) (h : Int64.ofInt n = Int64.ofInt m) : n = m := by
  have := congrArg Int64.toInt h
  rwa [Int64.toInt_ofInt_of_le (by simpa using hn.1) (by simpa using hn.2), Int64.toInt_ofInt_of_le (by simpa using hm.1) (by simpa using hm.2)] at this

theorem shown_str {op : Call} {a b : Res Bytes} (ha : a ≠ .panic) (hb : b ≠ .panic) (h1 : ∀ k v, op ≠ .set k v) (h2 : ∀ kv, op ≠ .mSet kv)
    (h : shown op (.str a) = shown op (.str b)) : a = b := by
  have hok : ∀ s, shown op (.str (.ok s)) = ⟨.text s, none⟩ := by
    intro s; cases op <;> first | rfl | exact absurd rfl (h1 _ _) | exact absurd rfl (h2 _)
  cases a with
  | ok s =>
    cases b with
    | ok s' => rw [hok, hok] at h; cases h; rfl
    | err e => rw [hok] at h; cases e <;> simp [shown] at h
    | panic => exact absurd rfl hb
  | err e =>
    cases b with
    | ok s' => rw [hok] at h; cases e <;> simp [shown] at h
    | err e' => revert h; cases e <;> cases e' <;> simp [shown, errText] <;> decide
    | panic => exact absurd rfl hb
  | panic => exact absurd rfl ha

/-! ## What reading shows of the state -/

variable {c : Cache} {st : Ref.Store} {t : Int}

/-- `Get k` and `DecrBy k 0` show the same. -/
def ReadsSame (t : Int) (c : Cache) (st : Ref.Store) (k : Bytes) : Prop :=
  shown (.get k) (Verif.exec c t (.get k)).2 = shown (.get k) (Ref.exec st t (.get k)).2 ∧
  shown (.decrBy k 0) (Verif.exec c t (.decrBy k 0)).2 = shown (.decrBy k 0) (Ref.exec st t (.decrBy k 0)).2

theorem sim_of_reads (hi : Inv c) (hx : ∀ k, c.exp k = none) (hf : Flat st) (h : ∀ k, ReadsSame t c st k) : Ref.Sim t c st := by
  intro k
  have hns : ¬ Stale c t k := by rintro ⟨_, d, hd, _⟩; rw [hx] at hd; cases hd
  obtain ⟨h1, h2⟩ := h k
  simp only [Verif.exec, Ref.exec, get_snd, liveVal_of_not_stale hns] at h1
  cases hst : st k with
  | none =>
    refine ⟨?_, hx k⟩
    rw [Ref.text_absent (by rw [hf.live, hst])] at h1
    cases hd : c.data k with
    | none => rfl
    | some w =>
      simp only [hd] at h1
      cases hi.good k w hd with
      | hash he _ => simp [showVal, fmtString, shown, errText] at h1
      | scalar sc _ => simp [showVal, fmtString, shown] at h1
  | some e =>
    obtain ⟨s, rfl⟩ := hf k e hst
    have hl : Ref.live st t k = some ⟨.str s, none⟩ := by rw [hf.live, hst]
    rw [Ref.text_str hl] at h1
    cases hd : c.data k with
    | none => simp [hd, showVal, shown] at h1
    | some w =>
      simp only [hd] at h1
      refine .inl ⟨w, rfl, ?_, hx k⟩
      cases hi.good k w hd with
      | hash he _ => simp [showVal, fmtString, shown, errText] at h1
      | scalar sc hsc =>
        simp only [showVal, fmtString, shown, Out.mk.injEq, Val.text.injEq, and_true] at h1
        refine ⟨sc, rfl, ?_⟩
        cases hsc with
        | str s' hn => simp only [fmtScalar] at h1; subst h1; exact .inl ⟨rfl, hn⟩
        | int n => exact .inr (.inl ⟨n, .inl rfl, h1.symm⟩)
        | int64 n => exact .inr (.inl ⟨n, .inr rfl, h1.symm⟩)
        | float f =>
          refine .inr (.inr ⟨f, rfl, h1.symm, ?_⟩)
          cases ha : atoi s with
          | none => rfl
          | some m =>
            exfalso
            have hb : -(2 ^ 63) ≤ m.toInt ∧ m.toInt < 2 ^ 63 := ⟨m.le_toInt, m.toInt_lt⟩
            simp only [Verif.exec, Ref.exec, Cache.decrBy, Cache.incrBy, hd, incrScalar, Ref.addTo, Ref.text_str hl, ha,
              show -(0 : Int64).toInt = 0 from rfl, Int.add_zero, if_pos hb] at h2
            simp [shown, GoRes.map, GoRes.bind] at h2

/-- Fewer pairs than there are integers. -/
def Short : Call → Prop
  | .mSetNX kv => kv.length < 2 ^ 63
  | _ => True

theorem mSetNXLoop_le (kv : List (Bytes × Bytes)) : ∀ (c : Cache) (n : Int), 0 ≤ n →
    0 ≤ (mSetNXLoop c kv n).2 ∧ (mSetNXLoop c kv n).2 ≤ n + kv.length := by
  induction kv with
  | nil => intro c n h; simp [mSetNXLoop, h]
  | cons p kv ih =>
    obtain ⟨k, v⟩ := p
    intro c n h
    simp only [mSetNXLoop, List.length_cons]
    split
    · have := ih c n h; omega
    · have := ih (c.store k (.scalar (tryInt64 v))) (n + 1) (by omega); omega

/-- One call of the remote client: alike if it shows the same and the keys read the same afterwards. -/
theorem alike_of_shown (hi : Inv c) (r : Ref.Sim t c st) (hf : Flat st) {q : Req} {op : Call} (ho : asCall q = some op) (hsh : Short op)
    (h0 : shown op (Verif.exec c t op).2 = shown op (Ref.exec st t op).2)
    (h : ∀ k, ReadsSame t (Verif.exec c t op).1 (Ref.exec st t op).1 k) : Ref.Alike c st t op := by
  have hx : ∀ k, c.exp k = none := by
    intro k
    have hk := r k
    cases hst : st k with
    | none => rw [hst] at hk; exact hk.2
    | some e =>
      obtain ⟨s, rfl⟩ := hf k e hst
      rw [hst] at hk
      rcases hk with ⟨_, _, _, h3⟩ | ⟨_, _, h3, _⟩
      · exact h3
      · cases h3
  have hsim : Ref.Sim t (Verif.exec c t op).1 (Ref.exec st t op).1 :=
    sim_of_reads (hi.exec t op) (fun k => exec_exp_none t op (hx k) (asCall_noTTL ho k).1 (asCall_noTTL ho k).2) (hf.exec t ho) h
  have key : (Verif.exec c t op).2 = (Ref.exec st t op).2 → Ref.Alike c st t op := fun h1 => (Ref.exact_step hi r op (asCall_told ho)).1 ⟨h1, hsim⟩
  have hhash : ∀ k m, Ref.view st t k ≠ some (.hash m) := by
    intro k m hv
    simp only [Ref.view, hf.live] at hv
    cases hst : st k with
    | none => rw [hst] at hv; cases hv
    | some e => obtain ⟨s, rfl⟩ := hf k e hst; rw [hst] at hv; cases hv
  have htext : ∀ k {a}, a ≠ .panic → Ref.text st t k a ≠ .panic := by
    intro k a ha; unfold Ref.text; split <;> simp_all
  have hadd : ∀ {k n} (N : Int), Verif.exec c t op = ((c.incrBy k n).1, .int ((c.incrBy k n).2.map Int64.toInt)) → Ref.exec st t op = Ref.addTo st t k N →
      Ref.Alike c st t op := by
    intro k n N e1 e2
    apply key
    rw [e1, e2] at h0 ⊢
    obtain ⟨b, hb, hb1, hb2⟩ : ∃ b, (Ref.addTo st t k N).2 = .int b ∧ b ≠ .panic ∧ ∀ m, b = .ok m → -(2 ^ 63) ≤ m ∧ m < 2 ^ 63 := by
      have := htext k (a := .ok b!"0") (by simp)
      unfold Ref.addTo
      split
      · split
        · exact ⟨_, rfl, by simp, by simp⟩
        · split
          · rename_i hfit; exact ⟨_, rfl, by simp, by intro m h; cases h; exact hfit⟩
          · exact ⟨_, rfl, by simp, by simp⟩
      · exact ⟨_, rfl, by simp, by simp⟩
      · rename_i h; exact absurd h this
    rw [hb] at h0 ⊢
    suffices h : (c.incrBy k n).2.map Int64.toInt = b from congrArg Out.int h
    rcases shown_int hb1 h0 with h3 | ⟨n', m, h3, h4, h5⟩
    · exact h3
    · rw [h3, h4]
      refine congrArg GoRes.ok (ofInt_inj ?_ (hb2 m h4) h5)
      cases hr : (c.incrBy k n).2 with
      | ok z => rw [hr] at h3; cases h3; exact ⟨z.le_toInt, z.toInt_lt⟩
      | err e => rw [hr] at h3; cases h3
      | panic => rw [hr] at h3; cases h3
  cases q with
  | set k v => cases ho; exact key rfl
  | get k => cases ho; trivial
  | getSet k v =>
    cases ho
    apply key
    have e2 : ∃ b, (Ref.exec st t (.getSet k v)).2 = .str b ∧ b ≠ .panic := by
      have := htext k (a := .err .keyNil) (by simp)
      simp only [Ref.exec]
      split
      · exact ⟨_, rfl, by simp⟩
      · exact ⟨_, rfl, this⟩
    obtain ⟨b, hb, hb1⟩ := e2
    have e1 : ∃ a, (Verif.exec c t (.getSet k v)).2 = .str a ∧ a ≠ .panic := by
      refine ⟨_, rfl, ?_⟩
      split
      · simp
      · rename_i w _; cases w <;> simp [fmtString]
    obtain ⟨a, ha, ha1⟩ := e1
    rw [ha, hb] at h0 ⊢
    rw [shown_str ha1 hb1 (fun _ _ => by simp) (fun _ => by simp) h0]
  | strLen k => cases ho; trivial
  | append k v =>
    cases ho
    apply key
    obtain ⟨r', hm⟩ := r.load k
    simp only [Verif.exec, Cache.append, loadLive, Ref.exec]
    rw [hm.text]
    generalize c.load t k = p at *
    obtain ⟨c', o⟩ := p
    cases o with
    | none => rfl
    | some w =>
      simp only [Ref.shown]
      cases w <;> rfl
  | setRange k n v =>
    cases ho
    apply key
    obtain ⟨r', hm⟩ := r.load k
    simp only [Verif.exec, Cache.setRange, loadLive, Ref.exec] at h0 ⊢
    by_cases hp : n.toInt < 0
    · simp only [if_pos hp]
    · simp only [if_neg hp] at h0 ⊢
      have hp1 := n.toInt_lt
      generalize c.load t k = p at *
      obtain ⟨c', o⟩ := p
      cases hm with
      | absent h1 h2 h3 =>
        simp only [Ref.text_absent h1, Ref.overwrite_nil] at h0 ⊢
        by_cases hl : maxAlloc < n.toInt
        · simp only [if_pos hl] at h0
          exfalso; revert h0; split <;> (try split) <;> simp [shown]
        · simp only [if_neg hl] at h0 ⊢
          by_cases hv : v = []
          · subst hv
            have hlen : (Ref.overwrite [] n.toInt.toNat []).length = n.toInt.toNat := by
              simp [Ref.overwrite]
            simp only [if_true, hlen, List.length_nil] at h0 ⊢
            rcases shown_int (by simp) h0 with h4 | ⟨n', m, h4, h5, h6⟩
            · rw [h4]
            · cases h4; cases h5
              have := ofInt_inj (by omega) (by omega) h6
              rw [this]
          · simp only [if_neg hv] at h0 ⊢
            split
            · rename_i hmx; simp only [if_pos hmx] at h0; simp [shown] at h0
            · rfl
      | present e w h1 hv' h2 h3 =>
        obtain ⟨y, dl⟩ := e
        cases y with
        | hash m => exact absurd (by simp [Ref.view, h1]) (hhash k m)
        | str s =>
          obtain ⟨sc, rfl, hsc⟩ := hv'
          simp only [Ref.text_str h1, fmtString, hsc.fmt, Ref.overwrite_eq] at h0 ⊢
          by_cases hl : maxAlloc < n.toInt
          · simp only [if_pos hl] at h0
            exfalso; revert h0; split <;> (try split) <;> simp [shown]
          · simp only [if_neg hl] at h0 ⊢
            by_cases hv : v = []
            · subst hv
              simp only [if_true] at h0 ⊢
              by_cases hle : n.toInt.toNat ≤ s.length
              · rw [Ref.overwrite_none hle]
              · exfalso
                have hlen : (Ref.overwrite s n.toInt.toNat []).length = n.toInt.toNat := by
                  simp only [Ref.overwrite, List.length_append, List.length_take, List.length_replicate, List.length_drop, List.length_nil]; omega
                rw [hlen] at h0
                rcases shown_int (by simp) h0 with h4 | ⟨n', m, h4, h5, h6⟩
                · injection h4 with h4; omega
                · cases h4; cases h5
                  have := ofInt_inj (by omega) (by omega) h6
                  omega
            · simp only [if_neg hv] at h0 ⊢
              split
              · rename_i hmx; simp only [if_pos hmx] at h0; simp [shown] at h0
              · rfl
  | getRange k a b => cases ho; trivial
  | incr k => cases ho; exact hadd (n := 1) 1 rfl rfl
  | decr k => cases ho; exact hadd (n := -1) (-1) rfl rfl
  | decrBy k n => cases ho; exact hadd (n := -n) (-n.toInt) rfl rfl
  | mSet kv =>
    cases kv with
    | nil => simp [asCall] at ho
    | cons p kv => cases ho; exact key rfl
  | mSetNX kv =>
    cases kv with
    | nil => simp [asCall] at ho
    | cons p kv =>
      cases ho
      apply key
      obtain ⟨b, hb, hb2⟩ : ∃ b, (Ref.exec st t (.mSetNX (p :: kv))).2 = .int (.ok b) ∧ (b = 0 ∨ b = 1) := by
        simp only [Ref.exec]
        split
        · exact ⟨0, rfl, .inl rfl⟩
        · exact ⟨1, rfl, .inr rfl⟩
      have hl := mSetNXLoop_le (p :: kv) c 0 (by omega)
      have e1 : (Verif.exec c t (.mSetNX (p :: kv))).2 = .int (.ok (mSetNXLoop c (p :: kv) 0).2) := rfl
      rw [hb, e1] at h0 ⊢
      rcases shown_int (by simp) h0 with h3 | ⟨n', m, h3, h4, h5⟩
      · rw [h3]
      · cases h3; cases h4
        simp only [Short] at hsh
        rw [ofInt_inj (by omega) (by omega) h5]
  | mGet ks =>
    cases ks with
    | nil => simp [asCall] at ho
    | cons k ks => cases ho; exact fun k _ m => hhash k m
  | select | setNX | setEX | pSetEX | incrBy | incrByFloat => simp [asCall] at ho

/-! ## Whole histories -/

theorem hist_cons {t : Int} {q : Req} {cut : Cut} {h : List (Int × Req × Cut)} {op : Call} (ho : asCall q = some op) :
    hist ((t, q, cut) :: h) = (t, op) :: hist h := by simp [hist, ho]

theorem hist_append (h1 h2 : List (Int × Req × Cut)) : hist (h1 ++ h2) = hist h1 ++ hist h2 := by simp [hist]

theorem hist_told (h : List (Int × Req × Cut)) : ∀ p ∈ hist h, Ref.Told p.2 := by
  intro p hp
  simp only [hist, List.mem_filterMap, Option.map_eq_some_iff] at hp
  obtain ⟨e, _, op, ho, rfl⟩ := hp
  exact asCall_told ho

theorem shownAll_cons {t : Int} {op : Call} {h : History} {o o' : Verif.Out} {l l' : List Verif.Out} :
    shownAll ((t, op) :: h) (o :: l) = shownAll ((t, op) :: h) (o' :: l') ↔ shown op o = shown op o' ∧ shownAll h l = shownAll h l' := by
  simp [shownAll]

theorem same_iff (h : List (Int × Req × Cut)) : ∀ {t : Int} {c : Cache} {st : Ref.Store}, Inv c → Ref.Sim t c st → Flat st →
    Monotone t (hist h) → (∀ e ∈ h, (asCall e.2.1).isSome = true) → (∀ p ∈ hist h, Short p.2) →
    (Ref.AlikeRun c st (hist h) ↔ ∀ h1 h2 g, h = h1 ++ h2 → (∀ e ∈ g, (asCall e.2.1).isSome = true) → Monotone t (hist (h1 ++ g)) →
      Ref.SafeRun (Ref.after st (hist h1)) (hist g) →
      shownAll (hist (h1 ++ g)) (outs c (hist (h1 ++ g))) = shownAll (hist (h1 ++ g)) (Ref.outs st (hist (h1 ++ g)))) := by
  intro t c st hi r hf hm hd hsh
  constructor
  · rintro ha h1 h2 g rfl _ hmg hs
    rw [hist_append] at ha hm hmg ⊢
    rw [(Ref.run_iff _ hi r hm (by rw [← hist_append]; exact hist_told _)).1 ha _ _ _ rfl hmg hs]
  · induction h generalizing t c st with
    | nil => intro _; trivial
    | cons e h ih =>
      intro H
      obtain ⟨s, q, cut⟩ := e
      obtain ⟨op, hop⟩ := Option.isSome_iff_exists.1 (hd _ (List.mem_cons_self ..))
      simp only at hop
      rw [hist_cons hop] at hm hsh ⊢
      have r' := r.later hm.1
      have hff := hf.exec s hop
      have hd' : ∀ e ∈ h, (asCall e.2.1).isSome = true := fun e he => hd e (List.mem_cons_of_mem _ he)
      have step : ∀ h1 h2 g, h = h1 ++ h2 → (∀ e ∈ g, (asCall e.2.1).isSome = true) → Monotone s (hist (h1 ++ g)) →
          Ref.SafeRun (Ref.after (Ref.exec st s op).1 (hist h1)) (hist g) →
          shown op (Verif.exec c s op).2 = shown op (Ref.exec st s op).2 ∧
          shownAll (hist (h1 ++ g)) (outs (Verif.exec c s op).1 (hist (h1 ++ g))) =
            shownAll (hist (h1 ++ g)) (Ref.outs (Ref.exec st s op).1 (hist (h1 ++ g))) := by
        intro h1 h2 g e hg hmg hs
        have := H ((s, q, cut) :: h1) h2 g (by rw [e]; rfl) hg
        rw [List.cons_append, hist_cons hop, hist_cons hop] at this
        simpa only [outs, Ref.outs, shownAll_cons] using this ⟨hm.1, hmg⟩ hs
      have ha : Ref.Alike c st s op := by
        refine alike_of_shown hi r' hf hop (hsh _ (List.mem_cons_self ..)) (step [] h [] rfl (by simp) trivial trivial).1 fun k => ⟨?_, ?_⟩
        · have := (step [] h [(s, .get k, whole)] rfl (by simp [asCall]) ⟨Int.le_refl _, trivial⟩ ⟨trivial, trivial⟩).2
          rw [List.nil_append, hist_cons (op := .get k) rfl] at this
          exact (shownAll_cons.1 this).1
        · have hsafe : Ref.Safe (Ref.exec st s op).1 s (.decrBy k 0) := by
            refine ⟨⟨?_, ?_⟩, by decide⟩
            · intro e he d hd
              obtain ⟨_, rfl⟩ := hff k e he
              cases hd
            · intro _ m _ _
              have h1 := m.le_toInt
              have h2 := m.toInt_lt
              simpa using ⟨h1, h2⟩
          have := (step [] h [(s, .decrBy k 0, whole)] rfl (by simp [asCall]) ⟨Int.le_refl _, trivial⟩ ⟨hsafe, trivial⟩).2
          rw [List.nil_append, hist_cons (op := .decrBy k 0) rfl] at this
          exact (shownAll_cons.1 this).1
      refine ⟨ha, ih (hi.exec s op) ((Ref.exact_step hi r' op (asCall_told hop)).2 ha).2 hff hm.2 hd' (fun p hp => hsh p (List.mem_cons_of_mem _ hp)) ?_⟩
      exact fun h1 h2 g e hg hmg hs => (step h1 h2 g e hg hmg hs).2

/-- C95 for all calls on which cache and Redis agree: the same calls, made on an empty local cache and, through the remote client, on
an empty database, give the same answers, if each is `Ref.Alike`.  Missing: what C94 misses. -/
theorem C95_alike_partial {bad : Bytes → F64} (o : Opt) (cap : Nat) (hcap : 0 < cap) (s : Server) (ha : Accepts s o)
    (hp : s.password.isSome → o.password ≠ []) (h : List (Int × Req × Cut)) (hd : ∀ e ∈ h, (asCall e.2.1).isSome = true)
    (hf : ∀ e ∈ h, e.2.2.Faithful) (hr : CarriedOne s (wanted o) h) (he : s.dbs (wanted o).db = Ref.empty)
    (t0 : Int) (hm : Monotone t0 (hist h)) (hs : Ref.AlikeRun Cache.new Ref.empty (hist h)) :
    answers bad o cap s Cl.new (calls h) = shownAll (hist h) (outs Cache.new (hist h)) := by
  rw [C94_remote_partial o cap hcap s ha hp h hd hf hr, he, C90_alike _ t0 hm (hist_told h) hs]

/-- C95, exact: the calls of a history are all `Ref.Alike` if and only if after no beginning of it anything safe shows a difference
between what the server answers to the remote client (`direct`: over a network that carries the replies) and the local cache. -/
theorem C95_exact {bad : Bytes → F64} (s : Server) (l : Login) (ha : s.password.isSome → l.authed = true) (he : s.dbs l.db = Ref.empty)
    (h : List (Int × Req × Cut)) (hd : ∀ e ∈ h, (asCall e.2.1).isSome = true) (hsh : ∀ p ∈ hist h, Short p.2)
    (t0 : Int) (hm : Monotone t0 (hist h)) :
    Ref.AlikeRun Cache.new Ref.empty (hist h) ↔ ∀ h1 h2 g, h = h1 ++ h2 → (∀ e ∈ g, (asCall e.2.1).isSome = true) →
      Monotone t0 (hist (h1 ++ g)) → Ref.SafeRun (Ref.after Ref.empty (hist h1)) (hist g) →
      direct bad s l (h1 ++ g) = shownAll (hist (h1 ++ g)) (outs Cache.new (hist (h1 ++ g))) := by
  rw [same_iff h Inv.new (Ref.Sim.new t0) (fun _ _ h => by cases h) hm hd hsh]
  have key : ∀ h1 h2 g, h = h1 ++ h2 → (∀ e ∈ g, (asCall e.2.1).isSome = true) →
      direct bad s l (h1 ++ g) = shownAll (hist (h1 ++ g)) (Ref.outs Ref.empty (hist (h1 ++ g))) := by
    rintro h1 h2 g rfl hg
    rw [direct_eq (h1 ++ g) s l ha, he]
    intro e hm
    rcases List.mem_append.1 hm with hm | hm
    · exact hd e (List.mem_append_left _ hm)
    · exact hg e hm
  constructor
  · intro H h1 h2 g e hg hmg hs
    rw [key h1 h2 g e hg, H h1 h2 g e hg hmg hs]
  · intro H h1 h2 g e hg hmg hs
    rw [← H h1 h2 g e hg hmg hs, key h1 h2 g e hg]

/-- Calls that are alike but not safe: `SetRange` of nothing, `DecrBy` of the least integer. -/
def alikeCalls : List (Int × Req × Cut) :=
  [(0, .set b!"k" b!"hello", whole), (1, .setRange b!"k" 2 [], whole), (2, .decrBy b!"n" 1, bytewise),
   (3, .decrBy b!"n" (-9223372036854775808), bytewise)]

example : (∀ e ∈ alikeCalls, (asCall e.2.1).isSome = true) ∧ (∀ e ∈ alikeCalls, e.2.2.Faithful) ∧ (∀ p ∈ hist alikeCalls, Short p.2) ∧
    CarriedOne sampleServer (wanted ⟨b!"secret", 3⟩) alikeCalls ∧ Monotone 0 (hist alikeCalls) ∧
    Ref.AlikeRun Cache.new Ref.empty (hist alikeCalls) ∧ ¬ Ref.SafeRun Ref.empty (hist alikeCalls) := by
  refine ⟨by decide, ?_, ?_, ?_, ?_, ?_, ?_⟩
  · intro e he
    simp only [alikeCalls, List.mem_cons, List.not_mem_nil, or_false] at he
    rcases he with rfl | rfl | rfl | rfl <;>
      first | exact faithful_bytewise | exact fun b => by simp [whole]
  · simp [alikeCalls, hist, asCall, Short]
  · refine ⟨carried_token (tokenCut_whole (fits_ofB ?_) ?_), carried_token (tokenCut_whole (fits_ofB ?_) ?_),
      carried_line faithful_bytewise ?_, carried_line faithful_bytewise ?_, trivial⟩ <;> decide +kernel
  · simp [alikeCalls, hist, asCall, Monotone]
  · have nofresh : ∀ {c : Cache} {t : Int} {k : Bytes}, c.exp k = none → ¬ Stale c t k := by
      rintro c t k h ⟨_, d, hd, _⟩; rw [h] at hd; cases hd
    have ok : ∀ {s s' : Bytes}, (GoRes.ok s : Res Bytes) = .ok s' → s = s' := by intro s s' h; injection h
    refine ⟨⟨verbatim_of (by decide +kernel), rfl⟩, ?_, .inl ⟨nofresh rfl, ?_⟩, .inl ⟨nofresh rfl, ?_⟩, trivial⟩
    · intro _ s h
      have e : b!"hello" = s := ok h
      subst e
      exact .inl ⟨rfl, by decide +kernel, by decide +kernel, by decide +kernel⟩
    · intro s m h hm
      have e : b!"0" = s := ok h
      subst e
      have e : atoi b!"0" = some 0 := by decide +kernel
      rw [e] at hm; cases hm; unfold Ref.Fits; decide
    · intro s m h hm
      have e : b!"-1" = s := ok h
      subst e
      have e : atoi b!"-1" = some (-1) := by decide +kernel
      rw [e] at hm; cases hm; unfold Ref.Fits; decide
  · rintro ⟨_, h, _⟩
    exact (h (by decide)).1 rfl

/-- A call that is not alike, on the empty database. -/
example : ¬ Ref.AlikeRun Cache.new Ref.empty (hist [(0, .set b!"k" b!"007", whole)]) := by
  rintro ⟨⟨h, _⟩, _⟩
  revert h; decide +kernel

end Verif.Client

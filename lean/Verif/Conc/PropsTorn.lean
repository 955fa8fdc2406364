import Verif.Conc.PropsStale
import Verif.Conc.PropsLost
/-!
# C44, exactly: what an MGet may show of an MSet
-/
namespace Verif.Conc
open Cache

/-- The cache when the first `n` pairs of an MSet are written. -/
def part (c0 : Cache) (kv : List (Bytes × Bytes)) (n : Nat) : Cache := (kv.take n).foldl (fun c p => c.store p.1 (.scalar (tryInt64 p.2))) c0

/-- What MGet puts into the slot of a key without deadline. -/
def slotAt (c : Cache) (k : Bytes) : Res Bytes :=
  match c.data k with
  | none => .err .keyNil
  | some v => fmtString v

/-- The answer of an MGet that reads its keys when so many pairs are written. -/
def tornAnswer (c0 : Cache) (kv : List (Bytes × Bytes)) (ks : List Bytes) (ns : List Nat) : Out :=
  .slots (.ok (List.zipWith (fun k n => slotAt (part c0 kv n) k) ks ns))

/-- One goroutine calls MSet, one MGet. -/
def setGet (kv : List (Bytes × Bytes)) (ks : List Bytes) : Nat → List Call := fun i => if i = 0 then [.mSet kv] else if i = 1 then [.mGet ks] else []

theorem part_exp (c0 : Cache) (kv : List (Bytes × Bytes)) (n : Nat) : (part c0 kv n).exp = c0.exp := by
  unfold part
  generalize kv.take n = l
  induction l generalizing c0 with
  | nil => rfl
  | cons p l ih => rw [List.foldl_cons, ih]; rfl

theorem part_add (c0 : Cache) (kv : List (Bytes × Bytes)) (m d : Nat) :
    part c0 kv (m + d) = ((kv.drop m).take d).foldl (fun c p => c.store p.1 (.scalar (tryInt64 p.2))) (part c0 kv m) := by
  unfold part
  rw [List.take_add, List.foldl_append]

theorem torn_mSetP (l : List (Bytes × Bytes)) (w : World) :
    alone (mSetP l) w = (⟨l.foldl (fun c p => c.store p.1 (.scalar (tryInt64 p.2))) w.c, w.now⟩, ()) := by
  induction l generalizing w with
  | nil => rfl
  | cons p l ih =>
    obtain ⟨k, v⟩ := p
    simp only [mSetP]
    rw [alone_bind]
    have : alone (storeData k (.scalar (tryInt64 v))) w = (⟨w.c.store k (.scalar (tryInt64 v)), w.now⟩, ()) := rfl
    rw [this, ih]
    rfl

theorem torn_getP {k : Bytes} {w : World} (h : w.c.exp k = none) : alone (getP k) w = (w, w.c.data k) := by
  unfold getP
  rw [alone_bind]
  have : alone (loadData k) w = (w, w.c.data k) := rfl
  rw [this]
  cases hd : w.c.data k with
  | none => rfl
  | some v =>
    simp only
    rw [alone_bind]
    have he : alone (expiredP k) w = (w, false) := by
      unfold expiredP
      rw [alone_bind]
      have : alone (loadExp k) w = (w, w.c.exp k) := rfl
      rw [this, h]
      rfl
    rw [he]
    rfl

/-- MGet, key by key. -/
theorem mGetP_cons (k : Bytes) (ks : List Bytes) (f : List (Res Bytes) → P Out) :
    (mGetP (k :: ks) >>= f) = (getP k >>= fun v => mGetP ks >>= fun rs => f ((match v with | none => .err .keyNil | some v => fmtString v) :: rs)) := by
  simp only [mGetP]
  rw [Prog.assoc]
  congr 1
  funext v
  rw [Prog.assoc]
  rfl

/-! ## Every answer is of this form -/

/-- A program that changes nothing and, run while an MSet goes on from pair `n`, ends with an answer in `Q`. -/
def Looks (c0 : Cache) (kv : List (Bytes × Bytes)) (Q : Out → Prop) : Nat → P Out → Prop
  | _, .ret o => Q o
  | n, .act u c => ∀ m w, n ≤ m → m ≤ kv.length → w.c = part c0 kv m → u w = w ∧ Looks c0 kv Q m (c w)

theorem looks_later {c0 : Cache} {kv : List (Bytes × Bytes)} {Q : Out → Prop} {p : P Out} {n n' : Nat} (h : Looks c0 kv Q n p) (hn : n ≤ n') :
    Looks c0 kv Q n' p := by
  cases p with
  | ret o => exact h
  | act u c => exact fun m w h1 h2 h3 => h m w (by omega) h2 h3

theorem looks_getP {c0 : Cache} {kv : List (Bytes × Bytes)} {Q : Out → Prop} {k : Bytes} (hk : c0.exp k = none) {f : Option Val → P Out} {n : Nat}
    (h : ∀ m, n ≤ m → m ≤ kv.length → Looks c0 kv Q m (f ((part c0 kv m).data k))) : Looks c0 kv Q n (getP k >>= f) := by
  intro m w h1 h2 h3
  refine ⟨rfl, ?_⟩
  have hd := h m h1 h2
  rw [← h3] at hd
  show Looks c0 kv Q m ((match w.c.data k with
    | none => pure none
    | some v => do if ← expiredP k then pure none else pure (some v) : P (Option Val)) >>= f)
  cases e : w.c.data k with
  | none => rw [e] at hd; exact hd
  | some v =>
    rw [e] at hd
    intro m' w' h1' h2' h3'
    refine ⟨rfl, ?_⟩
    have he : w'.c.exp k = none := by rw [h3', part_exp]; exact hk
    show Looks c0 kv Q m' ((((match w'.c.exp k with
      | none => pure false
      | some d => do
        let n ← clock
        if d < n then do delData k; delExp k; pure true else pure false : P Bool) >>= fun b => if b then pure none else pure (some v)) : P (Option Val)) >>= f)
    rw [he]
    exact looks_later hd h1'

theorem looks_all {c0 : Cache} {kv : List (Bytes × Bytes)} {Q : Out → Prop} (ks : List Bytes) (hk : ∀ k ∈ ks, c0.exp k = none) :
    ∀ (f : List (Res Bytes) → P Out) (n : Nat),
    (∀ ns : List Nat, ns.length = ks.length → (n :: ns).Pairwise (· ≤ ·) → (∀ x ∈ ns, x ≤ kv.length) →
      ∃ o, f (List.zipWith (fun k n => slotAt (part c0 kv n) k) ks ns) = .ret o ∧ Q o) → Looks c0 kv Q n (mGetP ks >>= f) := by
  induction ks with
  | nil =>
    intro f n h
    obtain ⟨o, ho, hq⟩ := h [] rfl (by simp) (by simp)
    show Looks c0 kv Q n (f [])
    rw [show f [] = .ret o from ho]
    exact hq
  | cons k ks ih =>
    intro f n h
    rw [mGetP_cons]
    refine looks_getP (hk k (by simp)) fun m h1 h2 => ih (fun k hk' => hk k (List.mem_cons_of_mem _ hk')) _ m fun ns hl hp hb => ?_
    refine h (m :: ns) (by simp [hl]) ?_ ?_
    · rw [List.pairwise_cons] at hp ⊢
      refine ⟨fun x hx => ?_, List.pairwise_cons.2 hp⟩
      rcases List.mem_cons.1 hx with rfl | hx
      · exact h1
      · exact Nat.le_trans h1 (hp.1 x hx)
    · intro x hx
      rcases List.mem_cons.1 hx with rfl | hx
      · exact h2
      · exact hb x hx

/-- Where the two goroutines are. -/
structure TornInv (c0 : Cache) (kv : List (Bytes × Bytes)) (ks : List Bytes) (Q : Out → Prop) (g : Cfg) : Prop where
  m : ∃ m, m ≤ kv.length ∧ g.sh.c = part c0 kv m ∧
    (g.thr 0 = ⟨[.mSet kv], none⟩ ∧ m = 0 ∨ g.thr 0 = ⟨[], some (.mSet kv, mSetP (kv.drop m) >>= fun _ => .ret (.str (.ok OK)))⟩ ∨ g.thr 0 = ⟨[], none⟩) ∧
    (g.thr 1 = ⟨[.mGet ks], none⟩ ∨ (∃ n p, n ≤ m ∧ g.thr 1 = ⟨[], some (.mGet ks, p)⟩ ∧ Looks c0 kv Q n p) ∨ g.thr 1 = ⟨[], none⟩)
  rest : ∀ i, i ≠ 0 → i ≠ 1 → g.thr i = ⟨[], none⟩
  log : ∀ op o, (1, op, o) ∈ g.log → Q o

theorem torn_step {c0 : Cache} {kv : List (Bytes × Bytes)} {ks : List Bytes} {Q : Out → Prop} (hstart : Looks c0 kv Q 0 (prog (.mGet ks)))
    {g g' : Cfg} (h : TornInv c0 kv ks Q g) (hs : Step spec true g g') : TornInv c0 kv ks Q g' := by
  obtain ⟨⟨m, hm, hsh, h0, h1⟩, hr, hl⟩ := h
  have hop : ∀ i op rest, g.thr i = ⟨op :: rest, none⟩ → i = 0 ∧ op = .mSet kv ∧ rest = [] ∧ m = 0 ∨ i = 1 ∧ op = .mGet ks ∧ rest = [] := by
    intro i op rest ht
    by_cases e0 : i = 0
    · subst e0
      rcases h0 with ⟨h0, hm0⟩ | h0 | h0 <;> rw [h0] at ht <;> simp at ht
      exact .inl ⟨rfl, ht.1.symm, ht.2, hm0⟩
    · by_cases e1 : i = 1
      · subst e1
        rcases h1 with h1 | ⟨n, p, _, h1, _⟩ | h1 <;> rw [h1] at ht <;> simp at ht
        exact .inr ⟨rfl, ht.1.symm, ht.2⟩
      · rw [hr i e0 e1] at ht; simp at ht
  have hstart2 : ∀ i op rest (w : Option Nat) (r : List Nat), g.thr i = ⟨op :: rest, none⟩ →
      TornInv c0 kv ks Q { g with writer := w, readers := r, thr := setThr g.thr i ⟨rest, some (op, prog op)⟩ } := by
    intro i op rest w r ht
    rcases hop i op rest ht with ⟨rfl, rfl, rfl, rfl⟩ | ⟨rfl, rfl, rfl⟩
    · refine ⟨⟨0, hm, hsh, .inr (.inl (by simp [prog])), ?_⟩, fun i a b => by simp only [setThr_ne _ _ a]; exact hr i a b, hl⟩
      simp only [setThr_ne _ _ (show (1 : Nat) ≠ 0 by omega)]; exact h1
    · refine ⟨⟨m, hm, hsh, ?_, .inr (.inl ⟨0, _, Nat.zero_le _, by simp only [setThr_same], hstart⟩)⟩,
        fun i a b => by simp only [setThr_ne _ _ b]; exact hr i a b, hl⟩
      simp only [setThr_ne _ _ (show (0 : Nat) ≠ 1 by omega)]; exact h0
  cases hs with
  | tick s' ht =>
    obtain ⟨t1, t2⟩ := ht
    exact ⟨⟨m, hm, by simp only [t1]; exact hsh, h0, h1⟩, hr, hl⟩
  | startW i op rest ht => exact hstart2 i op rest _ _ ht
  | startR i op rest ht => exact hstart2 i op rest _ _ ht
  | startN i op rest ht => exact hstart2 i op rest _ _ ht
  | act i op todo u c ht =>
    by_cases e0 : i = 0
    · subst e0
      rcases h0 with ⟨h0, _⟩ | h0 | h0
      · rw [h0] at ht; simp at ht
      · rw [h0] at ht
        simp only [Thread.mk.injEq, Option.some.injEq, Prod.mk.injEq] at ht
        obtain ⟨rfl, rfl, hp⟩ := ht
        rcases hd : kv.drop m with _ | ⟨⟨k, v⟩, tl⟩
        · rw [hd] at hp; cases hp
        · rw [hd] at hp
          have hlt : m < kv.length := by
            rcases Nat.lt_or_ge m kv.length with h | h
            · exact h
            · rw [List.drop_eq_nil_of_le h] at hd; cases hd
          have hp' : (Prog.act (fun w : World => { w with c := w.c.store k (.scalar (tryInt64 v)) }) fun _ => mSetP tl >>= fun _ => .ret (.str (.ok OK))) = .act u c := hp
          injection hp' with e1 e2
          have hd' : kv.drop (m + 1) = tl := by rw [← List.drop_drop, hd]; rfl
          refine ⟨⟨m + 1, hlt, ?_, .inr (.inl ?_), ?_⟩, fun i a b => by simp only [setThr_ne _ _ a]; exact hr i a b, hl⟩
          · rw [part_add, hd]
            simp only [← e1, hsh, List.take_succ_cons, List.take_zero, List.foldl_cons, List.foldl_nil]
          · simp only [setThr_same, ← e2, hd']
          · simp only [setThr_ne _ _ (show (1 : Nat) ≠ 0 by omega)]
            rcases h1 with h1 | ⟨n, p, a, b, c⟩ | h1
            · exact .inl h1
            · exact .inr (.inl ⟨n, p, by omega, b, c⟩)
            · exact .inr (.inr h1)
      · rw [h0] at ht; simp at ht
    · by_cases e1 : i = 1
      · subst e1
        rcases h1 with h1 | ⟨n, p, hn, h1, hp⟩ | h1
        · rw [h1] at ht; simp at ht
        · rw [h1] at ht
          simp only [Thread.mk.injEq, Option.some.injEq, Prod.mk.injEq] at ht
          obtain ⟨rfl, rfl, rfl⟩ := ht
          obtain ⟨l1, l2⟩ := hp m g.sh hn hm hsh
          refine ⟨⟨m, hm, by simp only [l1]; exact hsh, ?_, .inr (.inl ⟨m, _, Nat.le_refl _, by simp only [setThr_same], l2⟩)⟩,
            fun i a b => by simp only [setThr_ne _ _ b]; exact hr i a b, hl⟩
          simp only [setThr_ne _ _ (show (0 : Nat) ≠ 1 by omega)]; exact h0
        · rw [h1] at ht; simp at ht
      · rw [hr i e0 e1] at ht; simp at ht
  | fin i op todo o ht =>
    by_cases e0 : i = 0
    · subst e0
      rcases h0 with ⟨h0, _⟩ | h0 | h0
      · rw [h0] at ht; simp at ht
      · rw [h0] at ht
        simp only [Thread.mk.injEq, Option.some.injEq, Prod.mk.injEq] at ht
        obtain ⟨rfl, rfl, _⟩ := ht
        refine ⟨⟨m, hm, hsh, .inr (.inr (by simp only [setThr_same])), ?_⟩, fun i a b => by simp only [setThr_ne _ _ a]; exact hr i a b, fun op' o' h => ?_⟩
        · simp only [setThr_ne _ _ (show (1 : Nat) ≠ 0 by omega)]; exact h1
        · rcases List.mem_append.1 h with h | h
          · exact hl op' o' h
          · simp at h
      · rw [h0] at ht; simp at ht
    · by_cases e1 : i = 1
      · subst e1
        rcases h1 with h1 | ⟨n, p, hn, h1, hp⟩ | h1
        · rw [h1] at ht; simp at ht
        · rw [h1] at ht
          simp only [Thread.mk.injEq, Option.some.injEq, Prod.mk.injEq] at ht
          obtain ⟨rfl, rfl, rfl⟩ := ht
          refine ⟨⟨m, hm, hsh, ?_, .inr (.inr (by simp only [setThr_same]))⟩, fun i a b => by simp only [setThr_ne _ _ b]; exact hr i a b, fun op' o' h => ?_⟩
          · simp only [setThr_ne _ _ (show (0 : Nat) ≠ 1 by omega)]; exact h0
          · rcases List.mem_append.1 h with h | h
            · exact hl op' o' h
            · simp only [List.mem_singleton, Prod.mk.injEq, true_and] at h
              rw [h.2]; exact hp
        · rw [h1] at ht; simp at ht
      · rw [hr i e0 e1] at ht; simp at ht

/-! ## Every answer of this form can be given -/

theorem torn_build {c0 : Cache} {kv : List (Bytes × Bytes)} {ks0 : List Bytes} (ks : List Bytes) (hk : ∀ k ∈ ks, c0.exp k = none) :
    ∀ (ns : List Nat) (m : Nat) (f : List (Res Bytes) → P Out) (g : Cfg), ns.length = ks.length → (m :: ns).Pairwise (· ≤ ·) →
    (∀ x ∈ ns, x ≤ kv.length) → g.sh.c = part c0 kv m →
    g.thr 0 = ⟨[], some (.mSet kv, mSetP (kv.drop m) >>= fun _ => .ret (.str (.ok OK)))⟩ → g.thr 1 = ⟨[], some (.mGet ks0, mGetP ks >>= f)⟩ →
    ∃ g', Steps spec true g g' ∧ g'.thr 1 = ⟨[], some (.mGet ks0, f (List.zipWith (fun k n => slotAt (part c0 kv n) k) ks ns))⟩ := by
  induction ks with
  | nil =>
    intro ns m f g hl _ _ _ _ h1
    have : ns = [] := List.length_eq_zero_iff.1 hl
    subst this
    exact ⟨g, .refl, h1⟩
  | cons k ks ih =>
    intro ns m f g hl hp hb hsh h0 h1
    rcases ns with _ | ⟨n, ns⟩
    · simp at hl
    rw [List.pairwise_cons] at hp
    have hmn : m ≤ n := hp.1 n (by simp)
    obtain ⟨e, rfl⟩ := Nat.exists_eq_add_of_le hmn
    -- the MSet goes on to pair `n`
    have h0' : g.thr 0 = ⟨[], some (.mSet kv, mSetP ((kv.drop m).take e) >>= fun _ => mSetP (kv.drop (m + e)) >>= fun _ => .ret (.str (.ok OK)))⟩ := by
      rw [h0]
      congr 3
      conv => lhs; rw [← List.take_append_drop e (kv.drop m), mSetP_append, Prog.assoc, List.drop_drop]
    obtain ⟨g1, s1, a1, b1, c1, d1, e1, f1⟩ := steps_part (P := spec) _ _ g h0'
    rw [torn_mSetP] at a1
    have hsh1 : g1.sh.c = part c0 kv (m + e) := by rw [a1, part_add, hsh]
    have t1 : g1.thr 1 = _ := (c1 1 (by omega)).trans h1
    rw [mGetP_cons] at t1
    obtain ⟨g2, s2, a2, b2, c2, d2, e2, f2⟩ := steps_part (P := spec) _ _ g1 t1
    have hex : g1.sh.c.exp k = none := by rw [hsh1, part_exp]; exact hk k (by simp)
    rw [torn_getP hex] at a2 b2
    obtain ⟨g3, s3, h3⟩ := ih (fun k h => hk k (List.mem_cons_of_mem _ h)) ns (m + e)
      (fun rs => f ((match g1.sh.c.data k with | none => .err .keyNil | some v => fmtString v) :: rs)) g2 (by simpa using hl) hp.2
      (fun x hx => hb x (List.mem_cons_of_mem _ hx)) (by rw [a2]; exact hsh1) ((c2 0 (by omega)).trans b1) b2
    refine ⟨g3, Steps.trans (Steps.trans s1 s2) s3, ?_⟩
    rw [h3, hsh1]
    rfl

/-- C44, exactly: of one MSet and one MGet at the same time, on keys without deadlines, the MGet is given an answer in some schedule if and only if each of
its slots shows its key when some first part of the pairs was written, the parts growing from slot to slot. -/
theorem C44_exact (c0 : Cache) (t0 : Int) (kv : List (Bytes × Bytes)) (ks : List Bytes) (hk : ∀ k ∈ ks, c0.exp k = none) (o : Out) :
    (∃ g : Cfg, Steps spec true (initial ⟨c0, t0⟩ (setGet kv ks)) g ∧ (1, .mGet ks, o) ∈ g.log) ↔
      ∃ ns : List Nat, ns.length = ks.length ∧ ns.Pairwise (· ≤ ·) ∧ (∀ n ∈ ns, n ≤ kv.length) ∧ o = tornAnswer c0 kv ks ns := by
  constructor
  · rintro ⟨g, hs, hl⟩
    have hstart : Looks c0 kv (fun o => ∃ ns : List Nat, ns.length = ks.length ∧ ns.Pairwise (· ≤ ·) ∧ (∀ n ∈ ns, n ≤ kv.length) ∧ o = tornAnswer c0 kv ks ns) 0
        (prog (.mGet ks)) :=
      looks_all ks hk (fun rs => .ret (.slots (.ok rs))) 0 fun ns a b c => ⟨_, rfl, ns, a, (List.pairwise_cons.1 b).2, c, rfl⟩
    have inv : TornInv c0 kv ks (fun o => ∃ ns : List Nat, ns.length = ks.length ∧ ns.Pairwise (· ≤ ·) ∧ (∀ n ∈ ns, n ≤ kv.length) ∧ o = tornAnswer c0 kv ks ns) g := by
      clear hl
      induction hs with
      | refl =>
        refine ⟨⟨0, Nat.zero_le _, by simp [initial, part], .inl ⟨rfl, rfl⟩, .inl rfl⟩, fun i a b => by simp [initial, setGet, a, b], fun op o h => ?_⟩
        cases h
      | snoc _ hst ih => exact torn_step hstart ih hst
    exact inv.log _ _ hl
  · rintro ⟨ns, h1, h2, h3, rfl⟩
    let g0 : Cfg := initial ⟨c0, t0⟩ (setGet kv ks)
    let g1 : Cfg := { g0 with thr := setThr g0.thr 0 ⟨[], some (.mSet kv, prog (.mSet kv))⟩ }
    have s1 : Step spec true g0 g1 := .startN g0 0 _ _ rfl rfl
    let g2 : Cfg := { g1 with thr := setThr g1.thr 1 ⟨[], some (.mGet ks, prog (.mGet ks))⟩ }
    have s2 : Step spec true g1 g2 := .startN g1 1 _ _ rfl rfl
    obtain ⟨g3, s3, h4⟩ := torn_build (c0 := c0) (kv := kv) (ks0 := ks) ks hk ns 0 (fun rs => .ret (.slots (.ok rs))) g2 h1
      (List.pairwise_cons.2 ⟨fun _ _ => Nat.zero_le _, h2⟩) h3 (by simp [g2, g1, g0, initial, part]) (by simp [g2, g1, setThr, prog])
      (by simp [g2, setThr, prog])
    exact ⟨_, (Steps.trans ((Steps.refl.snoc s1).snoc s2) s3).snoc (.fin g3 1 (.mGet ks) [] _ h4), by simp [tornAnswer]⟩

/-! ## When an MGet can see half an MSet -/

theorem fold_other {k : Bytes} (l : List (Bytes × Bytes)) (c : Cache) (h : k ∉ l.map Prod.fst) :
    (l.foldl (fun c p => c.store p.1 (.scalar (tryInt64 p.2))) c).data k = c.data k := by
  induction l generalizing c with
  | nil => rfl
  | cons p l ih =>
    simp only [List.map_cons, List.mem_cons, not_or] at h
    rw [List.foldl_cons, ih _ h.2]
    simp [store, upd, h.1]

/-- Of pairs with different keys each key has its value from before or from after the MSet. -/
theorem slot_two {c0 : Cache} {kv : List (Bytes × Bytes)} (hn : (kv.map Prod.fst).Nodup) {n : Nat} (h : n ≤ kv.length) (k : Bytes) :
    slotAt (part c0 kv n) k = slotAt c0 k ∨ slotAt (part c0 kv n) k = slotAt (part c0 kv kv.length) k := by
  by_cases hk : k ∈ (kv.drop n).map Prod.fst
  · left
    have hnot : k ∉ (kv.take n).map Prod.fst := by
      rw [← List.take_append_drop n kv, List.map_append, List.nodup_append] at hn
      exact fun hm => hn.2.2 k hm k hk rfl
    have : (part c0 kv n).data k = c0.data k := fold_other _ _ hnot
    unfold slotAt; rw [this]
  · right
    obtain ⟨d, hd⟩ := Nat.exists_eq_add_of_le h
    have : (part c0 kv kv.length).data k = (part c0 kv n).data k := by
      conv => lhs; rw [hd]
      rw [part_add]
      exact fold_other _ _ fun hm => hk (by
        obtain ⟨p, hp, e⟩ := List.mem_map.1 hm
        exact List.mem_map.2 ⟨p, List.mem_of_mem_take hp, e⟩)
    unfold slotAt; rw [this]

theorem zip_two {f : Nat → Bytes → Res Bytes} {N : Nat} (h : ∀ n, n ≤ N → ∀ k, f n k = f 0 k ∨ f n k = f N k) (ks : List Bytes) :
    ∀ ns : List Nat, ns.length = ks.length → (∀ n ∈ ns, n ≤ N) →
    (∀ a b, [a, b].Sublist ks → ¬ (f 0 a ≠ f N a ∧ f 0 b ≠ f N b)) →
    List.zipWith (fun k n => f n k) ks ns = ks.map (f 0) ∨ List.zipWith (fun k n => f n k) ks ns = ks.map (f N) := by
  induction ks with
  | nil => intro ns hl _ _; left; simp
  | cons k ks ih =>
    intro ns hl hb hu
    rcases ns with _ | ⟨n, ns⟩
    · simp at hl
    have hl' : ns.length = ks.length := by simpa using hl
    have hb' : ∀ n ∈ ns, n ≤ N := fun n hn => hb n (List.mem_cons_of_mem _ hn)
    have ih' := ih ns hl' hb' fun a b hs => hu a b (hs.cons k)
    simp only [List.zipWith_cons_cons, List.map_cons]
    by_cases hk : f 0 k = f N k
    · have hh : f n k = f 0 k := by rcases h n (hb n (by simp)) k with h | h <;> simp [h, hk]
      rcases ih' with h' | h'
      · left; rw [hh, h']
      · right; rw [hh, h', hk]
    · have hsame : ks.map (f 0) = ks.map (f N) := List.map_inj_left.2 fun b hb => by
        by_cases e : f 0 b = f N b
        · exact e
        · exact absurd ⟨hk, e⟩ (hu k b ((List.singleton_sublist.2 hb).cons_cons k))
      have ht : List.zipWith (fun k n => f n k) ks ns = ks.map (f 0) := by
        rcases ih' with h' | h'
        · exact h'
        · rw [h', hsame]
      rcases h n (hb n (by simp)) k with h' | h'
      · left; rw [h', ht]
      · right; rw [h', ht, hsame]

theorem zip_replicate (f : Nat → Bytes → Res Bytes) (ks : List Bytes) (n : Nat) :
    List.zipWith (fun k n => f n k) ks (List.replicate ks.length n) = ks.map (f n) := by
  induction ks with
  | nil => rfl
  | cons k ks ih => simp [List.replicate_succ, ih]

theorem part_zero (c0 : Cache) (kv : List (Bytes × Bytes)) : part c0 kv 0 = c0 := rfl

theorem part_all (c0 : Cache) (kv : List (Bytes × Bytes)) : part c0 kv kv.length = (exec c0 0 (.mSet kv)).1 := by
  unfold part
  rw [List.take_length]
  rfl

/-- C44: the pairs having different keys, MGet can give an answer that is neither the one before the MSet nor the one after it, if and only if two of its
slots are of keys whose value the MSet changes. -/
theorem C44_torn_exact (c0 : Cache) (t0 : Int) (kv : List (Bytes × Bytes)) (ks : List Bytes) (hk : ∀ k ∈ ks, c0.exp k = none)
    (hn : (kv.map Prod.fst).Nodup) :
    (∃ (g : Cfg) (o : Out), Steps spec true (initial ⟨c0, t0⟩ (setGet kv ks)) g ∧ (1, .mGet ks, o) ∈ g.log ∧
        o ≠ .slots (.ok (ks.map (slotAt c0))) ∧ o ≠ .slots (.ok (ks.map (slotAt (exec c0 0 (.mSet kv)).1)))) ↔
      ∃ a b, [a, b].Sublist ks ∧ slotAt c0 a ≠ slotAt (exec c0 0 (.mSet kv)).1 a ∧ slotAt c0 b ≠ slotAt (exec c0 0 (.mSet kv)).1 b := by
  have hf : ∀ n, n ≤ kv.length → ∀ k, slotAt (part c0 kv n) k = slotAt (part c0 kv 0) k ∨ slotAt (part c0 kv n) k = slotAt (part c0 kv kv.length) k :=
    fun n h k => slot_two hn h k
  rw [← part_all]
  constructor
  · rintro ⟨g, o, hs, hl, h1, h2⟩
    obtain ⟨ns, a, b, c, rfl⟩ := (C44_exact c0 t0 kv ks hk o).1 ⟨g, hs, hl⟩
    apply Classical.byContradiction
    intro hno
    rcases zip_two (f := fun n k => slotAt (part c0 kv n) k) hf ks ns a c fun x y hxy h => hno ⟨x, y, hxy, h⟩ with h | h
    · exact h1 (by unfold tornAnswer; rw [h]; rfl)
    · exact h2 (by unfold tornAnswer; rw [h])
  · rintro ⟨a, b, hs, ha, hb⟩
    obtain ⟨l1, l2, e1, e2, e3⟩ := List.cons_sublist_iff.1 hs
    have hb2 : b ∈ l2 := List.singleton_sublist.1 e3
    let ns := List.replicate l1.length 0 ++ List.replicate l2.length kv.length
    have hz : List.zipWith (fun k n => slotAt (part c0 kv n) k) ks ns = l1.map (slotAt c0) ++ l2.map (slotAt (part c0 kv kv.length)) := by
      rw [e1, List.zipWith_append (by simp)]
      rw [zip_replicate (fun n k => slotAt (part c0 kv n) k) l1 0, zip_replicate (fun n k => slotAt (part c0 kv n) k) l2 kv.length]
      rfl
    obtain ⟨g, h1, h2⟩ := (C44_exact c0 t0 kv ks hk (tornAnswer c0 kv ks ns)).2 ⟨ns, by simp [ns, e1], by
      rw [List.pairwise_append]
      refine ⟨List.pairwise_replicate.2 (.inr (Nat.le_refl _)), List.pairwise_replicate.2 (.inr (Nat.le_refl _)), fun x hx y _ => ?_⟩
      rw [(List.mem_replicate.1 hx).2]; exact Nat.zero_le _, by
      intro n hn
      rcases List.mem_append.1 hn with h | h <;> rw [(List.mem_replicate.1 h).2]
      · exact Nat.zero_le _
      · exact Nat.le_refl _, rfl⟩
    refine ⟨g, _, h1, h2, ?_, ?_⟩
    · unfold tornAnswer; rw [hz, e1, List.map_append]
      intro h
      simp only [Out.slots.injEq, GoRes.ok.injEq, List.append_cancel_left_eq] at h
      exact hb (List.map_inj_left.1 h b hb2).symm
    · unfold tornAnswer; rw [hz, e1, List.map_append]
      intro h
      simp only [Out.slots.injEq, GoRes.ok.injEq, List.append_cancel_right_eq] at h
      exact ha (List.map_inj_left.1 h a e2)

/-- Two new keys: an MGet of both can be torn, an MGet of one of them cannot. -/
example : (∃ (g : Cfg) (o : Out), Steps spec true (initial ⟨(⟨fun _ => none, fun _ => none⟩ : Cache), 0⟩ (setGet [([97], [49]), ([98], [50])] [[97], [98]])) g ∧
      (1, .mGet [[97], [98]], o) ∈ g.log ∧ o ≠ .slots (.ok ([[97], [98]].map (slotAt (⟨fun _ => none, fun _ => none⟩ : Cache)))) ∧
      o ≠ .slots (.ok ([[97], [98]].map (slotAt (exec (⟨fun _ => none, fun _ => none⟩ : Cache) 0 (.mSet [([97], [49]), ([98], [50])])).1)))) :=
  (C44_torn_exact (⟨fun _ => none, fun _ => none⟩ : Cache) 0 [([97], [49]), ([98], [50])] [[97], [98]] (fun _ _ => rfl) (by decide)).2
    ⟨[97], [98], List.Sublist.refl _, by decide +kernel, by decide +kernel⟩

end Verif.Conc

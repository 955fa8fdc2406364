import Verif.Suite.Props
import Verif.Cache.PropsCounter
import Verif.Conc.Reorder
/-!
# C123: the tests that depend on what the cache holds, and the whole suite
-/
namespace Verif.Suite
open Cache

/-- C123, `TestCache_GetRange` and `TestCache_DecrBy`: they pass if nothing is left of the key. -/
theorem C123_getRange (clk : Nat → Int) (i : Nat) (c : Cache) (h : SameAt c Cache.new tk) : (run clk i c tGetRange).2 = true := by
  rw [(run_congr clk tGetRange i (P := (· = tk)) (d := Cache.new) (by rintro k rfl; exact h) (within_of (by decide +kernel))).1,
    run_anytime clk (fun _ => 0) _ i 0 new_exp (timeless_of (by decide +kernel))]
  decide +kernel

theorem C123_decrBy (clk : Nat → Int) (i : Nat) (c : Cache) (h : SameAt c Cache.new tk) : (run clk i c tDecrBy).2 = true := by
  rw [(run_congr clk tDecrBy i (P := (· = tk)) (d := Cache.new) (by rintro k rfl; exact h) (within_of (by decide +kernel))).1,
    run_anytime clk (fun _ => 0) _ i 0 new_exp (timeless_of (by decide +kernel))]
  decide +kernel

/-- They leave the key behind: run twice in a row (`go test -run DecrBy -count 2`), the second run fails. -/
theorem C123_violated_twice (l : List Act) (hl : l ∈ [tGetRange, tDecrBy]) (clk : Nat → Int) (i j : Nat) (c : Cache)
    (h : SameAt c Cache.new tk) : (run clk i c l).2 = true ∧ (run clk j (run clk i c l).1 l).2 = false := by
  have hw : withinB l = true ∧ timelessB l = true ∧ (run (fun _ => 0) 0 Cache.new l).2 = true ∧
      (run (fun _ => 0) 0 (run (fun _ => 0) 0 Cache.new l).1 l).2 = false := by
    simp only [List.mem_cons, List.not_mem_nil, or_false] at hl
    rcases hl with rfl | rfl <;> decide +kernel
  obtain ⟨w, t, h1, h2⟩ := hw
  have e1 := run_congr clk l i (P := (· = tk)) (c := c) (d := Cache.new) (by rintro k rfl; exact h) (within_of w)
  have e2 := run_anytime clk (fun _ => 0) l i 0 new_exp (timeless_of t)
  refine ⟨by rw [e1.1, e2, h1], ?_⟩
  rw [(run_congr clk l j (P := (· = tk)) e1.2 (within_of w)).1, e2]
  have hx : ∀ k, (run (fun _ => 0) 0 Cache.new l).1.exp k = none := by
    have : ∀ (l : List Act) (i : Nat) (c : Cache), Timeless l → (∀ k, c.exp k = none) → ∀ k, (run (fun _ => 0) i c l).1.exp k = none := by
      intro l
      induction l with
      | nil => intro i c _ h; exact h
      | cons a l ih =>
        intro i c ht h
        cases a with
        | sleep n => exact ih (i + 1) c (timeless_tail ht) h
        | call op g f =>
          have h1 := (ht op g f List.mem_cons_self).1
          have hx : ∀ k, (exec c 0 op).1.exp k = none := fun k =>
            exec_exp_none _ op (h k) (by rintro v n rfl; exact h1) (by rintro v n rfl; exact h1)
          have := ih (i + 1) _ (timeless_tail ht) hx
          simp only [run]
          split
          · exact this
          · split
            · exact hx
            · exact this
    exact this l 0 _ (timeless_of t) new_exp
  rw [run_anytime clk (fun _ => 0) l j 0 hx (timeless_of t), h2]

/-! ## Maps in any order -/

/-- A pair whose value is shown as it was set. -/
def Plain (p : Bytes × Bytes) : Prop := fmtString (.scalar (tryInt64 p.2)) = .ok p.2

theorem pairs_plain (p : Bytes × Bytes) (h : p ∈ pairs) : Plain p := by
  simp only [pairs, List.mem_cons, List.not_mem_nil, or_false] at h
  unfold Plain
  rcases h with rfl | rfl | rfl | rfl <;> decide +kernel

theorem pairs_map : IsMap pairs := by unfold IsMap pairs; decide

/-- Reading keys that hold their values. -/
theorem run_gets {fatal : Bool} (clk : Nat → Int) (o : List (Bytes × Bytes)) (rest : List Act) : ∀ (i : Nat) (c : Cache),
    (∀ p ∈ o, c.data p.1 = some (.scalar (tryInt64 p.2)) ∧ c.exp p.1 = none ∧ Plain p) →
    run clk i c ((o.map fun p => Act.call (.get p.1) (isStr p.2) fatal) ++ rest) = run clk (i + o.length) c rest := by
  induction o with
  | nil => intro i c _; rfl
  | cons p o ih =>
    intro i c h
    obtain ⟨h1, h2, h3⟩ := h p List.mem_cons_self
    have e : exec c (clk i) (.get p.1) = (c, .str (.ok p.2)) := by
      unfold Plain at h3
      simp [exec, Cache.get, Cache.load, Cache.expired, h1, h2, h3]
    simp only [List.map_cons, List.cons_append, run, e, isStr, beq_self_eq_true, if_true]
    rw [ih (i + 1) c (fun q hq => h q (List.mem_cons_of_mem _ hq)), List.length_cons]
    congr 1; omega

/-- Deleting keys. -/
theorem run_dels (clk : Nat → Int) (o : List (Bytes × Bytes)) (rest : List Act) : ∀ (i : Nat) (c : Cache),
    ∃ d : Cache, run clk i c ((o.map fun p => Act.call (.del p.1) any true) ++ rest) = run clk (i + o.length) d rest ∧
      (∀ k, k ∈ o.map (·.1) → SameAt d Cache.new k) ∧ (∀ k, k ∉ o.map (·.1) → SameAt d c k) := by
  induction o with
  | nil => intro i c; exact ⟨c, rfl, by simp, fun k _ => ⟨rfl, rfl⟩⟩
  | cons p o ih =>
    intro i c
    obtain ⟨d, h1, h2, h3⟩ := ih (i + 1) (exec c (clk i) (.del p.1)).1
    refine ⟨d, ?_, ?_, ?_⟩
    · simp only [List.map_cons, List.cons_append, run, any, if_true]
      rw [show i + (p :: o).length = i + 1 + o.length by rw [List.length_cons]; omega]
      exact h1
    · intro k hk
      by_cases hm : k ∈ o.map (·.1)
      · exact h2 k hm
      · have : k = p.1 := by
          rw [List.map_cons] at hk
          exact (List.mem_cons.1 hk).resolve_right hm
        subst this
        exact (h3 _ hm).trans (del_clean c _ _)
    · intro k hk
      rw [List.map_cons, List.mem_cons, not_or] at hk
      exact (h3 k hk.2).trans (exec_frame c _ _ [p.1] k rfl (by simpa using hk.1))

/-- C123, `TestCache_MSet`: it passes, whatever the orders in which the map is met, if none of its keys has a
deadline. -/
theorem C123_mSet (clk : Nat → Int) (i : Nat) (c : Cache) (o1 o2 : List (Bytes × Bytes)) (h1 : pairs.Perm o1) (h2 : pairs.Perm o2)
    (h : ∀ p ∈ pairs, c.exp p.1 = none) : (run clk i c (tMSet o1 o2)).2 = true := by
  have e : exec c (clk i) (.mSet o1) = exec c (clk i) (.mSet pairs) := (C20_mSet_any_order c pairs o1 (clk i) pairs_map h1).symm
  have hd : ∀ p ∈ o2, (exec c (clk i) (.mSet pairs)).1.data p.1 = some (.scalar (tryInt64 p.2)) ∧
      (exec c (clk i) (.mSet pairs)).1.exp p.1 = none ∧ Plain p := by
    intro p hp
    have hp' := h2.mem_iff.2 hp
    refine ⟨?_, ?_, pairs_plain p hp'⟩
    · exact data_mSet_mem (k := p.1) (v := p.2) pairs_map hp'
    · show (c.mSet pairs).1.exp p.1 = none
      rw [exp_mSet]; exact h p hp'
  have hg : isStr OK (exec c (clk i) (.mSet pairs)).2 = true := by rfl
  simp only [tMSet, run, e]
  rw [if_pos hg]
  have := run_gets (fatal := false) clk o2 [] (i + 1) _ hd
  rw [List.append_nil] at this
  rw [this]
  rfl

/-- C123, `TestCache_MSetNX`: it passes from every state and for all orders. -/
theorem C123_mSetNX (clk : Nat → Int) (i : Nat) (c : Cache) (o1 o2 o3 o4 : List (Bytes × Bytes)) (h1 : pairs.Perm o1)
    (h2 : pairs.Perm o2) (h3 : pairs.Perm o3) (h4 : pairs.Perm o4) : (run clk i c (tMSetNX o1 o2 o3 o4)).2 = true ∧
      ∀ p ∈ pairs, (run clk i c (tMSetNX o1 o2 o3 o4)).1.data p.1 = some (.scalar (tryInt64 p.2)) ∧
        (run clk i c (tMSetNX o1 o2 o3 o4)).1.exp p.1 = none := by
  obtain ⟨d, e1, e2, _⟩ := run_dels clk o1 (.call (.mSetNX o2) (isInt o2.length) true ::
    (o3.map fun p => .call (.get p.1) (isStr p.2) true) ++ [.call (.mSetNX o4) (isInt 0) true]) i c
  have hclean : ∀ p ∈ pairs, SameAt d Cache.new p.1 := fun p hp =>
    e2 _ (List.mem_map_of_mem (h1.mem_iff.1 hp))
  unfold tMSetNX
  rw [List.append_assoc, e1]
  have m2 := pairs_map.perm h2
  have A := C21_mSetNX_partial d o2 (clk (i + o1.length)) m2
  have ho : isInt o2.length (exec d (clk (i + o1.length)) (.mSetNX o2)).2 = true := by
    rw [A.1]
    have : o2.filter (fun p => (d.data p.1).isNone) = o2 := by
      rw [List.filter_eq_self]
      intro p hp
      rw [(hclean p (h2.mem_iff.2 hp)).1]; rfl
    rw [this]
    rw [← h2.length_eq]
    decide
  have hdat : ∀ p ∈ pairs, (exec d (clk (i + o1.length)) (.mSetNX o2)).1.data p.1 = some (.scalar (tryInt64 p.2)) ∧
      (exec d (clk (i + o1.length)) (.mSetNX o2)).1.exp p.1 = none := by
    intro p hp
    have hs := A.2.2.2 p.1 p.2 (h2.mem_iff.1 hp) (hclean p hp).1
    refine ⟨by rw [hs.1]; simp [exec, Cache.set, store, upd], by rw [hs.2]; exact (hclean p hp).2⟩
  simp only [List.cons_append, run]
  rw [if_pos ho]
  generalize (exec d (clk (i + o1.length)) (.mSetNX o2)).1 = c' at hdat ⊢
  rw [run_gets (fatal := true) clk o3 _ _ c' (fun p hp =>
    ⟨(hdat p (h3.mem_iff.2 hp)).1, (hdat p (h3.mem_iff.2 hp)).2, pairs_plain p (h3.mem_iff.2 hp)⟩)]
  have B := C21_mSetNX_partial c' o4 (clk (i + o1.length + 1 + o3.length)) (pairs_map.perm h4)
  have hz : isInt 0 (exec c' (clk (i + o1.length + 1 + o3.length)) (.mSetNX o4)).2 = true := by
    rw [B.1]
    have : o4.filter (fun p => (c'.data p.1).isNone) = [] := by
      rw [List.filter_eq_nil_iff]
      intro p hp
      rw [(hdat p (h4.mem_iff.2 hp)).1]; simp
    rw [this]; decide
  simp only [run]
  rw [if_pos hz]
  refine ⟨rfl, fun p hp => ?_⟩
  have hs := B.2.1 p.1 (by rw [(hdat p hp).1]; rfl)
  exact ⟨hs.1.trans (hdat p hp).1, hs.2.trans (hdat p hp).2⟩

/-! ## The whole suite -/

/-- The verdicts of tests run one after another. -/
def runAll (clk : Nat → Int) : Nat → Cache → List (List Act) → List Bool
  | _, _, [] => []
  | i, c, l :: ls => (run clk i c l).2 :: runAll clk (i + l.length) (run clk i c l).1 ls

/-- The cache after tests run one after another. -/
def after (clk : Nat → Int) : Nat → Cache → List (List Act) → Cache
  | _, c, [] => c
  | i, c, l :: ls => after clk (i + l.length) (run clk i c l).1 ls

/-- The tests in the order in which `go test` runs them: by file name, then as they stand in the file. -/
def suite (o1 o2 o3 o4 o5 o6 : List (Bytes × Bytes)) : List (List Act) :=
  [tHSet, tHSetNX, tHExists, tHGet, tHDel, tSet, tSetNX, tSetEX, tPSetEX, tGet, tGetSet, tStrLen, tAppend, tSetRange, tGetRange,
   tIncr, tIncrBy, tIncrByFloat, tDecr, tDecrBy, tMSet o1 o2, tMSetNX o3 o4 o5 o6]

/-- No call of the test writes `k`. -/
def silentB (k : Bytes) : List Act → Bool
  | [] => true
  | .sleep _ :: l => silentB k l
  | .call op _ _ :: l => !op.writes k && silentB k l

theorem silentB_of {k : Bytes} {l : List Act} (h : ∀ op g f, Act.call op g f ∈ l → op.writes k = false) : silentB k l = true := by
  induction l with
  | nil => rfl
  | cons a l ih =>
    have := ih fun op g f hm => h op g f (List.mem_cons_of_mem _ hm)
    cases a with
    | sleep n => exact this
    | call op g f => simp only [silentB, this, h op g f List.mem_cons_self, Bool.not_false, Bool.and_self]

/-- The keys other than "test" are not written. -/
def quietB (l : List Act) : Bool :=
  silentB b!"a" l && silentB b!"b" l && silentB b!"c" l && silentB b!"d" l && silentB b!"test1" l

/-- A key that is not written stays as it is. -/
theorem run_silent {k : Bytes} (clk : Nat → Int) (l : List Act) : ∀ (i : Nat) (c : Cache), silentB k l = true → c.exp k = none →
    (run clk i c l).1.data k = c.data k ∧ (run clk i c l).1.exp k = none := by
  induction l with
  | nil => intro i c _ h; exact ⟨rfl, h⟩
  | cons a l ih =>
    intro i c hs h
    cases a with
    | sleep n => exact ih (i + 1) c hs h
    | call op g f =>
      simp only [silentB, Bool.and_eq_true, Bool.not_eq_true'] at hs
      have hx := data_of_not_writes (t := clk i) hs.1 h
      have := ih (i + 1) _ hs.2 hx.2
      rw [hx.1] at this
      simp only [run]
      split
      · exact this
      · split
        · exact hx
        · exact this

/-- A test without `t.Fatal` before its last statement, or one that passed, has reached its last statement. -/
theorem run_last (clk : Nat → Int) (l : List Act) : ∀ (i : Nat) (c : Cache),
    ((run clk i c (l ++ [delTest])).2 = true ∨ ∀ op g f, Act.call op g f ∈ l → f = true → ∀ o, g o = true) →
    SameAt (run clk i c (l ++ [delTest])).1 Cache.new tk := by
  induction l with
  | nil => intro i c _; exact del_clean c _ _
  | cons a l ih =>
    intro i c h
    cases a with
    | sleep n =>
      exact ih (i + 1) c (h.imp id fun h op g f hm => h op g f (List.mem_cons_of_mem _ hm))
    | call op g f =>
      simp only [List.cons_append, run] at h ⊢
      have hn : ∀ (h : ∀ op' g' f', Act.call op' g' f' ∈ Act.call op g f :: l → f' = true → ∀ o, g' o = true),
          ∀ op' g' f', Act.call op' g' f' ∈ l → f' = true → ∀ o, g' o = true :=
        fun h op g f hm => h op g f (List.mem_cons_of_mem _ hm)
      by_cases hg : g (exec c (clk i) op).2 = true
      · rw [if_pos hg] at h ⊢
        exact ih _ _ (h.imp id hn)
      · rw [if_neg hg] at h ⊢
        have h' : ∀ op' g' f', Act.call op' g' f' ∈ Act.call op g f :: l → f' = true → ∀ o, g' o = true := by
          rcases h with h | h
          · split at h <;> cases h
          · exact h
        by_cases hf : f = true
        · exact absurd (h' op g f List.mem_cons_self hf _) hg
        · rw [if_neg hf]
          exact ih _ _ (.inr (hn h'))

/-- What the tests need of the keys other than "test". -/
def Ready (c : Cache) : Prop :=
  (∀ p ∈ pairs, c.exp p.1 = none) ∧ c.exp b!"test1" = none ∧ c.data b!"test1" = none

theorem ready_run {clk : Nat → Int} {i : Nat} {c : Cache} {l : List Act}
    (hs : quietB l = true) (h : Ready c) :
    Ready (run clk i c l).1 ∧ (run clk i c l).1.data b!"a" = c.data b!"a" := by
  simp only [quietB, Bool.and_eq_true] at hs
  obtain ⟨⟨⟨⟨ha, hb⟩, hc⟩, hd⟩, ht⟩ := hs
  have e := h.1
  simp only [pairs, List.mem_cons, List.not_mem_nil, or_false, forall_eq_or_imp, forall_eq] at e
  have hT := run_silent clk l i c ht h.2.1
  have hA := run_silent clk l i c ha e.1
  refine ⟨⟨?_, hT.2, hT.1.trans h.2.2⟩, hA.1⟩
  simp only [pairs, List.mem_cons, List.not_mem_nil, or_false, forall_eq_or_imp, forall_eq]
  exact ⟨hA.2, (run_silent clk l i c hb e.2.1).2, (run_silent clk l i c hc e.2.2.1).2, (run_silent clk l i c hd e.2.2.2).2⟩

/-- The verdicts of the suite, given the clock and whether the key "a" is there at the start. -/
def verdicts (clk : Nat → Int) (i : Nat) (a : Bool) : List Bool :=
  [true, true, !a, true, false, true, true,
   decide (clk (i + 30) ≤ clk (i + 29) + 1000000000 ∧ clk (i + 29) + 1000000000 < clk (i + 32)),
   decide (clk (i + 35) ≤ clk (i + 34) + 100000000 ∧ clk (i + 34) + 100000000 < clk (i + 37)),
   true, true, true, true, true, true, true, true, true, true, true, true, true]

/-- The tests `ls` give the verdicts `vs`, and leave the cache ready for another round and with a key "a". -/
def Goes (clk : Nat → Int) (i : Nat) (c : Cache) (ls : List (List Act)) (vs : List Bool) : Prop :=
  runAll clk i c ls = vs ∧ Ready (after clk i c ls) ∧ (after clk i c ls).data b!"a" ≠ none

theorem goes_cons {clk : Nat → Int} {i : Nat} {c : Cache} {l : List Act} {ls : List (List Act)} {v : Bool} {vs : List Bool}
    (h1 : (run clk i c l).2 = v) (h2 : Goes clk (i + l.length) (run clk i c l).1 ls vs) : Goes clk i c (l :: ls) (v :: vs) := by
  subst h1
  exact ⟨by rw [runAll, h2.1], h2.2⟩

/-- One test of the suite that leaves the other keys alone. -/
theorem goes_step {clk : Nat → Int} {i n : Nat} {c : Cache} {l : List Act} {ls : List (List Act)} {v x : Bool} {vs : List Bool}
    (hq : quietB l = true) (h : Ready c) (ha : (c.data b!"a").isSome = x) (h1 : (run clk i c l).2 = v) (hn : l.length = n)
    (h2 : ∀ d, Ready d → (d.data b!"a").isSome = x → Goes clk (i + n) d ls vs) : Goes clk i c (l :: ls) (v :: vs) := by
  subst hn
  have := ready_run (clk := clk) (i := i) hq h
  exact goes_cons h1 (h2 _ this.1 (by rw [this.2, ha]))

/-- The same for a test that passes and ends with `client.Del("test")`. -/
theorem goes_clean {clk : Nat → Int} {i n : Nat} {c : Cache} {l : List Act} {ls : List (List Act)} {x : Bool} {vs : List Bool}
    (hq : quietB (l ++ [delTest]) = true) (h : Ready c) (ha : (c.data b!"a").isSome = x) (h1 : (run clk i c (l ++ [delTest])).2 = true)
    (hn : (l ++ [delTest]).length = n) (h2 : ∀ d, Ready d → (d.data b!"a").isSome = x → SameAt d Cache.new tk → Goes clk (i + n) d ls vs) :
    Goes clk i c ((l ++ [delTest]) :: ls) (true :: vs) := by
  subst hn
  have := ready_run (clk := clk) (i := i) hq h
  exact goes_cons h1 (h2 _ this.1 (by rw [this.2, ha]) (run_last clk l i c (.inl h1)))

theorem suite_goes (clk : Nat → Int) (i : Nat) (c : Cache) (o1 o2 o3 o4 o5 o6 : List (Bytes × Bytes)) (h1 : pairs.Perm o1)
    (h2 : pairs.Perm o2) (h3 : pairs.Perm o3) (h4 : pairs.Perm o4) (h5 : pairs.Perm o5) (h6 : pairs.Perm o6) (h : Ready c) :
    Goes clk i c (suite o1 o2 o3 o4 o5 o6) (verdicts clk i (c.data b!"a").isSome) := by
  generalize ha : (c.data b!"a").isSome = x
  unfold suite verdicts
  refine goes_step (n := 3) (by decide +kernel) h ha (C123_steady tHSet (by simp [steady]) _ _ _) rfl fun c h ha => ?_
  refine goes_step (n := 3) (by decide +kernel) h ha (C123_steady tHSetNX (by simp [steady]) _ _ _) rfl fun c h ha => ?_
  refine goes_step (n := 4) (by decide +kernel) h ha ?_ rfl fun c h ha => ?_
  · have := C123_hExists_exact clk (i + 3 + 3) c
    revert this ha
    cases x <;> cases c.data b!"a" <;> simp
  refine goes_step (n := 6) (by decide +kernel) h ha (C123_hGet _ _ _ h.2.2) rfl fun c h ha => ?_
  refine goes_step (n := 5) (by decide +kernel) h ha (C123_violated_hDel _ _ _) rfl fun c h ha => ?_
  refine goes_step (n := 2) (by decide +kernel) h ha (C123_set _ _ _) rfl fun c h ha => ?_
  refine goes_step (n := 5) (by decide +kernel) h ha (C123_setNX _ _ _) rfl fun c h ha => ?_
  refine goes_step (n := 6) (by decide +kernel) h ha ?_ rfl fun c h ha => ?_
  · rw [Bool.eq_iff_iff, C123_setEX_exact, decide_eq_true_iff]
  refine goes_step (n := 5) (by decide +kernel) h ha ?_ rfl fun c h ha => ?_
  · rw [Bool.eq_iff_iff, C123_pSetEX_exact, decide_eq_true_iff]
  refine goes_step (n := 8) (by decide +kernel) h ha (C123_steady tGet (by simp [steady]) _ _ _) rfl fun c h ha => ?_
  refine goes_step (n := 4) (by decide +kernel) h ha (C123_steady tGetSet (by simp [steady]) _ _ _) rfl fun c h ha => ?_
  refine goes_step (n := 5) (by decide +kernel) h ha (C123_steady tStrLen (by simp [steady]) _ _ _) rfl fun c h ha => ?_
  refine goes_step (n := 13) (by decide +kernel) h ha (C123_steady tAppend (by simp [steady]) _ _ _) rfl fun c h ha => ?_
  refine goes_clean (l := tSetRange.dropLast) (n := 17) (by decide +kernel) h ha (C123_steady tSetRange (by simp [steady]) _ _ _) rfl
    fun c h ha hc => ?_
  refine goes_step (n := 7) (by decide +kernel) h ha (C123_getRange _ _ _ hc) rfl fun c h ha => ?_
  refine goes_step (n := 4) (by decide +kernel) h ha (C123_steady tIncr (by simp [steady]) _ _ _) rfl fun c h ha => ?_
  refine goes_step (n := 5) (by decide +kernel) h ha (C123_steady tIncrBy (by simp [steady]) _ _ _) rfl fun c h ha => ?_
  refine goes_step (n := 7) (by decide +kernel) h ha (C123_steady tIncrByFloat (by simp [steady]) _ _ _) rfl fun c h ha => ?_
  refine goes_clean (l := tDecr.dropLast) (n := 4) (by decide +kernel) h ha (C123_steady tDecr (by simp [steady]) _ _ _) rfl
    fun c h ha hc => ?_
  refine goes_step (n := 2) (by decide +kernel) h ha (C123_decrBy _ _ _ hc) rfl fun c h ha => ?_
  refine goes_cons (C123_mSet _ _ _ _ _ h1 h2 h.1) ?_
  have hp : ∀ {o : List (Bytes × Bytes)}, pairs.Perm o → ∀ p ∈ o, p.1 ≠ b!"test1" := by
    intro o ho p hp e
    have hm := ho.mem_iff.2 hp
    simp only [pairs, List.mem_cons, List.not_mem_nil, or_false] at hm
    rcases hm with rfl | rfl | rfl | rfl <;> revert e <;> decide
  have ht : silentB b!"test1" (tMSet o1 o2) = true := by
    refine silentB_of fun op g f hm => ?_
    simp only [tMSet, List.mem_cons, Act.call.injEq, List.mem_map] at hm
    rcases hm with ⟨rfl, -, -⟩ | ⟨p, -, rfl, -, -⟩
    · simpa [Call.writes] using fun a b hm => hp h1 (a, b) hm
    · rfl
  have t1 := run_silent clk (tMSet o1 o2) (i + 3 + 3 + 4 + 6 + 5 + 2 + 5 + 6 + 5 + 8 + 4 + 5 + 13 + 17 + 7 + 4 + 5 + 7 + 4 + 2) c ht h.2.1
  generalize (run clk _ c (tMSet o1 o2)).1 = d at t1 ⊢
  generalize i + 3 + 3 + 4 + 6 + 5 + 2 + 5 + 6 + 5 + 8 + 4 + 5 + 13 + 17 + 7 + 4 + 5 + 7 + 4 + 2 + (tMSet o1 o2).length = j
  have m := C123_mSetNX clk j d o3 o4 o5 o6 h3 h4 h5 h6
  refine goes_cons m.1 ⟨rfl, ?_, ?_⟩
  · have hs : silentB b!"test1" (tMSetNX o3 o4 o5 o6) = true := by
      refine silentB_of fun op g f hm => ?_
      simp only [tMSetNX, List.mem_append, List.mem_cons, Act.call.injEq, List.mem_map, List.not_mem_nil, or_false] at hm
      rcases hm with (⟨p, hm, rfl, -, -⟩ | ⟨rfl, -, -⟩ | ⟨p, -, rfl, -, -⟩) | ⟨rfl, -, -⟩
      · simpa [Call.writes] using hp h3 p hm
      · simpa [Call.writes] using fun a b hm => hp h4 (a, b) hm
      · rfl
      · simpa [Call.writes] using fun a b hm => hp h6 (a, b) hm
    have t2 := run_silent clk (tMSetNX o3 o4 o5 o6) j d hs t1.2
    exact ⟨fun p hp => (m.2 p hp).2, t2.2, t2.1.trans (t1.1.trans h.2.2)⟩
  · show (run clk j d (tMSetNX o3 o4 o5 o6)).1.data b!"a" ≠ none
    rw [(m.2 (b!"a", b!"a") (by simp [pairs])).1]
    simp

/-- C123, exactly: run as `go test` runs them, from any state in which the keys "a" to "d" have no deadline and
there is no key "test1", all tests pass but these: `TestCache_HDel` fails; `TestCache_HExists` fails if there is a
key "a"; `TestCache_SetEX` and `TestCache_PSetEX` fail unless the clock readings lie on the right sides of the
deadlines. -/
theorem C123_suite_exact (clk : Nat → Int) (i : Nat) (c : Cache) (o1 o2 o3 o4 o5 o6 : List (Bytes × Bytes)) (h1 : pairs.Perm o1)
    (h2 : pairs.Perm o2) (h3 : pairs.Perm o3) (h4 : pairs.Perm o4) (h5 : pairs.Perm o5) (h6 : pairs.Perm o6) (h : Ready c) :
    runAll clk i c (suite o1 o2 o3 o4 o5 o6) = verdicts clk i (c.data b!"a").isSome :=
  (suite_goes clk i c o1 o2 o3 o4 o5 o6 h1 h2 h3 h4 h5 h6 h).1

theorem ready_new : Ready Cache.new := ⟨fun _ _ => rfl, rfl, rfl⟩

/-- C123 for `go test` in a fresh process: one failure, that of `TestCache_HDel`, if the clock moves as the two
tests with deadlines expect. -/
theorem C123_first_round (clk : Nat → Int) (o1 o2 o3 o4 o5 o6 : List (Bytes × Bytes)) (h1 : pairs.Perm o1)
    (h2 : pairs.Perm o2) (h3 : pairs.Perm o3) (h4 : pairs.Perm o4) (h5 : pairs.Perm o5) (h6 : pairs.Perm o6)
    (t1 : clk 30 ≤ clk 29 + 1000000000) (t2 : clk 29 + 1000000000 < clk 32) (t3 : clk 35 ≤ clk 34 + 100000000)
    (t4 : clk 34 + 100000000 < clk 37) :
    runAll clk 0 Cache.new (suite o1 o2 o3 o4 o5 o6) =
      [true, true, true, true, false, true, true, true, true, true, true, true, true, true, true, true, true, true, true, true,
       true, true] := by
  rw [C123_suite_exact clk 0 _ o1 o2 o3 o4 o5 o6 h1 h2 h3 h4 h5 h6 ready_new]
  simp only [verdicts, Nat.zero_add, t1, t2, t3, t4, and_self, decide_true]
  rfl

/-- The hypotheses can be met: the sleeps last a little longer than asked. -/
example : ∃ clk : Nat → Int, clk 30 ≤ clk 29 + 1000000000 ∧ clk 29 + 1000000000 < clk 32 ∧ clk 35 ≤ clk 34 + 100000000 ∧
    clk 34 + 100000000 < clk 37 ∧ ∀ i, clk i ≤ clk (i + 1) :=
  ⟨fun i => if i < 32 then 0 else if i < 37 then 1000000001 else 1100000002, by decide, by decide, by decide, by decide, by
    intro i; simp only; split <;> split <;> (try split) <;> omega⟩

/-- C123 with `-count 2`: in the second round `TestCache_HExists` fails too, for `TestCache_MSetNX` leaves the key "a"
behind. -/
theorem C123_violated_second_round (clk : Nat → Int) (i j : Nat) (c : Cache) (o1 o2 o3 o4 o5 o6 : List (Bytes × Bytes))
    (p1 p2 p3 p4 p5 p6 : List (Bytes × Bytes)) (h1 : pairs.Perm o1) (h2 : pairs.Perm o2) (h3 : pairs.Perm o3) (h4 : pairs.Perm o4)
    (h5 : pairs.Perm o5) (h6 : pairs.Perm o6) (k1 : pairs.Perm p1) (k2 : pairs.Perm p2) (k3 : pairs.Perm p3) (k4 : pairs.Perm p4)
    (k5 : pairs.Perm p5) (k6 : pairs.Perm p6) (h : Ready c) :
    runAll clk j (after clk i c (suite o1 o2 o3 o4 o5 o6)) (suite p1 p2 p3 p4 p5 p6) = verdicts clk j true := by
  obtain ⟨-, hr, ha⟩ := suite_goes clk i c o1 o2 o3 o4 o5 o6 h1 h2 h3 h4 h5 h6 h
  rw [C123_suite_exact clk j _ p1 p2 p3 p4 p5 p6 k1 k2 k3 k4 k5 k6 hr]
  congr 1
  exact Option.isSome_iff_ne_none.2 ha

/-- Without the condition on deadlines `TestCache_MSet` can fail: `MSet` does not take an old deadline away. -/
theorem C123_violated_stale : (run (fun _ => 1) 0 ⟨fun _ => none, fun k => if k = b!"a" then some 0 else none⟩
    (tMSet pairs pairs)).2 = false := by decide +kernel

end Verif.Suite

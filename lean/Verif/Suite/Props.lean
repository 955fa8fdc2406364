import Verif.Suite.Lemmas
import Verif.Cache.PropsDb
/-!
# C123: the repository's own tests, for every state, clock and map order
-/
namespace Verif.Suite
open Cache

/-! ## What the tests ask for -/

/-- The conditions under which the tests go on: the result asked for and no error, or just the error asked for. -/
theorem C123_conditions (o : Out) :
    (∀ s, isStr s o = true ↔ o = .str (.ok s)) ∧ (∀ i, isInt i o = true ↔ o = .int (.ok i)) ∧
    (∀ i, notInt i o = true ↔ ∃ n, n ≠ i ∧ o = .int (.ok n)) ∧ (∀ x, isFloat x o = true ↔ o = .float (.ok x)) ∧
    (strNoErr o = true ↔ ∃ s, o = .str (.ok s)) ∧ (strErr o = true ↔ ∃ e, o = .str (.err e)) ∧
    (strKeyNil o = true ↔ o = .str (.err .keyNil)) := by
  refine ⟨fun s => ?_, fun i => ?_, fun i => ?_, fun x => ?_, ?_, ?_, ?_⟩
  · unfold isStr; split <;> simp_all
  · unfold isInt; split <;> simp_all
  · unfold notInt; split
    · rename_i n; simp
    · rename_i h; simp only [Bool.false_eq_true, false_iff]; rintro ⟨n, _, rfl⟩; exact h n rfl
  · unfold isFloat; split <;> simp_all
  · unfold strNoErr; split <;> simp_all
  · unfold strErr; split <;> simp_all
  · unfold strKeyNil; split <;> simp_all

example : isInt 1 (.int (.ok 1)) = true ∧ isInt 1 (.int (.err .wrongType)) = false := by decide

/-! ## Tests that begin by deleting the key -/

/-- A test that begins with `client.Del("test")` and names only that key passes from any state just as
it does in a new cache. -/
theorem from_new {l : List Act} (clk : Nat → Int) (i : Nat) (c : Cache) (hw : Within (· = tk) l) (ht : Timeless l) :
    (run clk i c (delTest :: l)).2 = (run (fun _ => 0) 0 Cache.new l).2 := by
  have h1 := (run_congr clk l (i + 1) (c := (exec c (clk i) (.del tk)).1) (d := Cache.new) (P := (· = tk))
    (by rintro k rfl; exact del_clean c _ _) hw).1
  have h2 := run_anytime clk (fun _ => 0) l (i + 1) 0 new_exp ht
  simp only [delTest, run, any, if_true]
  rw [h1, h2]

/-- Key by key check of a concrete test. -/
def withinB : List Act → Bool
  | [] => true
  | .sleep _ :: l => withinB l
  | .call op _ _ :: l => (match op.keys with | some ks => ks.all (· == tk) | none => false) && withinB l

theorem within_of {l : List Act} (h : withinB l = true) : Within (· = tk) l := by
  induction l with
  | nil => intro op g f hm; cases hm
  | cons a l ih =>
    cases a with
    | sleep n =>
      intro op g f hm
      rcases List.mem_cons.1 hm with e | hm
      · cases e
      · exact ih h op g f hm
    | call op g f =>
      simp only [withinB, Bool.and_eq_true] at h
      intro op' g' f' hm
      rcases List.mem_cons.1 hm with e | hm
      · cases e
        intro ks hk k hkk
        have h1 := h.1
        rw [hk] at h1
        simp only [List.all_eq_true, beq_iff_eq] at h1
        exact h1 k hkk
      · exact ih h.2 op' g' f' hm

def timelessB : List Act → Bool
  | [] => true
  | .sleep _ :: l => timelessB l
  | .call op _ _ :: l => (match op with | .setEX .. | .pSetEX .. | .cronTick => false | _ => true) && timelessB l

theorem timeless_of {l : List Act} (h : timelessB l = true) : Timeless l := by
  induction l with
  | nil => intro op g f hm; cases hm
  | cons a l ih =>
    cases a with
    | sleep n =>
      intro op g f hm
      rcases List.mem_cons.1 hm with e | hm
      · cases e
      · exact ih h op g f hm
    | call op g f =>
      simp only [timelessB, Bool.and_eq_true] at h
      intro op' g' f' hm
      rcases List.mem_cons.1 hm with e | hm
      · cases e
        have h1 := h.1
        constructor
        · cases op <;> first | trivial | cases h1
        · rintro rfl; cases h1
      · exact ih h.2 op' g' f' hm

/-- The tests that pass from every state. -/
def steady : List (List Act) :=
  [tHSet, tHSetNX, tGet, tGetSet, tStrLen, tAppend, tSetRange, tIncr, tIncrBy, tIncrByFloat, tDecr]

/-- C123: these tests pass whatever the cache holds when they begin and whatever the clock shows. -/
theorem C123_steady (l : List Act) (hl : l ∈ steady) (clk : Nat → Int) (i : Nat) (c : Cache) : (run clk i c l).2 = true := by
  have key : ∀ l ∈ steady, ∃ r, l = delTest :: r ∧ withinB r = true ∧ timelessB r = true ∧
      (run (fun _ => 0) 0 Cache.new r).2 = true := by
    intro l hl
    simp only [steady, List.mem_cons, List.not_mem_nil, or_false] at hl
    rcases hl with rfl | rfl | rfl | rfl | rfl | rfl | rfl | rfl | rfl | rfl | rfl <;>
      exact ⟨_, rfl, by decide +kernel, by decide +kernel, by decide +kernel⟩
  obtain ⟨r, rfl, h1, h2, h3⟩ := key l hl
  rw [from_new clk i c (within_of h1) (timeless_of h2), h3]

/-- C123 is false: `TestCache_HDel` fails from every state.  It deletes the only field and expects that
deleting it once more, with another that was never there, reports one deleted field. -/
theorem C123_violated_hDel (clk : Nat → Int) (i : Nat) (c : Cache) : (run clk i c tHDel).2 = false := by
  unfold tHDel
  rw [from_new clk i c (within_of (by decide +kernel)) (timeless_of (by decide +kernel))]
  decide +kernel

/-- C123, `TestCache_Set`: passes from every state. -/
theorem C123_set (clk : Nat → Int) (i : Nat) (c : Cache) : (run clk i c tSet).2 = true := rfl

/-- C123, `TestCache_SetNX`: passes from every state. -/
theorem C123_setNX (clk : Nat → Int) (i : Nat) (c : Cache) : (run clk i c tSetNX).2 = true := by
  have h1 : exec c (clk i) (.set tk tk) = (c.store tk (.scalar (tryInt64 tk)), .str (.ok OK)) := rfl
  have h2 : exec (c.store tk (.scalar (tryInt64 tk))) (clk (i + 1)) (.setNX tk tk) = (c.store tk (.scalar (tryInt64 tk)), .int (.ok 0)) := by
    simp [exec, Cache.setNX, store, upd, GoRes.map]; rfl
  have e := from_new (l := [.call (.setNX tk tk) (notInt 0) true, delTest]) clk (i + 2) (c.store tk (.scalar (tryInt64 tk)))
    (within_of (by decide +kernel)) (timeless_of (by decide +kernel))
  have e' : (run (fun _ => 0) 0 Cache.new [.call (.setNX tk tk) (notInt 0) true, delTest]).2 = true := by decide +kernel
  rw [e'] at e
  simp only [tSetNX, run, h1, h2]
  exact e

/-- C123, `TestCache_HExists`, exactly: it passes if and only if the key "a" is not there, because the line
meant to look for the field "a" looks for the key. -/
theorem C123_hExists_exact (clk : Nat → Int) (i : Nat) (c : Cache) : (run clk i c tHExists).2 = true ↔ c.data b!"a" = none := by
  have hd : SameAt (exec c (clk i) (.del tk)).1 c b!"a" := exec_frame c _ _ [tk] _ rfl (by decide)
  have hc := del_clean c (clk i) tk
  have he : exec (exec c (clk i) (.del tk)).1 (clk (i + 1)) (.exists_ [tk, b!"a"]) =
      ((exec c (clk i) (.del tk)).1, .int (.ok (if c.data b!"a" = none then 0 else 1))) := by
    simp only [exec, Cache.exists]
    have x1 : (exec c (clk i) (.del tk)).1.data tk = none := hc.1
    have x2 : (exec c (clk i) (.del tk)).1.data b!"a" = c.data b!"a" := hd.1
    simp only [exec] at x1 x2
    cases h : c.data b!"a" <;> simp [x1, x2, h]
  have hr : (run clk (i + 2) (exec c (clk i) (.del tk)).1 [.call (.hSet tk b!"a" b!"b") (isInt 1) true,
      .call (.hExists tk b!"a") (isInt 1) true]).2 = true := by
    have w : Within (· = tk) [.call (.hSet tk b!"a" b!"b") (isInt 1) true, .call (.hExists tk b!"a") (isInt 1) true] :=
      within_of (by decide +kernel)
    rw [(run_congr clk _ (i + 2) (P := (· = tk)) (c := (exec c (clk i) (.del tk)).1) (d := Cache.new) (by rintro k rfl; exact hc) w).1,
      run_anytime clk (fun _ => 0) _ (i + 2) 0 new_exp (timeless_of (by decide +kernel))]
    decide +kernel
  simp only [tHExists, delTest, run, any, if_true, he]
  by_cases h : c.data b!"a" = none
  · rw [if_pos h]
    simp only [h, iff_true]
    exact hr
  · rw [if_neg h]
    simp [isInt, h]

/-- C123, `TestCache_HGet`: it passes if there is no hash "test1" with a field "b". -/
theorem C123_hGet (clk : Nat → Int) (i : Nat) (c : Cache) (h : c.data b!"test1" = none) : (run clk i c tHGet).2 = true := by
  have hd : SameAt (exec c (clk i) (.del tk)).1 c b!"test1" := exec_frame c _ _ [tk] _ rfl (by decide)
  have hc := del_clean c (clk i) tk
  have w : Within (fun k => k = tk ∨ k = b!"test1") tHGet.tail := by
    intro op g f hm
    simp only [tHGet, List.tail_cons, List.mem_cons, List.not_mem_nil, or_false] at hm
    rcases hm with e | e | e | e | e <;> cases e <;> intro ks hk k hkk <;> cases hk <;> simp at hkk <;> simp [hkk]
  let d : Cache := { data := Cache.new.data, exp := upd Cache.new.exp b!"test1" (c.exp b!"test1") }
  have hs : ∀ k, (k = tk ∨ k = b!"test1") → SameAt (exec c (clk i) (.del tk)).1 d k := by
    rintro k (rfl | rfl)
    · exact hc
    · exact ⟨hd.1.trans h, by rw [hd.2]; simp [d, upd]⟩
  have e := (run_congr clk tHGet.tail (i + 1) hs w).1
  have e0 : (run clk i c tHGet).2 = (run clk (i + 1) (exec c (clk i) (.del tk)).1 tHGet.tail).2 := by
    simp only [tHGet, delTest, run, any, if_true, List.tail_cons]
  rw [e0, e]
  rfl

/-! ## Deadlines -/

/-- C123, `TestCache_SetEX`, exactly: it passes from any state if and only if the first `Get` comes no later than a
second after `SetEX` and the second `Get` comes more than a second after it. -/
theorem C123_setEX_exact (clk : Nat → Int) (i : Nat) (c : Cache) :
    (run clk i c tSetEX).2 = true ↔ clk (i + 2) ≤ clk (i + 1) + 1000000000 ∧ clk (i + 1) + 1000000000 < clk (i + 4) := by
  have w : Within (· = tk) tSetEX.tail := within_of (by decide +kernel)
  have e0 : (run clk i c tSetEX).2 = (run clk (i + 1) (exec c (clk i) (.del tk)).1 tSetEX.tail).2 := by
    simp only [tSetEX, delTest, run, any, if_true, List.tail_cons]
  rw [e0, (run_congr clk tSetEX.tail (i + 1) (P := (· = tk)) (d := Cache.new) (by rintro k rfl; exact del_clean c _ _) w).1]
  let d : Cache := ⟨upd Cache.new.data tk (some (.scalar (tryInt64 tk))), upd Cache.new.exp tk (some (clk (i + 1) + 1000000000))⟩
  have h1 : exec Cache.new (clk (i + 1)) (.setEX tk tk 1) = (d, .str (.ok OK)) := rfl
  have hv : fmtString (.scalar (tryInt64 tk)) = .ok tk := by decide +kernel
  have hexp : d.exp tk = some (clk (i + 1) + 1000000000) := by simp [d, upd]
  have hdat : d.data tk = some (.scalar (tryInt64 tk)) := by simp [d, upd]
  have h2 : ∀ t, exec d t (.get tk) = if clk (i + 1) + 1000000000 < t
      then ({ data := upd d.data tk none, exp := upd d.exp tk none }, .str (.err .keyNil)) else (d, .str (.ok tk)) := by
    intro t
    simp only [exec, Cache.get, Cache.load, Cache.expired, hdat, hexp]
    by_cases h : clk (i + 1) + 1000000000 < t <;> simp [h, hv]
  by_cases a : clk (i + 1) + 1000000000 < clk (i + 2) <;> by_cases b : clk (i + 1) + 1000000000 < clk (i + 4) <;>
    simp [tSetEX, run, h1, h2, a, b, isStr, strKeyNil, delTest, any, Nat.add_assoc] <;> omega

/-- C123, `TestCache_PSetEX`, exactly. -/
theorem C123_pSetEX_exact (clk : Nat → Int) (i : Nat) (c : Cache) :
    (run clk i c tPSetEX).2 = true ↔ clk (i + 1) ≤ clk i + 100000000 ∧ clk i + 100000000 < clk (i + 3) := by
  let d : Cache := ⟨upd c.data tk (some (.scalar (tryInt64 tk))), upd c.exp tk (some (clk i + 100000000))⟩
  have h1 : exec c (clk i) (.pSetEX tk tk 100) = (d, .str (.ok OK)) := rfl
  have hv : fmtString (.scalar (tryInt64 tk)) = .ok tk := by decide +kernel
  have hexp : d.exp tk = some (clk i + 100000000) := by simp [d, upd]
  have hdat : d.data tk = some (.scalar (tryInt64 tk)) := by simp [d, upd]
  have h2 : ∀ t, exec d t (.get tk) = if clk i + 100000000 < t
      then ({ data := upd d.data tk none, exp := upd d.exp tk none }, .str (.err .keyNil)) else (d, .str (.ok tk)) := by
    intro t
    simp only [exec, Cache.get, Cache.load, Cache.expired, hdat, hexp]
    by_cases h : clk i + 100000000 < t <;> simp [h, hv]
  by_cases a : clk i + 100000000 < clk (i + 1) <;> by_cases b : clk i + 100000000 < clk (i + 3) <;>
    simp [tPSetEX, run, h1, h2, a, b, strErr, strNoErr, delTest, any, Nat.add_assoc] <;> omega

end Verif.Suite

import Verif.Suite.Model
import Verif.Cache.PropsSet
import Verif.Conc.Lin
/-!
# Running a test: what it depends on
-/
namespace Verif.Suite
open Cache

/-- All calls of a test name keys of `P` only. -/
def Within (P : Bytes → Prop) (l : List Act) : Prop :=
  ∀ op g f, Act.call op g f ∈ l → op.within P

/-- No call of a test gives a deadline, and the sweep is not run. -/
def Timeless (l : List Act) : Prop :=
  ∀ op g f, Act.call op g f ∈ l → Conc.NoTTL op ∧ op ≠ .cronTick

theorem within_tail {P : Bytes → Prop} {a : Act} {l : List Act} (h : Within P (a :: l)) : Within P l :=
  fun op g f hm => h op g f (List.mem_cons_of_mem _ hm)

theorem timeless_tail {a : Act} {l : List Act} (h : Timeless (a :: l)) : Timeless l :=
  fun op g f hm => h op g f (List.mem_cons_of_mem _ hm)

/-- The verdict depends only on the keys named. -/
theorem run_congr {P : Bytes → Prop} (clk : Nat → Int) (l : List Act) : ∀ (i : Nat) {c d : Cache},
    (∀ k, P k → SameAt c d k) → Within P l →
    (run clk i c l).2 = (run clk i d l).2 ∧ ∀ k, P k → SameAt (run clk i c l).1 (run clk i d l).1 k := by
  induction l with
  | nil => intro i c d h _; exact ⟨rfl, h⟩
  | cons a l ih =>
    intro i c d h hw
    cases a with
    | sleep n => exact ih (i + 1) h (within_tail hw)
    | call op g f =>
      have hx := exec_congr h (clk i) op (hw op g f List.mem_cons_self)
      simp only [run]
      rw [hx.1]
      have := ih (i + 1) hx.2 (within_tail hw)
      split
      · exact this
      · split
        · exact ⟨rfl, hx.2⟩
        · exact ⟨rfl, this.2⟩

/-- Other keys are left alone. -/
theorem run_frame {P : Bytes → Prop} (clk : Nat → Int) (l : List Act) : ∀ (i : Nat) (c : Cache),
    (∀ op g f, Act.call op g f ∈ l → op.outside (fun k => ¬ P k)) → ∀ k, ¬ P k → SameAt (run clk i c l).1 c k := by
  induction l with
  | nil => intro i c _ k _; exact ⟨rfl, rfl⟩
  | cons a l ih =>
    intro i c hw k hk
    cases a with
    | sleep n => exact ih (i + 1) c (fun op g f hm => hw op g f (List.mem_cons_of_mem _ hm)) k hk
    | call op g f =>
      obtain ⟨ks, h1, h2⟩ := hw op g f List.mem_cons_self
      have hx := exec_frame c (clk i) op ks k h1 (fun hm => h2 k hm hk)
      have := (ih (i + 1) (exec c (clk i) op).1 (fun op g f hm => hw op g f (List.mem_cons_of_mem _ hm)) k hk).trans hx
      simp only [run]
      split
      · exact this
      · split
        · exact hx
        · exact this

theorem mGet_anytime {c : Cache} (h : ∀ k, c.exp k = none) (t s : Int) (ks : List Bytes) : c.mGet t ks = c.mGet s ks := by
  induction ks with
  | nil => rfl
  | cons k ks ih =>
    have e : ∀ t, c.get t k = (c, (c.get t k).2) := by
      intro t
      refine Prod.ext ?_ rfl
      simp only [Cache.get, Conc.load_noTTL h]
      cases c.data k <;> rfl
    have e2 : c.get t k = c.get s k := by simp only [Cache.get, Conc.load_noTTL h]
    simp only [Cache.mGet]
    rw [e2, e s]
    simp only [ih]

/-- Without deadlines the clock does not matter. -/
theorem exec_anytime {c : Cache} (h : ∀ k, c.exp k = none) (t s : Int) (op : Call) (hn : Conc.NoTTL op) (hc : op ≠ .cronTick) :
    exec c t op = exec c s op := by
  cases op <;> try (first | rfl | exact absurd rfl hc | exact hn.elim)
  case mGet ks => simp only [exec]; rw [mGet_anytime h t s]
  all_goals
    simp only [exec, Cache.get, Cache.getSet, Cache.strLen, Cache.append, Cache.setRange, Cache.getRange, Cache.del, Cache.type,
      Cache.hSet, Cache.hSetNX, Cache.hExists, Cache.hDel, Cache.hLen, Cache.hStrLen, Cache.hGet, Cache.hIncrBy, Cache.hIncrByFloat,
      Cache.hMSet, Cache.hMGet, Cache.hKeys, Cache.hVals, Cache.hGetAll, Cache.withHash, Cache.readHash, Cache.getHash,
      Cache.loadLive, Conc.load_noTTL h]

theorem run_anytime (clk clk' : Nat → Int) (l : List Act) : ∀ (i j : Nat) {c : Cache}, (∀ k, c.exp k = none) → Timeless l →
    run clk i c l = run clk' j c l := by
  induction l with
  | nil => intro i j c _ _; rfl
  | cons a l ih =>
    intro i j c h ht
    cases a with
    | sleep n => exact ih (i + 1) (j + 1) h (timeless_tail ht)
    | call op g f =>
      obtain ⟨h1, h2⟩ := ht op g f List.mem_cons_self
      simp only [run]
      rw [exec_anytime h (clk i) (clk' j) op h1 h2]
      have hx : ∀ k, (exec c (clk' j) op).1.exp k = none := fun k =>
        exec_exp_none _ op (h k) (by rintro v n rfl; exact h1) (by rintro v n rfl; exact h1)
      rw [ih (i + 1) (j + 1) hx (timeless_tail ht)]

theorem new_exp (k : Bytes) : Cache.new.exp k = none := rfl

/-- `Del` leaves nothing of the key. -/
theorem del_clean (c : Cache) (t : Int) (k : Bytes) : SameAt (exec c t (.del k)).1 Cache.new k := by
  simp [exec, Cache.del, SameAt, Cache.new, upd]

end Verif.Suite

import Verif.Conc.Props
/-!
# A goroutine that is alone

The step programs of the two small machines, run without interference, are the calls of the
sequential model: same effect, same answer.  Together with C102 (the machine with all calls) this
ties every concurrent program of the development to the model the C01-C41 claims are about.
-/
namespace Verif.Conc
open Cache

/-- A run without interference at a clock that stands still. -/
theorem alone_of_good {c0 : Cache} {op : Call} {lo : Int} {p : P Out} : ∀ {c : Cache}, Good c0 op lo p c lo →
    alone p ⟨c, lo⟩ = (⟨(exec c0 lo op).1, lo⟩, (exec c0 lo op).2) := by
  induction p with
  | ret o =>
    rintro c ⟨t, h1, h2, h3⟩
    obtain rfl : t = lo := by omega
    simp [alone, h3]
  | act u k ih =>
    intro c h
    obtain ⟨h1, h2⟩ := h lo (Int.le_refl _)
    have := ih ⟨c, lo⟩ h2
    simp only [alone]
    rw [show u ⟨c, lo⟩ = ⟨(u ⟨c, lo⟩).c, lo⟩ from by cases hu : u ⟨c, lo⟩; simp [hu] at h1; simp [h1]]
    exact this

/-- C102, the machine of the string calls: a goroutine that runs alone at one clock reading has the
effect and the answer of the call in the sequential model, for every call of that machine, whether it
takes the lock or not. -/
theorem C102_alone (op : Call) (hm : mode op ≠ .unsupported) (c : Cache) (t : Int) :
    alone (prog op) ⟨c, t⟩ = (⟨(exec c t op).1, t⟩, (exec c t op).2) := by
  cases hw : mode op with
  | write => exact alone_of_good (good_prog c t op (.inl hw))
  | read => exact alone_of_good (good_prog c t op (.inr hw))
  | unsupported => exact absurd hw hm
  | unlocked => exact unlocked_alone op hw c t

/-- C43, the machine of the hash calls: the same. -/
theorem C43_alone (op : HCall) (w : Heap) (hw : w.WF) (t : Int) :
    ((alone (hprog op) w).1.abs, (alone (hprog op) w).2) = exec w.abs t op.toCall ∧ (alone (hprog op) w).1.WF :=
  hprog_refines op hw t

/-- A memory with a hash of two fields, and calls on it. -/
def aloneHeap : Heap :=
  ⟨upd (fun _ => none) b!"h" (some (.hash 0)), fun _ => ⟨[(b!"a", .int64 1), (b!"b", .int64 2)], 2⟩, 1⟩

example : (alone (hprog (.hExists b!"h" b!"a")) aloneHeap).2 = .int (.ok 1) ∧
    (alone (hprog (.hLen b!"h")) (alone (hprog (.hExists b!"h" b!"a")) aloneHeap).1).2 = .int (.ok 1) := by
  decide +kernel

example : (alone (prog (.mSetNX [(b!"a", b!"1"), (b!"b", b!"2")])) ⟨run Cache.new [(0, .set b!"a" b!"x")], 0⟩).2 = .int (.ok 1) := by
  decide +kernel

end Verif.Conc

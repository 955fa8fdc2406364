import Verif.Conc.RaceNX
/-!
# C114: data races

Which goroutines may use one cache at the same time without a data race, and which may not.
-/
namespace Verif.Conc.Race
open Verif
open Verif.Conc.Full (Cell Mem)

/-- C114 (partial: it fails for calls that clash, see `C114_violated`): any number of goroutines, each
with any list of calls, such that no call of one clashes with a call of another.  In no schedule, and
whatever the clock does, do two of them make conflicting accesses with nothing in between. -/
theorem C114_no_race_partial {v : Mem} (hv : v.WF) {calls : Nat → List Call}
    (hc : ∀ i j, i ≠ j → ∀ a ∈ calls i, ∀ b ∈ calls j, ¬ Clash a b) : ¬ HasRace (start v calls) :=
  no_race hv hc

/-- C114 for the calls that take a lock: strings (but MSet, MSetNX, MGet), counters, `Del`, `Flush` and
the sweep never race, however they are mixed. -/
theorem C114_locked {v : Mem} (hv : v.WF) {calls : Nat → List Call} (hc : ∀ i, ∀ a ∈ calls i, bare a = false) :
    ¬ HasRace (start v calls) := by
  refine no_race hv (fun i j _ a ha b hb => ?_)
  rintro (⟨_, h, _⟩ | ⟨_, h, _⟩ | ⟨k, x, y, h, _⟩)
  · rw [hc j b hb] at h; cases h
  · rw [hc i a ha] at h; cases h
  · exact absurd (sizeUse_bare h) (by rw [hc i a ha]; simp)

/-- C114 for calls that only look things up, but for `HExists`: with or without lock, on any keys. -/
theorem C114_lookups {v : Mem} (hv : v.WF) {calls : Nat → List Call}
    (hc : ∀ i, ∀ a ∈ calls i, a ≠ .flush ∧ ∀ k, sizeUse a ≠ some (k, true)) : ¬ HasRace (start v calls) := by
  refine no_race hv (fun i j _ a ha b hb => ?_)
  rintro (⟨h, _⟩ | ⟨h, _⟩ | ⟨k, x, y, h1, h2, h | h⟩)
  · exact (hc i a ha).1 h
  · exact (hc j b hb).1 h
  · exact (hc i a ha).2 k (by rw [h1, h])
  · exact (hc j b hb).2 k (by rw [h2, h])

/-- C114: any number of `HSetNX` of one field of one hash do not race. -/
theorem C114_setnx {v : Mem} (hv : v.WF) {k f : Bytes} {calls : Nat → List Call}
    (hc : ∀ i, ∀ op ∈ calls i, ∃ x, op = .hSetNX k f x) : ¬ HasRace (start v calls) :=
  no_race_nx hc hv

/-- C114, for two goroutines with one call each: they can race exactly if they clash, but for two
`HSetNX` of the same field of the same hash. -/
theorem C114_pair_exact (a b : Call) : (∃ v : Mem, v.WF ∧ HasRace (start v (pair a b))) ↔ Clash a b ∧ ¬ SameNX a b := by
  constructor
  · rintro ⟨v, hv, hr⟩
    refine ⟨Classical.byContradiction fun hn => ?_, ?_⟩
    · refine no_race hv (fun i j hne x hx y hy hc => ?_) hr
      simp only [pair] at hx hy
      have sym : Clash x y → Clash y x := by
        rintro (h | h | ⟨k, p, q, h1, h2, h3⟩)
        · exact .inr (.inl h)
        · exact .inl h
        · exact .inr (.inr ⟨k, q, p, h2, h1, h3.symm⟩)
      by_cases i0 : i = 0
      · by_cases j1 : j = 1
        · simp [i0] at hx; simp [j1] at hy; subst hx hy; exact hn hc
        · simp [show j ≠ 0 from fun e => hne (by omega), j1] at hy
      · by_cases i1 : i = 1
        · by_cases j0 : j = 0
          · simp [i1] at hx; simp [j0] at hy; subst hx hy; exact hn (sym hc)
          · simp [show j ≠ 1 from fun e => hne (by omega), j0] at hy
        · simp [i0, i1] at hx
    · rintro ⟨k, f, x, y, rfl, rfl⟩
      refine no_race_nx (k := k) (f := f) (fun i op ho => ?_) hv hr
      simp only [pair] at ho
      split at ho
      · simp at ho; exact ⟨x, ho⟩
      · split at ho
        · simp at ho; exact ⟨y, ho⟩
        · cases ho
  · rintro ⟨h, hn⟩
    exact race_of_clash h hn

/-- C114 is false in general.  Two `HSet` of one hash race, whatever the fields; so do two `HExists`,
which by their name change nothing; so do `HLen` and `HSet`; and every call without lock that names a
key races with `Flush`, for instance `MGet`. -/
theorem C114_violated (k f f' x y : Bytes) :
    (∃ v : Mem, v.WF ∧ HasRace (start v (pair (.hSet k f x) (.hSet k f' y)))) ∧
    (∃ v : Mem, v.WF ∧ HasRace (start v (pair (.hExists k f) (.hExists k f')))) ∧
    (∃ v : Mem, v.WF ∧ HasRace (start v (pair (.hLen k) (.hSet k f x)))) ∧
    (∃ v : Mem, v.WF ∧ HasRace (start v (pair (.mGet [k]) .flush))) := by
  have no : ∀ {a b : Call}, (∀ k f x, a ≠ .hSetNX k f x) → ¬ SameNX a b := by
    rintro a b h ⟨k, f, x, _, rfl, _⟩
    exact h k f x rfl
  refine ⟨(C114_pair_exact _ _).2 ⟨.inr (.inr ⟨k, true, true, rfl, rfl, .inl rfl⟩), no (by simp)⟩,
    (C114_pair_exact _ _).2 ⟨.inr (.inr ⟨k, true, true, rfl, rfl, .inl rfl⟩), no (by simp)⟩,
    (C114_pair_exact _ _).2 ⟨.inr (.inr ⟨k, false, true, rfl, rfl, .inr rfl⟩), no (by simp)⟩,
    (C114_pair_exact _ _).2 ⟨.inr (.inl ⟨rfl, rfl, rfl⟩), no (by simp)⟩⟩

/-- C114: the race with `Flush` is there in every state of the cache. -/
theorem C114_flush_violated (v : Mem) (b : Call) (hb : bare b = true) (hm : mapUse b = true) : HasRace (start v (pair .flush b)) :=
  race_flush (.inl ⟨rfl, hb, hm⟩) v

/-- C114: the machine with the record of accesses is the machine of C102 and the others.  Its runs are
the runs of that one, with the same memory, locks, calls in progress and answers. -/
theorem C114_same_machine (v : Mem) (calls : Nat → List Call) :
    (∀ g, Steps spec true (start v calls) g → ∃ f, Steps Full.spec true (initial v calls) f ∧
      g.sh.mem = f.sh ∧ g.writer = f.writer ∧ g.readers = f.readers ∧ g.log = f.log ∧ ∀ i, (g.thr i).todo = (f.thr i).todo) ∧
    (∀ f, Steps Full.spec true (initial v calls) f → ∃ g, Steps spec true (start v calls) g ∧
      g.sh.mem = f.sh ∧ g.writer = f.writer ∧ g.readers = f.readers ∧ g.log = f.log ∧ ∀ i, (g.thr i).todo = (f.thr i).todo) :=
  ⟨fun g h => let ⟨f, h1, h2⟩ := same_runs.1 g h; ⟨f, h1, h2.sh, h2.writer, h2.readers, h2.log, h2.todo⟩,
   fun f h => let ⟨g, h1, h2⟩ := same_runs.2 f h; ⟨g, h1, h2.sh, h2.writer, h2.readers, h2.log, h2.todo⟩⟩

/-! ## The hypotheses are met -/

/-- Two goroutines that share string keys and work on different hashes. -/
def quietCalls : Nat → List Call := fun i =>
  if i = 0 then [.set b!"a" b!"1", .hSet b!"h" b!"x" b!"1", .hLen b!"h", .mGet [b!"a", b!"b"]]
  else if i = 1 then [.incr b!"a", .hSet b!"g" b!"x" b!"1", .hExists b!"g" b!"x", .hGet b!"h" b!"x", .mSet [(b!"a", b!"2")], .del b!"h"]
  else []

example : ∀ i j, i ≠ j → ∀ a ∈ quietCalls i, ∀ b ∈ quietCalls j, ¬ Clash a b := by
  intro i j hne a ha b hb
  simp only [quietCalls] at ha hb
  by_cases i0 : i = 0 <;> by_cases i1 : i = 1 <;> by_cases j0 : j = 0 <;> by_cases j1 : j = 1 <;>
    simp [i0, i1, j0, j1] at ha hb <;> (try omega)
  all_goals
    rcases ha with rfl | rfl | rfl | rfl | rfl | rfl <;> rcases hb with rfl | rfl | rfl | rfl | rfl | rfl <;>
      simp [Clash, sizeUse]

example : ∀ op ∈ [Call.get b!"a", .set b!"a" b!"1", .incr b!"n", .del b!"a", .flush, .cronTick], bare op = false := by decide +kernel

example : ∃ es : List (Ev G), ∃ g, sched spec (start (oneHash b!"h" [(b!"x", .int64 1)]) (pair (.hExists b!"h" b!"x") (.hExists b!"h" b!"x"))) es = some g ∧
    g.log.length = 2 :=
  ⟨[.start 0, .start 1, .act 0, .act 0, .act 0, .act 1, .act 1, .act 1, .act 0, .act 1, .act 0, .act 1, .fin 0, .fin 1], _, rfl, rfl⟩

end Verif.Conc.Race

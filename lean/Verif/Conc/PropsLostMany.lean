import Verif.Conc.PropsLost
/-!
# C43 for any number of goroutines and any number of HSets
-/
namespace Verif.Conc
open Cache

/-- C43 fails for every key that does not exist and every program in which two goroutines begin by setting different fields of it: both are told that they
added one, and then the first field may be gone. -/
theorem C43_many_violated (w : Heap) (k : Bytes) (hk : w.data k = none) (calls : Nat → List HCall) {i j : Nat} (hij : i ≠ j) {f v f' v' : Bytes}
    (hf : f ≠ f') {r r' : List HCall} (hi : calls i = .hSet k f v :: r) (hj : calls j = .hSet k f' v' :: r') :
    ∃ g : HCfg, Steps hspec true (initial w calls) g ∧ g.log = [(i, .hSet k f v, .int (.ok 1)), (j, .hSet k f' v', .int (.ok 1))] ∧
      (alone (hprog (.hGet k f)) g.sh).2 = .str (.err .keyNil) := by
  let g0 : HCfg := initial w calls
  obtain ⟨u0, c0, p0, q0, r0⟩ := hSet_absent (k := k) (f := f) (v := v) hk
  obtain ⟨u1, c1, p1, q1, r1⟩ := hSet_absent (k := k) (f := f') (v := v') hk
  have hji : j ≠ i := Ne.symm hij
  let g1 : HCfg := { g0 with thr := setThr g0.thr i ⟨r, some (.hSet k f v, hprog (.hSet k f v))⟩ }
  have s1 : Step hspec true g0 g1 := .startN g0 i _ _ (by simp [g0, initial, hi]) rfl
  let g2 : HCfg := { g1 with thr := setThr g1.thr j ⟨r', some (.hSet k f' v', hprog (.hSet k f' v'))⟩ }
  have s2 : Step hspec true g1 g2 := .startN g1 j _ _ (by simp [g1, setThr_ne _ _ hji, g0, initial, hj]) rfl
  let g3 : HCfg := { g2 with sh := u0 g2.sh, thr := setThr g2.thr i ⟨r, some (.hSet k f v, c0 g2.sh)⟩ }
  have s3 : Step hspec true g2 g3 := .act g2 i _ r u0 c0 (by simp [g2, g1, setThr_ne _ _ hij, p0])
  have e3 : g3.sh = w := q0
  let g4 : HCfg := { g3 with sh := u1 g3.sh, thr := setThr g3.thr j ⟨r', some (.hSet k f' v', c1 g3.sh)⟩ }
  have s4 : Step hspec true g3 g4 := .act g3 j _ r' u1 c1 (by simp [g3, g2, setThr_ne _ _ hji, p1])
  have e4 : g4.sh = w := by show u1 g3.sh = w; rw [e3]; exact q1
  have t4 : g4.thr i = ⟨r, some (.hSet k f v, hSetNew k f v)⟩ := by
    simp only [g4, g3, setThr_ne _ _ hij, setThr_same]
    show Thread.mk r (some (HCall.hSet k f v, c0 w)) = _
    rw [r0]
  have t4' : g4.thr j = ⟨r', some (.hSet k f' v', hSetNew k f' v')⟩ := by
    simp only [g4, setThr_same]
    rw [e3, r1]
  obtain ⟨g5, s5, a5, b5, c5, d5, e5, f5⟩ := steps_alone (P := hspec) _ g4 t4
  obtain ⟨x1, x2⟩ := alone_hSetNew k f v w
  rw [e4, x1] at b5
  let g6 : HCfg := { g5 with
    writer := unlockW (hmode (.hSet k f v)) g5.writer, readers := unlockR (hmode (.hSet k f v)) i g5.readers
    thr := setThr g5.thr i ⟨r, none⟩, log := g5.log ++ [(i, .hSet k f v, .int (.ok 1))] }
  have s6 : Step hspec true g5 g6 := .fin g5 i _ r _ b5
  have t6 : g6.thr j = ⟨r', some (.hSet k f' v', hSetNew k f' v')⟩ := by
    show setThr g5.thr i ⟨r, none⟩ j = _
    rw [setThr_ne _ _ hji, c5 j hji, t4']
  obtain ⟨g7, s7, a7, b7, c7, d7, e7, f7⟩ := steps_alone (P := hspec) _ g6 t6
  obtain ⟨y1, y2⟩ := alone_hSetNew k f' v' g6.sh
  rw [y2] at a7
  rw [y1] at b7
  let g8 : HCfg := { g7 with
    writer := unlockW (hmode (.hSet k f' v')) g7.writer, readers := unlockR (hmode (.hSet k f' v')) j g7.readers
    thr := setThr g7.thr j ⟨r', none⟩, log := g7.log ++ [(j, .hSet k f' v', .int (.ok 1))] }
  have s8 : Step hspec true g7 g8 := .fin g7 j _ r' _ b7
  refine ⟨g8, (Steps.trans ((Steps.trans ((((Steps.refl.snoc s1).snoc s2).snoc s3).snoc s4) s5).snoc s6) s7).snoc s8, ?_, ?_⟩
  · show g7.log ++ _ = _
    rw [f7]
    show g5.log ++ _ ++ _ = _
    rw [f5]; rfl
  · have hsh : g8.sh = ⟨upd g6.sh.data k (some (.hash g6.sh.next)), put g6.sh.heap g6.sh.next (HashEntry.empty.set f' v').1, g6.sh.next + 1⟩ := a7
    rw [hsh]
    simp only [hprog, readP]
    rw [alone_bind, alone_bind]
    simp only [hLoad, alone_atomic, upd, if_true]
    rw [alone_bind]
    have hn : ¬ f' = f := fun e => hf e.symm
    simp [fLoad, alone_atomic, HashEntry.set, HashEntry.empty, hfind, hput, alone, hn]

/-- C43, exactly, for any number of goroutines with any number of HSets of one key, of which two begin with different fields (and no field is set to two
different values): in every schedule and at every moment the fields of all calls that were told it worked are there, if and only if the key
exists at the start. -/
theorem C43_many_exact (w : Heap) (hw : w.WF) (k : Bytes) (calls : Nat → List HCall) (hc : ∀ i, ∀ op ∈ calls i, ∃ f v, op = .hSet k f v)
    (hv : ∀ i j f v v', .hSet k f v ∈ calls i → .hSet k f v' ∈ calls j → v = v')
    (h2 : ∃ i j f v f' v' r r', i ≠ j ∧ f ≠ f' ∧ calls i = .hSet k f v :: r ∧ calls j = .hSet k f' v' :: r') :
    (∀ g : HCfg, Steps hspec true (initial w calls) g → ∀ i f v n, .hSet k f v ∈ calls i → (i, .hSet k f v, .int (.ok n)) ∈ g.log →
      (alone (hprog (.hGet k f)) g.sh).2 = .str (.ok (canon v))) ↔ w.data k ≠ none := by
  constructor
  · intro h hk
    obtain ⟨i, j, f, v, f', v', r, r', hij, hf, hi, hj⟩ := h2
    obtain ⟨g, hs, hl, hg⟩ := C43_many_violated w k hk calls hij hf hi hj
    have := h g hs i f v 1 (by simp [hi]) (by rw [hl]; simp)
    rw [hg] at this
    cases this
  · intro hk g hs i f v n hm hlog
    cases hd : w.data k with
    | none => exact absurd hd hk
    | some x =>
      cases x with
      | hash p =>
        have ho : Owns k p w := ⟨hd, hw.alloc k p hd, fun j hj => hw.inj j k p hj hd⟩
        refine C43_fields_survive_partial k f v p w ho _ (fun j op hop => ?_) g hs ⟨_, hlog, rfl⟩
        obtain ⟨f1, v1, rfl⟩ := hc j op hop
        intro _ e
        subst e
        exact hv j i _ _ _ hop hm
      | other =>
        have := (wrong_steps hd hc hs).2.2 _ hlog
        cases this

example (w : Heap) (hw : w.WF) (k : Bytes) (hk : w.data k = none) : ¬ ∀ g : HCfg,
    Steps hspec true (initial w fun i => if i = 0 then [.hSet k b!"a" b!"1", .hSet k b!"b" b!"2"] else if i = 1 then [.hSet k b!"c" b!"3"] else []) g →
    ∀ i f v n, .hSet k f v ∈ (if i = 0 then [HCall.hSet k b!"a" b!"1", .hSet k b!"b" b!"2"] else if i = 1 then [.hSet k b!"c" b!"3"] else []) →
    (i, .hSet k f v, .int (.ok n)) ∈ g.log → (alone (hprog (.hGet k f)) g.sh).2 = .str (.ok (canon v)) := by
  intro h
  refine (C43_many_exact w hw k _ ?_ ?_ ⟨0, 1, _, _, _, _, _, _, by decide, by decide, rfl, rfl⟩).1 h hk
  · intro i op ho
    split at ho
    · simp at ho; rcases ho with rfl | rfl <;> exact ⟨_, _, rfl⟩
    · split at ho
      · simp at ho; exact ⟨_, _, ho⟩
      · cases ho
  · intro i j f v v' h1 h2
    have key : ∀ i v, HCall.hSet k f v ∈ (if i = 0 then [HCall.hSet k b!"a" b!"1", .hSet k b!"b" b!"2"] else if i = 1 then [.hSet k b!"c" b!"3"] else []) →
        (f = b!"a" ∧ v = b!"1") ∨ (f = b!"b" ∧ v = b!"2") ∨ (f = b!"c" ∧ v = b!"3") := by
      intro i v h
      split at h
      · simp at h; rcases h with ⟨a, b⟩ | ⟨a, b⟩
        · exact .inl ⟨a, b⟩
        · exact .inr (.inl ⟨a, b⟩)
      · split at h
        · simp at h; exact .inr (.inr h)
        · cases h
    rcases key i v h1 with ⟨rfl, rfl⟩ | ⟨rfl, rfl⟩ | ⟨rfl, rfl⟩ <;> rcases key j v' h2 with ⟨a, rfl⟩ | ⟨a, rfl⟩ | ⟨a, rfl⟩ <;>
      first | rfl | exact absurd a (by decide)

end Verif.Conc

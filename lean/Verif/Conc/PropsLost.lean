import Verif.Conc.PropsAlone
/-!
# C43, C44: exactly when two HSets can lose a field; every part of an MSet can be seen
-/
namespace Verif.Conc

variable {S Op Out' : Type}

/-- A goroutine that is left alone from here on runs its call to the end. -/
theorem steps_alone {P : Spec S Op Out'} {j : Nat} {op : Op} {todo : List Op} (p : Prog S Out') : ∀ (g : Config S Op Out'),
    g.thr j = ⟨todo, some (op, p)⟩ → ∃ g', Steps P true g g' ∧ g'.sh = (alone p g.sh).1 ∧ g'.thr j = ⟨todo, some (op, .ret (alone p g.sh).2)⟩ ∧
      (∀ j', j' ≠ j → g'.thr j' = g.thr j') ∧ g'.writer = g.writer ∧ g'.readers = g.readers ∧ g'.log = g.log := by
  induction p with
  | ret a => exact fun g ht => ⟨g, .refl, rfl, ht, fun _ _ => rfl, rfl, rfl, rfl⟩
  | act u c ih =>
    intro g ht
    obtain ⟨g', h1, h2, h3, h4, h5, h6, h7⟩ := ih g.sh { g with sh := u g.sh, thr := setThr g.thr j ⟨todo, some (op, c g.sh)⟩ } (by simp)
    refine ⟨g', Steps.trans (Steps.refl.snoc (.act g j op todo u c ht)) h1, h2, h3, ?_, h5, h6, h7⟩
    intro j' hj
    rw [h4 j' hj]
    exact setThr_ne _ _ hj

/-- HSet of a key that it has found absent: a new hash with this one field. -/
def hSetNew (k f v : Bytes) : HP Out := do
  let r ← (do let p ← hNew; hStore k p; let n ← setP p f v; pure (.ok n) : HP (Res Int))
  pure (.int r)

theorem hSet_absent {k f v : Bytes} {w : Heap} (h : w.data k = none) :
    ∃ u c, hprog (.hSet k f v) = .act u c ∧ u w = w ∧ c w = hSetNew k f v := by
  refine ⟨_, _, rfl, rfl, ?_⟩
  have : ∀ x : Option Slot, x = none → (((match x with
      | some (.hash p) => (do let n ← setP p f v; pure (.ok n) : HP (Res Int))
      | some .other => pure (.err .wrongType)
      | none => do
        let p ← hNew
        hStore k p
        (do let n ← setP p f v; pure (.ok n) : HP (Res Int))) : HP (Res Int)) >>= fun r => (pure (.int r) : HP Out)) = hSetNew k f v := by
    rintro _ rfl; rfl
  exact this _ h

theorem alone_hSetNew (k f v : Bytes) (w : Heap) : (alone (hSetNew k f v) w).2 = .int (.ok 1) ∧
    (alone (hSetNew k f v) w).1 = ⟨upd w.data k (some (.hash w.next)), put w.heap w.next (HashEntry.empty.set f v).1, w.next + 1⟩ := by
  unfold hSetNew
  simp only [alone_bind, hNew, hStore, alone_atomic, alone_setP, put_same]
  constructor
  · simp [alone, HashEntry.set, HashEntry.empty, hfind]
  · simp [alone, put_put]

/-- C43 fails for every key that does not exist: two goroutines set two different fields, both are told that they added
one, and then the first field may be gone. -/
theorem C43_violated_any (w : Heap) (k f v f' v' : Bytes) (hk : w.data k = none) (hf : f ≠ f') :
    ∃ g : HCfg, Steps hspec true (initial w (fun i => if i = 0 then [.hSet k f v] else if i = 1 then [.hSet k f' v'] else [])) g ∧
      g.log = [(0, .hSet k f v, .int (.ok 1)), (1, .hSet k f' v', .int (.ok 1))] ∧ (∀ i, g.thr i = ⟨[], none⟩) ∧
      (alone (hprog (.hGet k f)) g.sh).2 = .str (.err .keyNil) := by
  let g0 : HCfg := initial w (fun i => if i = 0 then [.hSet k f v] else if i = 1 then [.hSet k f' v'] else [])
  obtain ⟨u0, c0, p0, q0, r0⟩ := hSet_absent (k := k) (f := f) (v := v) hk
  obtain ⟨u1, c1, p1, q1, r1⟩ := hSet_absent (k := k) (f := f') (v := v') hk
  let g1 : HCfg := { g0 with thr := setThr g0.thr 0 ⟨[], some (.hSet k f v, hprog (.hSet k f v))⟩ }
  have s1 : Step hspec true g0 g1 := .startN g0 0 _ _ rfl rfl
  let g2 : HCfg := { g1 with thr := setThr g1.thr 1 ⟨[], some (.hSet k f' v', hprog (.hSet k f' v'))⟩ }
  have s2 : Step hspec true g1 g2 := .startN g1 1 _ _ (by simp [g1, setThr]; rfl) rfl
  let g3 : HCfg := { g2 with sh := u0 g2.sh, thr := setThr g2.thr 0 ⟨[], some (.hSet k f v, c0 g2.sh)⟩ }
  have s3 : Step hspec true g2 g3 := .act g2 0 _ [] u0 c0 (by simp [g2, g1, setThr, p0])
  have e3 : g3.sh = w := q0
  let g4 : HCfg := { g3 with sh := u1 g3.sh, thr := setThr g3.thr 1 ⟨[], some (.hSet k f' v', c1 g3.sh)⟩ }
  have s4 : Step hspec true g3 g4 := .act g3 1 _ [] u1 c1 (by simp [g3, g2, setThr, p1])
  have e4 : g4.sh = w := by show u1 g3.sh = w; rw [e3]; exact q1
  have t4 : g4.thr 0 = ⟨[], some (.hSet k f v, hSetNew k f v)⟩ := by
    simp only [g4, g3, setThr]
    show Thread.mk [] (some (HCall.hSet k f v, c0 w)) = _
    rw [r0]
  have t4' : g4.thr 1 = ⟨[], some (.hSet k f' v', hSetNew k f' v')⟩ := by
    simp only [g4, setThr, if_true]
    rw [e3, r1]
  obtain ⟨g5, s5, a5, b5, c5, d5, e5, f5⟩ := steps_alone (P := hspec) _ g4 t4
  obtain ⟨x1, x2⟩ := alone_hSetNew k f v w
  rw [e4, x2] at a5
  rw [e4, x1] at b5
  let g6 : HCfg := { g5 with
    writer := unlockW (hmode (.hSet k f v)) g5.writer, readers := unlockR (hmode (.hSet k f v)) 0 g5.readers
    thr := setThr g5.thr 0 ⟨[], none⟩, log := g5.log ++ [(0, .hSet k f v, .int (.ok 1))] }
  have s6 : Step hspec true g5 g6 := .fin g5 0 _ [] _ b5
  have t6 : g6.thr 1 = ⟨[], some (.hSet k f' v', hSetNew k f' v')⟩ := by
    show setThr g5.thr 0 ⟨[], none⟩ 1 = _
    rw [setThr_ne _ _ (by omega), c5 1 (by omega), t4']
  obtain ⟨g7, s7, a7, b7, c7, d7, e7, f7⟩ := steps_alone (P := hspec) _ g6 t6
  obtain ⟨y1, y2⟩ := alone_hSetNew k f' v' g6.sh
  rw [y2] at a7
  rw [y1] at b7
  let g8 : HCfg := { g7 with
    writer := unlockW (hmode (.hSet k f' v')) g7.writer, readers := unlockR (hmode (.hSet k f' v')) 1 g7.readers
    thr := setThr g7.thr 1 ⟨[], none⟩, log := g7.log ++ [(1, .hSet k f' v', .int (.ok 1))] }
  have s8 : Step hspec true g7 g8 := .fin g7 1 _ [] _ b7
  refine ⟨g8, (Steps.trans ((Steps.trans ((((Steps.refl.snoc s1).snoc s2).snoc s3).snoc s4) s5).snoc s6) s7).snoc s8, ?_, ?_, ?_⟩
  · show g7.log ++ _ = _
    rw [f7]
    show g5.log ++ _ ++ _ = _
    rw [f5]; rfl
  · intro i
    show setThr g7.thr 1 ⟨[], none⟩ i = _
    by_cases h1 : i = 1
    · subst h1; simp
    · rw [setThr_ne _ _ h1, c7 i h1]
      show setThr g5.thr 0 ⟨[], none⟩ i = _
      by_cases h0 : i = 0
      · subst h0; simp
      · rw [setThr_ne _ _ h0, c5 i h0]
        simp [g4, g3, g2, g1, g0, setThr, h0, h1, initial]
  · have hsh : g8.sh = ⟨upd g6.sh.data k (some (.hash g6.sh.next)), put g6.sh.heap g6.sh.next (HashEntry.empty.set f' v').1, g6.sh.next + 1⟩ := a7
    rw [hsh]
    simp only [hprog, readP]
    rw [alone_bind, alone_bind]
    simp only [hLoad, alone_atomic, upd, if_true]
    rw [alone_bind]
    have hn : ¬ f' = f := fun e => hf e.symm
    simp [fLoad, alone_atomic, HashEntry.set, HashEntry.empty, hfind, hput, alone, hn]

theorem hSet_other {k f v : Bytes} {w : Heap} (h : w.data k = some .other) :
    ∃ u c, hprog (.hSet k f v) = .act u c ∧ u w = w ∧ c w = .ret (.int (.err .wrongType)) := by
  refine ⟨_, _, rfl, rfl, ?_⟩
  have : ∀ x : Option Slot, x = some .other → (((match x with
      | some (.hash p) => (do let n ← setP p f v; pure (.ok n) : HP (Res Int))
      | some .other => pure (.err .wrongType)
      | none => do
        let p ← hNew
        hStore k p
        (do let n ← setP p f v; pure (.ok n) : HP (Res Int))) : HP (Res Int)) >>= fun r => (pure (.int r) : HP Out)) = .ret (.int (.err .wrongType)) := by
    rintro _ rfl; rfl
  exact this _ h

/-- HSets of a key that is no hash: it stays what it is, and all are refused. -/
theorem wrong_steps {k : Bytes} {w : Heap} (hk : w.data k = some .other) {calls : Nat → List HCall}
    (hc : ∀ i, ∀ op ∈ calls i, ∃ f v, op = .hSet k f v) {g : HCfg} (hs : Steps hspec true (initial w calls) g) :
    g.sh.data k = some .other ∧
    (∀ i, (∀ op ∈ (g.thr i).todo, ∃ f v, op = .hSet k f v) ∧
      ∀ op p, (g.thr i).cur = some (op, p) → (∃ f v, p = hprog (.hSet k f v)) ∨ p = .ret (.int (.err .wrongType))) ∧
    ∀ e ∈ g.log, e.2.2 = .int (.err .wrongType) := by
  induction hs with
  | refl => exact ⟨hk, fun i => ⟨hc i, by intro op p h; cases h⟩, by intro e h; cases h⟩
  | snoc _ hst ih =>
    obtain ⟨h1, h2, h3⟩ := ih
    cases hst with
    | tick s' ht => subst ht; exact ⟨h1, h2, h3⟩
    | startW j op rest ht hm _ _ =>
      obtain ⟨f, v, rfl⟩ := (h2 j).1 op (by rw [ht]; simp)
      cases hm
    | startR j op rest ht hm _ _ =>
      obtain ⟨f, v, rfl⟩ := (h2 j).1 op (by rw [ht]; simp)
      cases hm
    | startN j op rest ht _ =>
      refine ⟨h1, fun i => ?_, h3⟩
      by_cases hj : i = j
      · subst hj
        simp only [setThr_same]
        have := (h2 i).1
        rw [ht] at this
        refine ⟨fun op' ho => this op' (by simp [ho]), ?_⟩
        intro op' p hp
        simp only [Option.some.injEq, Prod.mk.injEq] at hp
        obtain ⟨rfl, rfl⟩ := hp
        obtain ⟨f, v, rfl⟩ := this op (by simp)
        exact .inl ⟨f, v, rfl⟩
      · simp only [setThr_ne _ _ hj]; exact h2 i
    | act j op todo u c ht =>
      rcases (h2 j).2 op _ (by rw [ht]) with ⟨f, v, hp⟩ | hp
      · obtain ⟨u', c', e1, e2, e3⟩ := hSet_other (f := f) (v := v) h1
        rw [e1] at hp
        injection hp with hu hcc
        subst hu hcc
        refine ⟨by rw [e2]; exact h1, fun i => ?_, h3⟩
        by_cases hj : i = j
        · subst hj
          simp only [setThr_same]
          have := (h2 i).1
          rw [ht] at this
          refine ⟨this, ?_⟩
          intro op' p hp
          simp only [Option.some.injEq, Prod.mk.injEq] at hp
          exact .inr (by rw [← hp.2, e3])
        · simp only [setThr_ne _ _ hj]; exact h2 i
      · cases hp
    | fin j op todo o ht =>
      refine ⟨h1, fun i => ?_, ?_⟩
      · by_cases hj : i = j
        · subst hj
          simp only [setThr_same]
          have := (h2 i).1
          rw [ht] at this
          exact ⟨this, by intro op p h; cases h⟩
        · simp only [setThr_ne _ _ hj]; exact h2 i
      · intro e he
        simp only [List.mem_append, List.mem_singleton] at he
        rcases he with he | rfl
        · exact h3 e he
        · rcases (h2 j).2 op _ (by rw [ht]) with ⟨f, v, hp⟩ | hp
          · cases hp
          · injection hp

/-- C43 exactly: two goroutines set two different fields of `k`.  In every schedule in which both are told that it
worked, both fields are there afterwards, if and only if `k` exists when they start. -/
theorem C43_exact (w : Heap) (hw : w.WF) (k f v f' v' : Bytes) (hf : f ≠ f') :
    (∀ g : HCfg, Steps hspec true (initial w (fun i => if i = 0 then [.hSet k f v] else if i = 1 then [.hSet k f' v'] else [])) g →
      ∀ n n', (0, .hSet k f v, .int (.ok n)) ∈ g.log → (1, .hSet k f' v', .int (.ok n')) ∈ g.log →
        (alone (hprog (.hGet k f)) g.sh).2 = .str (.ok (canon v)) ∧ (alone (hprog (.hGet k f')) g.sh).2 = .str (.ok (canon v'))) ↔
    w.data k ≠ none := by
  constructor
  · intro h hk
    obtain ⟨g, hs, hl, _, hg⟩ := C43_violated_any w k f v f' v' hk hf
    have := (h g hs 1 1 (by rw [hl]; simp) (by rw [hl]; simp)).1
    rw [hg] at this
    cases this
  · intro hk g hs n n' h1 h2
    cases hd : w.data k with
    | none => exact absurd hd hk
    | some x =>
      cases x with
      | hash p =>
        have ho : Owns k p w := ⟨hd, hw.alloc k p hd, fun j hj => hw.inj j k p hj hd⟩
        have hc : ∀ (a b : Bytes), (a = f ∧ b = v) ∨ (a = f' ∧ b = v') →
            ∀ i, ∀ op ∈ (fun i => if i = 0 then [HCall.hSet k f v] else if i = 1 then [.hSet k f' v'] else []) i, op.respects k a b := by
          intro a b hab i op hop
          simp only at hop
          split at hop
          · simp at hop; subst hop
            rcases hab with ⟨rfl, rfl⟩ | ⟨rfl, rfl⟩
            · exact fun _ _ => rfl
            · exact fun _ e => absurd e hf
          · split at hop
            · simp at hop; subst hop
              rcases hab with ⟨rfl, rfl⟩ | ⟨rfl, rfl⟩
              · exact fun _ e => absurd e.symm hf
              · exact fun _ _ => rfl
            · cases hop
        exact ⟨C43_fields_survive_partial k f v p w ho _ (hc f v (.inl ⟨rfl, rfl⟩)) g hs ⟨_, h1, rfl⟩,
          C43_fields_survive_partial k f' v' p w ho _ (hc f' v' (.inr ⟨rfl, rfl⟩)) g hs ⟨_, h2, rfl⟩⟩
      | other =>
        have := (wrong_steps hd (by intro i op ho; split at ho <;> (try split at ho) <;> simp at ho <;> subst ho <;> exact ⟨_, _, rfl⟩) hs).2.2 _ h1
        cases this

example : (⟨fun _ => none, fun _ => HashEntry.empty, 0⟩ : Heap).WF := ⟨(by intro k p h; cases h), (by intro k k' p h; cases h)⟩
example : (⟨upd (fun _ => none) b!"h" (some (.hash 0)), fun _ => HashEntry.empty, 1⟩ : Heap).WF := by
  refine ⟨?_, ?_⟩
  · intro k p h
    simp only [upd] at h
    split at h
    · injection h with h; injection h with h; subst h; decide
    · cases h
  · intro k k' p h h'
    simp only [upd] at h h'
    split at h
    · split at h'
      · rename_i a b; rw [a, b]
      · cases h'
    · cases h

/-! ## C44 -/

theorem mSetP_append (a b : List (Bytes × Bytes)) : mSetP (a ++ b) = (mSetP a >>= fun _ => mSetP b) := by
  induction a with
  | nil => rfl
  | cons x a ih =>
    obtain ⟨k, v⟩ := x
    simp only [List.cons_append, mSetP]
    rw [Prog.assoc, ih]

/-- A goroutine runs the first part of its call, left alone meanwhile. -/
theorem steps_part {P : Spec S Op Out'} {j : Nat} {op : Op} {todo : List Op} {α : Type} (p : Prog S α) (f : α → Prog S Out') : ∀ (g : Config S Op Out'),
    g.thr j = ⟨todo, some (op, p >>= f)⟩ → ∃ g', Steps P true g g' ∧ g'.sh = (alone p g.sh).1 ∧ g'.thr j = ⟨todo, some (op, f (alone p g.sh).2)⟩ ∧
      (∀ j', j' ≠ j → g'.thr j' = g.thr j') ∧ g'.writer = g.writer ∧ g'.readers = g.readers ∧ g'.log = g.log := by
  induction p with
  | ret a => exact fun g ht => ⟨g, .refl, rfl, ht, fun _ _ => rfl, rfl, rfl, rfl⟩
  | act u c ih =>
    intro g ht
    obtain ⟨g', h1, h2, h3, h4, h5, h6, h7⟩ := ih g.sh { g with sh := u g.sh, thr := setThr g.thr j ⟨todo, some (op, c g.sh >>= f)⟩ } (by simp)
    refine ⟨g', Steps.trans (Steps.refl.snoc (.act g j op todo u (fun s => c s >>= f) ht)) h1, h2, h3, ?_, h5, h6, h7⟩
    intro j' hj
    rw [h4 j' hj]
    exact setThr_ne _ _ hj

/-- C44 fails everywhere: any call of another goroutine, MGet or not, may be answered from the state in which only the
first so many pairs of an MSet are written, wherever one cuts it. -/
theorem C44_violated_any (c0 : Cache) (t0 : Int) (pre post : List (Bytes × Bytes)) (op : Call) (hm : mode op ≠ .unsupported) :
    ∃ g : Cfg, Steps spec true (initial ⟨c0, t0⟩ (fun i => if i = 0 then [.mSet (pre ++ post)] else if i = 1 then [op] else [])) g ∧
      (1, op, (exec (exec c0 t0 (.mSet pre)).1 t0 op).2) ∈ g.log := by
  let g0 : Cfg := initial ⟨c0, t0⟩ (fun i => if i = 0 then [.mSet (pre ++ post)] else if i = 1 then [op] else [])
  let g1 : Cfg := { g0 with thr := setThr g0.thr 0 ⟨[], some (.mSet (pre ++ post), prog (.mSet (pre ++ post)))⟩ }
  have s1 : Step spec true g0 g1 := .startN g0 0 _ _ rfl rfl
  have t1 : g1.thr 0 = ⟨[], some (.mSet (pre ++ post), mSetP pre >>= fun _ => mSetP post >>= fun _ => .ret (.str (.ok OK)))⟩ := by
    simp only [g1, setThr_same, prog, mSetP_append]
    rw [Prog.assoc]; rfl
  obtain ⟨g2, s2, a2, b2, c2, d2, e2, f2⟩ := steps_part (P := spec) _ _ g1 t1
  have hsh2 : g2.sh = ⟨(exec c0 t0 (.mSet pre)).1, t0⟩ := by
    have := C102_alone (.mSet pre) (by simp [mode]) c0 t0
    simp only [prog] at this
    rw [alone_bind] at this
    exact a2.trans (congrArg Prod.fst this)
  have t2 : g2.thr 1 = ⟨[op], none⟩ := by rw [c2 1 (by omega)]; rfl
  have hw2 : g2.writer = none := d2
  have hr2 : g2.readers = [] := e2
  obtain ⟨g3, s3, a3, b3, f3⟩ : ∃ g3, Step spec true g2 g3 ∧ g3.sh = g2.sh ∧ g3.thr 1 = ⟨[], some (op, prog op)⟩ ∧ g3.log = g2.log := by
    cases h : mode op with
    | write => exact ⟨_, .startW g2 1 op [] t2 h hw2 hr2, rfl, by simp [spec], rfl⟩
    | read => exact ⟨_, .startR g2 1 op [] t2 h hw2 (.inl rfl), rfl, by simp [spec], rfl⟩
    | unlocked => exact ⟨_, .startN g2 1 op [] t2 h, rfl, by simp [spec], rfl⟩
    | unsupported => exact absurd h hm
  obtain ⟨g4, s4, a4, b4, _⟩ := steps_alone (P := spec) _ g3 b3
  rw [a3, hsh2, C102_alone op hm] at b4
  exact ⟨_, (Steps.trans ((Steps.trans (Steps.refl.snoc s1) s2).snoc s3) s4).snoc (.fin g4 1 op [] _ b4), by simp⟩

/-- An MGet of two keys that an MSet sets: the new value of one and the old value of the other. -/
theorem C44_violated_torn (c0 : Cache) (t0 : Int) (a b x y : Bytes) (hab : a ≠ b) (v : Val) (hv : c0.data b = some v)
    (ha : c0.exp a = none) (hb : c0.exp b = none) :
    ∃ g : Cfg, Steps spec true (initial ⟨c0, t0⟩ (fun i => if i = 0 then [.mSet [(a, x), (b, y)]] else if i = 1 then [.mGet [a, b]] else [])) g ∧
      (1, .mGet [a, b], .slots (.ok [.ok (canon x), fmtString v])) ∈ g.log := by
  obtain ⟨g, h1, h2⟩ := C44_violated_any c0 t0 [(a, x)] [(b, y)] (.mGet [a, b]) (by simp [mode])
  refine ⟨g, h1, ?_⟩
  have : (exec (exec c0 t0 (.mSet [(a, x)])).1 t0 (.mGet [a, b])).2 = .slots (.ok [.ok (canon x), fmtString v]) := by
    have hba : ¬ b = a := fun e => hab e.symm
    simp [exec, Cache.mSet, Cache.mGet, Cache.get, Cache.load, Cache.store, Cache.expired, upd, ha, hb, hba, hv, fmtString, fmtScalar_tryInt64]
  rw [this] at h2
  exact h2

example : ∃ (c0 : Cache) (v : Val), c0.data b!"b" = some v ∧ c0.exp b!"a" = none ∧ c0.exp b!"b" = none :=
  ⟨run Cache.new [(0, .mSet [(b!"a", b!"old"), (b!"b", b!"old")])], .scalar (.str b!"old"), by decide +kernel, by decide +kernel, by decide +kernel⟩

end Verif.Conc

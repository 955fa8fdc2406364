import Verif.Conc.Locks
import Verif.Conc.Order
/-!
# Every call returns

Go's RWMutex lets no new reader in while a writer waits (sync/rwmutex.go).  `Allowed` is the
strictest reading: no read-locked call starts while any goroutine's next call takes the lock for
writing.  Progress under that rule gives progress under the real one.
-/
namespace Verif.Conc
variable {S Op Out : Type}

/-- A step of thread `i` (not of the clock). -/
inductive TStep (P : Spec S Op Out) (ov : Bool) (i : Nat) : Config S Op Out → Config S Op Out → Prop
  | startW (g : Config S Op Out) (op : Op) (rest : List Op)
      (ht : g.thr i = ⟨op :: rest, none⟩) (hm : P.mode op = .write) (hw : g.writer = none) (hr : g.readers = []) :
      TStep P ov i g { g with writer := some i, thr := setThr g.thr i ⟨rest, some (op, P.prog op)⟩ }
  | startR (g : Config S Op Out) (op : Op) (rest : List Op)
      (ht : g.thr i = ⟨op :: rest, none⟩) (hm : P.mode op = .read) (hw : g.writer = none) (hr : ov = true ∨ g.readers = []) :
      TStep P ov i g { g with readers := i :: g.readers, thr := setThr g.thr i ⟨rest, some (op, P.prog op)⟩ }
  | startN (g : Config S Op Out) (op : Op) (rest : List Op) (ht : g.thr i = ⟨op :: rest, none⟩) (hm : P.mode op = .unlocked) :
      TStep P ov i g { g with thr := setThr g.thr i ⟨rest, some (op, P.prog op)⟩ }
  | act (g : Config S Op Out) (op : Op) (todo : List Op) (u : S → S) (k : S → Prog S Out)
      (ht : g.thr i = ⟨todo, some (op, .act u k)⟩) :
      TStep P ov i g { g with sh := u g.sh, thr := setThr g.thr i ⟨todo, some (op, k g.sh)⟩ }
  | fin (g : Config S Op Out) (op : Op) (todo : List Op) (o : Out) (ht : g.thr i = ⟨todo, some (op, .ret o)⟩) :
      TStep P ov i g { g with
        writer := unlockW (P.mode op) g.writer
        readers := unlockR (P.mode op) i g.readers
        thr := setThr g.thr i ⟨todo, none⟩
        log := g.log ++ [(i, op, o)] }

theorem TStep.step {P : Spec S Op Out} {ov : Bool} {i : Nat} {g g' : Config S Op Out} (h : TStep P ov i g g') : Step P ov g g' := by
  cases h with
  | startW op rest ht hm hw hr => exact .startW g i op rest ht hm hw hr
  | startR op rest ht hm hw hr => exact .startR g i op rest ht hm hw hr
  | startN op rest ht hm => exact .startN g i op rest ht hm
  | act op todo u k ht => exact .act g i op todo u k ht
  | fin op todo o ht => exact .fin g i op todo o ht

/-- A step is a clock tick or a step of some thread. -/
theorem step_cases {P : Spec S Op Out} {ov : Bool} {g g' : Config S Op Out} (h : Step P ov g g') :
    (∃ s', P.tick g.sh s' ∧ g' = { g with sh := s' }) ∨ ∃ i, TStep P ov i g g' := by
  cases h with
  | tick s' hh => exact .inl ⟨s', hh, rfl⟩
  | startW i op rest ht hm hw hr => exact .inr ⟨i, .startW g op rest ht hm hw hr⟩
  | startR i op rest ht hm hw hr => exact .inr ⟨i, .startR g op rest ht hm hw hr⟩
  | startN i op rest ht hm => exact .inr ⟨i, .startN g op rest ht hm⟩
  | act i op todo u k ht => exact .inr ⟨i, .act g op todo u k ht⟩
  | fin i op todo o ht => exact .inr ⟨i, .fin g op todo o ht⟩

/-- Thread `i` asks for the lock for writing. -/
def WantsWrite (P : Spec S Op Out) (g : Config S Op Out) (i : Nat) : Prop :=
  ∃ op rest, g.thr i = ⟨op :: rest, none⟩ ∧ P.mode op = .write

/-- The rule of the mutex for a waiting writer: thread `i` does not start a read-locked call now. -/
def Allowed (P : Spec S Op Out) (g : Config S Op Out) (i : Nat) : Prop :=
  (∃ j, WantsWrite P g j) → ∀ op rest, g.thr i = ⟨op :: rest, none⟩ → P.mode op ≠ .read

/-- Thread `i` has nothing left to do. -/
def Done (g : Config S Op Out) (i : Nat) : Prop := g.thr i = ⟨[], none⟩

/-- While somebody has work left, somebody can make a step, also under the rule for waiting writers. -/
theorem can_step {P : Spec S Op Out} {ov : Bool} {g : Config S Op Out} (hl : Locks P g) (hm : ∀ op, P.mode op ≠ .unsupported)
    {i : Nat} (hi : ¬ Done g i) : ∃ j g', TStep P ov j g g' ∧ Allowed P g j := by
  by_cases hact : ∃ j op p, (g.thr j).cur = some (op, p)
  · obtain ⟨j, op, p, hj⟩ := hact
    cases ht : g.thr j with
    | mk todo cur =>
      rw [ht] at hj
      cases hj
      cases p with
      | ret o => exact ⟨j, _, .fin g op todo o ht, fun _ op' rest h => by rw [ht] at h; cases h⟩
      | act u k => exact ⟨j, _, .act g op todo u k ht, fun _ op' rest h => by rw [ht] at h; cases h⟩
  · have idle : ∀ j, (g.thr j).cur = none := by
      intro j
      cases h : (g.thr j).cur with
      | none => rfl
      | some a => exact absurd ⟨j, a.1, a.2, h⟩ hact
    have hw : g.writer = none := by
      cases h : g.writer with
      | none => rfl
      | some j => obtain ⟨a, p, h1, _⟩ := hl.writer j h; rw [idle j] at h1; cases h1
    have hr : g.readers = [] := by
      cases h : g.readers with
      | nil => rfl
      | cons j r => obtain ⟨a, p, h1, _⟩ := hl.readers j (by rw [h]; simp); rw [idle j] at h1; cases h1
    by_cases hwr : ∃ j, WantsWrite P g j
    · obtain ⟨j, op, rest, h1, h2⟩ := hwr
      refine ⟨j, _, .startW g op rest h1 h2 hw hr, fun _ op' rest' h => ?_⟩
      rw [h1] at h
      cases h
      rw [h2]
      exact Mode.noConfusion
    · cases ht : g.thr i with
      | mk todo cur =>
        have hc := idle i
        rw [ht] at hc
        cases hc
        cases todo with
        | nil => exact absurd ht hi
        | cons op rest =>
          cases hmo : P.mode op with
          | write => exact absurd ⟨i, op, rest, ht, hmo⟩ hwr
          | read => exact ⟨i, _, .startR g op rest ht hmo hw (.inr hr), fun h => absurd h hwr⟩
          | unlocked =>
            exact ⟨i, _, .startN g op rest ht hmo, fun h => absurd h hwr⟩
          | unsupported => exact absurd hmo (hm op)

/-! ## No endless run -/

/-- How a thread changes by its own steps. -/
inductive Moves (P : Spec S Op Out) : Thread S Op Out → Thread S Op Out → Prop
  | start (op : Op) (rest : List Op) : Moves P ⟨rest, some (op, P.prog op)⟩ ⟨op :: rest, none⟩
  | act (op : Op) (todo : List Op) (u : S → S) (k : S → Prog S Out) (s : S) :
      Moves P ⟨todo, some (op, k s)⟩ ⟨todo, some (op, .act u k)⟩
  | fin (op : Op) (todo : List Op) (o : Out) : Moves P ⟨todo, none⟩ ⟨todo, some (op, .ret o)⟩

theorem moves_wf (P : Spec S Op Out) : WellFounded (Moves P) := by
  have cur : ∀ (todo : List Op), Acc (Moves P) ⟨todo, none⟩ → ∀ (op : Op) (p : Prog S Out), Acc (Moves P) ⟨todo, some (op, p)⟩ := by
    intro todo h op p
    induction p with
    | ret o => refine ⟨_, fun t ht => ?_⟩; cases ht; exact h
    | act u k ih => refine ⟨_, fun t ht => ?_⟩; cases ht; exact ih _
  have none : ∀ (todo : List Op), Acc (Moves P) ⟨todo, none⟩ := by
    intro todo
    induction todo with
    | nil => refine ⟨_, fun t ht => ?_⟩; cases ht
    | cons op rest ih => refine ⟨_, fun t ht => ?_⟩; cases ht; exact cur rest ih op _
  refine ⟨fun ⟨todo, c⟩ => ?_⟩
  cases c with
  | none => exact none todo
  | some a => exact cur todo (none todo) a.1 a.2

theorem no_moves {P : Spec S Op Out} {t : Thread S Op Out} (h : Moves P t ⟨[], none⟩) : False := by
  generalize ht : (⟨[], none⟩ : Thread S Op Out) = t' at h
  cases h <;> cases ht

theorem TStep.moves {P : Spec S Op Out} {ov : Bool} {i : Nat} {g g' : Config S Op Out} (h : TStep P ov i g g') :
    Moves P (g'.thr i) (g.thr i) ∧ ∀ j, j ≠ i → g'.thr j = g.thr j := by
  cases h with
  | startW op rest ht hm hw hr => exact ⟨by simp only [setThr_same]; rw [ht]; exact .start op rest, fun j hj => setThr_ne _ _ hj⟩
  | startR op rest ht hm hw hr => exact ⟨by simp only [setThr_same]; rw [ht]; exact .start op rest, fun j hj => setThr_ne _ _ hj⟩
  | startN op rest ht hm => exact ⟨by simp only [setThr_same]; rw [ht]; exact .start op rest, fun j hj => setThr_ne _ _ hj⟩
  | act op todo u k ht => exact ⟨by simp only [setThr_same]; rw [ht]; exact .act op todo u k g.sh, fun j hj => setThr_ne _ _ hj⟩
  | fin op todo o ht => exact ⟨by simp only [setThr_same]; rw [ht]; exact .fin op todo o, fun j hj => setThr_ne _ _ hj⟩

/-- An endless run. -/
def Run (P : Spec S Op Out) (ov : Bool) (f : Nat → Config S Op Out) : Prop := ∀ n, Step P ov (f n) (f (n + 1))

/-- In an endless run each thread makes finitely many steps. -/
theorem thread_stops {P : Spec S Op Out} {ov : Bool} {f : Nat → Config S Op Out} (hf : Run P ov f) (i : Nat) :
    ∃ M, ∀ n, M ≤ n → ¬ TStep P ov i (f n) (f (n + 1)) := by
  suffices ∀ t : Thread S Op Out, ∀ m, (f m).thr i = t → ∃ M, ∀ n, M ≤ n → ¬ TStep P ov i (f n) (f (n + 1)) from
    this _ 0 rfl
  intro t
  induction t using (moves_wf P).induction with
  | _ t ih =>
    intro m hm
    by_cases hst : ∃ n, m ≤ n ∧ (f n).thr i = t ∧ TStep P ov i (f n) (f (n + 1))
    · obtain ⟨n, _, h2, h3⟩ := hst
      have := h3.moves.1
      rw [h2] at this
      exact ih _ this (n + 1) rfl
    · have keep : ∀ d, (f (m + d)).thr i = t := by
        intro d
        induction d with
        | zero => exact hm
        | succ d ihd =>
          rcases step_cases (hf (m + d)) with ⟨s', _, h⟩ | ⟨j, h⟩
          · rw [show m + (d + 1) = m + d + 1 from rfl, h]; exact ihd
          · by_cases hj : j = i
            · subst hj
              exact absurd ⟨m + d, Nat.le_add_right _ _, ihd, h⟩ hst
            · rw [show m + (d + 1) = m + d + 1 from rfl, h.moves.2 i (Ne.symm hj)]; exact ihd
      refine ⟨m, fun n hn h => hst ⟨n, hn, ?_, h⟩⟩
      have := keep (n - m)
      rwa [show m + (n - m) = n by omega] at this

/-- With finitely many goroutines an endless run is, from some point on, only the clock. -/
theorem all_stop {P : Spec S Op Out} {ov : Bool} {f : Nat → Config S Op Out} (hf : Run P ov f) (N : Nat)
    (hN : ∀ i, N ≤ i → Done (f 0) i) : ∃ M, ∀ n, M ≤ n → ∀ i, ¬ TStep P ov i (f n) (f (n + 1)) := by
  have out : ∀ i, N ≤ i → ∀ n, Done (f n) i := by
    intro i hi n
    induction n with
    | zero => exact hN i hi
    | succ n ih =>
      rcases step_cases (hf n) with ⟨s', _, h⟩ | ⟨j, h⟩
      · rw [h]; exact ih
      · by_cases hj : j = i
        · subst hj
          have := h.moves.1
          rw [ih] at this
          exact (no_moves this).elim
        · unfold Done; rw [h.moves.2 i (Ne.symm hj)]; exact ih
  have some : ∀ K, ∃ M, ∀ n, M ≤ n → ∀ i, i < K → ¬ TStep P ov i (f n) (f (n + 1)) := by
    intro K
    induction K with
    | zero => exact ⟨0, fun n _ i hi => absurd hi (Nat.not_lt_zero _)⟩
    | succ K ih =>
      obtain ⟨M1, h1⟩ := ih
      obtain ⟨M2, h2⟩ := thread_stops hf K
      refine ⟨max M1 M2, fun n hn i hi => ?_⟩
      by_cases h : i = K
      · subst h; exact h2 n (by omega)
      · exact h1 n (by omega) i (by omega)
  obtain ⟨M, hM⟩ := some N
  refine ⟨M, fun n hn i h => ?_⟩
  by_cases hi : i < N
  · exact hM n hn i hi h
  · have := h.moves.1
    rw [out i (by omega) n] at this
    exact no_moves this

/-- The scheduler does not idle forever while a thread could run. -/
def Fair (P : Spec S Op Out) (ov : Bool) (f : Nat → Config S Op Out) : Prop :=
  ∀ n, (∀ m, n ≤ m → ∃ i g', TStep P ov i (f m) g' ∧ Allowed P (f m) i) →
    ∃ m, n ≤ m ∧ ∃ i, TStep P ov i (f m) (f (m + 1))

theorem run_steps {P : Spec S Op Out} {ov : Bool} {f : Nat → Config S Op Out} (hf : Run P ov f) (n : Nat) : Steps P ov (f 0) (f n) := by
  induction n with
  | zero => exact .refl
  | succ n ih => exact .snoc ih (hf n)

/-- From each configuration there is a fair run, if the clock may stand still. -/
theorem fair_exists {P : Spec S Op Out} {ov : Bool} (ht : ∀ s, P.tick s s) (g : Config S Op Out) :
    ∃ f : Nat → Config S Op Out, f 0 = g ∧ Run P ov f ∧ Fair P ov f := by
  have next : ∀ g : Config S Op Out, ∃ g', Step P ov g g' ∧
      ((∃ i g', TStep P ov i g g' ∧ Allowed P g i) → ∃ i, TStep P ov i g g') := by
    intro g
    by_cases h : ∃ i g', TStep P ov i g g' ∧ Allowed P g i
    · obtain ⟨i, g', h1, _⟩ := h
      exact ⟨g', h1.step, fun _ => ⟨i, h1⟩⟩
    · exact ⟨g, .tick g g.sh (ht _), fun h' => absurd h' h⟩
  let f : Nat → Config S Op Out := fun n => Nat.rec g (fun _ g => (next g).choose) n
  exact ⟨f, rfl, fun n => (next (f n)).choose_spec.1, fun n h => ⟨n, Nat.le_refl _, (next (f n)).choose_spec.2 (h n (Nat.le_refl _))⟩⟩

/-- In a fair run all goroutines finish. -/
theorem fair_done {P : Spec S Op Out} {ov : Bool} {f : Nat → Config S Op Out} (hm : ∀ op, P.mode op ≠ .unsupported) {s : S}
    {calls : Nat → List Op} (h0 : f 0 = initial s calls) (hf : Run P ov f) (hfair : Fair P ov f) (N : Nat)
    (hN : ∀ i, N ≤ i → calls i = []) : ∃ n, ∀ i, Done (f n) i := by
  obtain ⟨M, hM⟩ := all_stop hf N (fun i hi => by rw [h0]; unfold Done initial; simp [hN i hi])
  refine Classical.byContradiction (fun hno => ?_)
  have busy : ∀ m, ∃ i, ¬ Done (f m) i := fun m => Classical.byContradiction (fun h =>
    hno ⟨m, fun i => Classical.byContradiction (fun hi => h ⟨i, hi⟩)⟩)
  obtain ⟨m, hm1, i, hi⟩ := hfair M (fun m _ => by
    obtain ⟨i, hi⟩ := busy m
    have hs := run_steps hf m
    rw [h0] at hs
    exact can_step (locks_steps hs) hm hi)
  exact hM m hm1 i hi

end Verif.Conc

import Verif.Client.Handlers
/-!
# Property C137: every connection has run the open handlers
-/
namespace Verif.Pool

/-- What a move does to the numbers of connections. -/
theorem move_opened {cap : Nat} {m : Move} {s t : State} (h : move cap m s = some t) :
    if creates cap s m = true then t.opened = s.opened + 1 ∧ t.leaked = (if m.leak then s.opened :: s.leaked else s.leaked)
    else t.opened = s.opened ∧ t.leaked = s.leaked := by
  unfold creates
  unfold move at h
  split at h
  · simp at h
  · next hp =>
    simp only [hp]
    split at h
    · simp only [Option.some.injEq] at h; subst h; simp [State.at]
    · split at h <;> simp only [Option.some.injEq] at h <;> subst h <;> simp [State.at]
  · next hp =>
    simp only [hp]
    split at h
    · simp only [Option.some.injEq] at h; subst h; simp [State.at]
    · simp at h
  · next hp =>
    simp only [hp]
    split at h
    · next hs =>
      cases hf : m.fail with
      | true => simp only [hf, if_true, Option.some.injEq] at h; subst h; simp [State.at]
      | false =>
        cases hk : m.leak with
        | true => simp [hf, hk] at h; subst h; simp [State.at, hs]
        | false => simp [hf, hk] at h; subst h; simp [State.at, hs]
    · next hs => simp only [Option.some.injEq] at h; subst h; simp [State.at, hs]
  · next hp => simp only [hp]; simp only [Option.some.injEq] at h; subst h; simp [State.at]
  · next hp =>
    simp only [hp]
    split at h
    · simp only [Option.some.injEq] at h; subst h; simp [State.at]
    · simp at h
  · next hp => simp only [hp]; simp only [Option.some.injEq] at h; subst h; simp [State.at]
  · next hp =>
    simp only [hp]
    split at h
    · simp only [Option.some.injEq] at h; subst h; simp [State.at]
    · split at h
      · simp only [Option.some.injEq] at h; subst h; simp [State.at]
      · simp at h
  · next hp =>
    simp only [hp]
    split at h
    · simp only [Option.some.injEq] at h; subst h; simp [State.at]
    · simp at h
  · next hp =>
    simp only [hp]
    split at h
    · split at h <;> simp only [Option.some.injEq] at h <;> subst h <;> simp [State.at]
    · simp at h

/-- What holds at all times: on a connection that was not dropped ran the handlers that there were when it was dialled, all of which are still there. -/
structure HInv (s : HState) : Prop where
  leak : ∀ c : Nat, c ∈ s.pool.leaked → c < s.pool.opened
  ran : ∀ c : Nat, c < s.pool.opened → s.ran c <+: s.handlers

theorem hinv_step {cap : Nat} {a : HAct} {s t : HState} (hi : HInv s) (h : hact cap a s = some t) : HInv t := by
  cases a with
  | add x =>
    simp only [hact, Option.some.injEq] at h
    subst h
    exact ⟨hi.leak, fun c hc => (hi.ran c hc).trans (List.prefix_append _ _)⟩
  | «by» m k =>
    simp only [hact] at h
    by_cases hcr : creates cap s.pool m = true
    · rw [if_pos hcr] at h
      cases hk : m.leak with
      | true =>
        rw [hk, if_pos rfl] at h
        split at h
        · simp only [Option.map_eq_some_iff] at h
          obtain ⟨p, hm, rfl⟩ := h
          have ho := move_opened hm
          rw [if_pos hcr, hk] at ho
          refine ⟨fun c hc => ?_, fun c hc => ?_⟩
          · simp only [ho.2, if_true] at hc
            simp only [ho.1]
            rcases List.mem_cons.mp hc with rfl | hc
            · omega
            · have := hi.leak c hc; omega
          · simp only [ho.1] at hc
            simp only
            split
            · exact List.take_prefix _ _
            · exact hi.ran c (by omega)
        · simp at h
      | false =>
        simp only [hk, Bool.false_eq_true, if_false, Option.map_eq_some_iff] at h
        obtain ⟨p, hm, rfl⟩ := h
        have ho := move_opened hm
        rw [if_pos hcr, hk] at ho
        refine ⟨fun c hc => ?_, fun c hc => ?_⟩
        · simp only [ho.2, Bool.false_eq_true, if_false] at hc
          simp only [ho.1]
          have := hi.leak c hc; omega
        · simp only [ho.1] at hc
          simp only
          split
          · exact List.prefix_refl _
          · exact hi.ran c (by omega)
    · rw [if_neg hcr] at h
      simp only [Option.map_eq_some_iff] at h
      obtain ⟨p, hm, rfl⟩ := h
      have ho := move_opened hm
      rw [if_neg hcr] at ho
      exact ⟨fun c hc => by simp only [ho.2] at hc; simp only [ho.1]; exact hi.leak c hc, fun c hc => by simp only [ho.1] at hc; exact hi.ran c hc⟩

theorem hinv_run {cap : Nat} {as : List HAct} {s t : HState} (hi : HInv s) (h : hrun cap as s = some t) : HInv t := by
  induction as generalizing s with
  | nil => simp only [hrun, Option.some.injEq] at h; subst h; exact hi
  | cons a as ih =>
    simp only [hrun, Option.bind_eq_some_iff] at h
    obtain ⟨u, h1, h2⟩ := h
    exact ih (hinv_step hi h1) h2

/-- C137, order and number: on every connection each handler ran at most once, in the order of adding, and none before those added earlier. -/
theorem C137_in_order (cap n : Nat) (hs : List Nat) (as : List HAct) (t : HState) (h : hrun cap as (.init n hs) = some t) (c : Nat)
    (hc : c < t.pool.opened) : t.ran c <+: t.handlers :=
  (hinv_run ⟨by simp [HState.init, State.init], by simp [HState.init, State.init]⟩ h).ran c hc

/-- The handlers of a pool are those it began with and those that were added; a connection keeps what ran on it. -/
theorem run_keeps {cap : Nat} {as : List HAct} {s t : HState} (hl : ∀ c : Nat, c ∈ s.pool.leaked → c < s.pool.opened) (h : hrun cap as s = some t) :
    t.handlers = s.handlers ++ added as ∧ s.pool.opened ≤ t.pool.opened ∧ (∀ c : Nat, c < s.pool.opened → t.ran c = s.ran c) ∧
    (∀ c : Nat, c < s.pool.opened → (c ∈ t.pool.leaked ↔ c ∈ s.pool.leaked)) := by
  induction as generalizing s with
  | nil => simp only [hrun, Option.some.injEq] at h; subst h; simp [added]
  | cons a as ih =>
    simp only [hrun, Option.bind_eq_some_iff] at h
    obtain ⟨u, h1, h2⟩ := h
    cases a with
    | add x =>
      simp only [hact, Option.some.injEq] at h1
      subst h1
      obtain ⟨g1, g2, g3, g4⟩ := ih (s := { s with handlers := s.handlers ++ [x] }) hl h2
      exact ⟨by rw [g1]; simp [added], g2, g3, g4⟩
    | «by» m k =>
      have key : u.handlers = s.handlers ∧ s.pool.opened ≤ u.pool.opened ∧ (∀ c : Nat, c < s.pool.opened → u.ran c = s.ran c) ∧
          (∀ c : Nat, c < s.pool.opened → (c ∈ u.pool.leaked ↔ c ∈ s.pool.leaked)) ∧ ∀ c : Nat, c ∈ u.pool.leaked → c < u.pool.opened := by
        simp only [hact] at h1
        by_cases hcr : creates cap s.pool m = true
        · rw [if_pos hcr] at h1
          cases hk : m.leak with
          | true =>
            rw [hk, if_pos rfl] at h1
            split at h1
            · simp only [Option.map_eq_some_iff] at h1
              obtain ⟨p, hm, rfl⟩ := h1
              have ho := move_opened hm
              rw [if_pos hcr, hk] at ho
              simp only [if_true] at ho
              refine ⟨rfl, by simp only; omega, fun c hc => by simp only; rw [if_neg (by omega)], fun c hc => ?_, fun c hc => ?_⟩
              · simp only [ho.2, List.mem_cons]
                constructor
                · rintro (h | h)
                  · omega
                  · exact h
                · exact .inr
              · simp only [ho.2, List.mem_cons] at hc
                simp only [ho.1]
                rcases hc with rfl | hc
                · omega
                · have := hl c hc; omega
            · simp at h1
          | false =>
            simp only [hk, Bool.false_eq_true, if_false, Option.map_eq_some_iff] at h1
            obtain ⟨p, hm, rfl⟩ := h1
            have ho := move_opened hm
            rw [if_pos hcr, hk] at ho
            simp only [Bool.false_eq_true, if_false] at ho
            exact ⟨rfl, by simp only; omega, fun c hc => by simp only; rw [if_neg (by omega)], fun c hc => by simp only [ho.2],
              fun c hc => by simp only [ho.2] at hc; simp only [ho.1]; have := hl c hc; omega⟩
        · rw [if_neg hcr] at h1
          simp only [Option.map_eq_some_iff] at h1
          obtain ⟨p, hm, rfl⟩ := h1
          have ho := move_opened hm
          rw [if_neg hcr] at ho
          exact ⟨rfl, by simp only; omega, fun _ _ => rfl, fun c hc => by simp only [ho.2], fun c hc => by simp only [ho.2] at hc; simp only [ho.1]; exact hl c hc⟩
      obtain ⟨k1, k2, k3, k4, k5⟩ := key
      obtain ⟨g1, g2, g3, g4⟩ := ih k5 h2
      exact ⟨by rw [g1, k1]; rfl, by omega, fun c hc => (g3 c (by omega)).trans (k3 c hc), fun c hc => (g4 c (by omega)).trans (k4 c hc)⟩

/-- The connection a move dials, if it succeeds, has run all handlers. -/
theorem dialled {cap : Nat} {m : Move} {k : Nat} {s u : HState} (h : hact cap (.by m k) s = some u) (hcr : creates cap s.pool m = true)
    (hk : m.leak = false) : u.ran s.pool.opened = s.handlers ∧ u.pool.opened = s.pool.opened + 1 ∧ u.pool.leaked = s.pool.leaked := by
  simp only [hact, if_pos hcr, hk, Bool.false_eq_true, if_false, Option.map_eq_some_iff] at h
  obtain ⟨p, hm, rfl⟩ := h
  have ho := move_opened hm
  rw [if_pos hcr, hk] at ho
  exact ⟨by simp, ho.1, by simpa using ho.2⟩

/-- C137, exactly: a connection dialled after the events `as1` has, at any later time, run all open handlers of the pool if and only if none was added
since. -/
theorem C137_exact (cap n : Nat) (hs : List Nat) (as1 as2 : List HAct) (m : Move) (k : Nat) (s u t : HState)
    (h1 : hrun cap as1 (.init n hs) = some s) (hcr : creates cap s.pool m = true) (hk : m.leak = false)
    (h2 : hact cap (.by m k) s = some u) (h3 : hrun cap as2 u = some t) :
    t.ran s.pool.opened = t.handlers ↔ added as2 = [] := by
  have hl1 : ∀ c : Nat, c ∈ s.pool.leaked → c < s.pool.opened :=
    (hinv_run ⟨by simp [HState.init, State.init], by simp [HState.init, State.init]⟩ h1).leak
  obtain ⟨d1, d2, d3⟩ := dialled h2 hcr hk
  have hh : u.handlers = s.handlers := by
    simp only [hact, if_pos hcr, hk, Bool.false_eq_true, if_false, Option.map_eq_some_iff] at h2
    obtain ⟨p, _, rfl⟩ := h2
    rfl
  obtain ⟨g1, _, g3, _⟩ := run_keeps (fun c hc => by rw [d3] at hc; rw [d2]; have := hl1 c hc; omega) h3
  rw [g3 _ (by omega), d1, g1, hh]
  constructor
  · intro e
    have := congrArg List.length e
    simp at this
    exact this
  · intro e; rw [e, List.append_nil]

/-- C137 for the pool of a remote client, whose handlers are all added before the first call (redis/redis.go:36-59): every connection that was not dropped
has run all of them. -/
theorem C137_client_partial (cap n : Nat) (hs : List Nat) (as : List HAct) (t : HState) (h : hrun cap as (.init n hs) = some t) (ha : added as = [])
    (c : Nat) (hc : c < t.pool.opened) (hd : c ∉ t.pool.leaked) : t.ran c = hs := by
  have key : ∀ (as : List HAct) (s t : HState), s.handlers = hs → (∀ c : Nat, c ∈ s.pool.leaked → c < s.pool.opened) →
      (∀ c : Nat, c < s.pool.opened → c ∉ s.pool.leaked → s.ran c = hs) → added as = [] → hrun cap as s = some t →
      ∀ c : Nat, c < t.pool.opened → c ∉ t.pool.leaked → t.ran c = hs := by
    intro as
    induction as with
    | nil => intro s t _ _ hr _ h; simp only [hrun, Option.some.injEq] at h; subst h; exact hr
    | cons a as ih =>
      intro s t hh hl hr ha h
      simp only [hrun, Option.bind_eq_some_iff] at h
      obtain ⟨u, h1, h2⟩ := h
      cases a with
      | add x => simp [added] at ha
      | «by» m k =>
        have keep := run_keeps (as := [.by m k]) hl (show hrun cap [.by m k] s = some u by simp [hrun, h1])
        have hlu : ∀ c : Nat, c ∈ u.pool.leaked → c < u.pool.opened ∧ (creates cap s.pool m = true ∧ m.leak = true ∨ c ∈ s.pool.leaked) := by
          have hmv : ∃ p, move cap m s.pool = some p ∧ u.pool = p := by
            simp only [hact] at h1
            split at h1
            · split at h1
              · split at h1
                · simp only [Option.map_eq_some_iff] at h1; obtain ⟨p, hp, rfl⟩ := h1; exact ⟨p, hp, rfl⟩
                · simp at h1
              · simp only [Option.map_eq_some_iff] at h1; obtain ⟨p, hp, rfl⟩ := h1; exact ⟨p, hp, rfl⟩
            · simp only [Option.map_eq_some_iff] at h1; obtain ⟨p, hp, rfl⟩ := h1; exact ⟨p, hp, rfl⟩
          obtain ⟨p, hp, e⟩ := hmv
          have ho := move_opened hp
          rw [e]
          intro c hc
          by_cases hcr : creates cap s.pool m = true
          · rw [if_pos hcr] at ho
            cases hk : m.leak with
            | true =>
              rw [hk, if_pos rfl] at ho
              rw [ho.2] at hc
              rw [ho.1]
              rcases List.mem_cons.mp hc with rfl | hc
              · exact ⟨by omega, .inl ⟨hcr, rfl⟩⟩
              · exact ⟨by have := hl c hc; omega, .inl ⟨hcr, rfl⟩⟩
            | false =>
              simp only [hk, Bool.false_eq_true, if_false] at ho
              rw [ho.2] at hc
              rw [ho.1]
              exact ⟨by have := hl c hc; omega, .inr hc⟩
          · rw [if_neg hcr] at ho
            rw [ho.2] at hc
            rw [ho.1]
            exact ⟨hl c hc, .inr hc⟩
        refine ih u t ?_ (fun c hc => (hlu c hc).1) ?_ (by simpa [added] using ha) h2
        · rw [keep.1]; simp [added, hh]
        · intro c hc hd
          by_cases hold : c < s.pool.opened
          · rw [keep.2.2.1 c hold]
            exact hr c hold fun h => hd ((keep.2.2.2 c hold).mpr h)
          · -- the new connection
            simp only [hact] at h1
            by_cases hcr : creates cap s.pool m = true
            · rw [if_pos hcr] at h1
              cases hk : m.leak with
              | true =>
                rw [hk, if_pos rfl] at h1
                split at h1
                · simp only [Option.map_eq_some_iff] at h1
                  obtain ⟨p, hp, rfl⟩ := h1
                  have ho := move_opened hp
                  rw [if_pos hcr, hk, if_pos rfl] at ho
                  simp only [ho.1, ho.2] at hc hd
                  have : c = s.pool.opened := by omega
                  exact absurd (by simp [this]) hd
                · simp at h1
              | false =>
                simp only [hk, Bool.false_eq_true, if_false, Option.map_eq_some_iff] at h1
                obtain ⟨p, hp, rfl⟩ := h1
                have ho := move_opened hp
                rw [if_pos hcr] at ho
                simp only [ho.1] at hc
                have : c = s.pool.opened := by omega
                simp [this, hh]
            · rw [if_neg hcr] at h1
              simp only [Option.map_eq_some_iff] at h1
              obtain ⟨p, hp, rfl⟩ := h1
              have ho := move_opened hp
              rw [if_neg hcr] at ho
              simp only [ho.1] at hc
              exact absurd hc hold
  exact key as _ t rfl (by simp [HState.init, State.init]) (by simp [HState.init, State.init]) ha h c hc hd

/-- C137 is false: a handler added when a connection is in the pool never runs on it, and the connection is handed out all the same. -/
theorem C137_violated : ∃ t, hrun (capacity 1) [.by (go 0) 0, .by (go 0) 0, .by (go 0) 0, .by (go 0) 0, .by (go 0) 0, .by (go 0) 0, .by (go 0) 0,
    .by (go 0) 0, .add 7, .by (go 0) 0] (.init 1 []) = some t ∧ t.pool.thr = [.holding 0] ∧ t.handlers = [7] ∧ t.ran 0 = [] :=
  ⟨_, rfl, rfl, rfl, rfl⟩

/-- Two handlers, added before the first call, have run on the connection in hand. -/
example : ∃ t, hrun (capacity 1) [.by (go 0) 0, .by (go 0) 0, .by (go 0) 0, .by (go 0) 0, .by (go 0) 0, .by (go 0) 0, .by (go 0) 0] (.init 1 [3, 5]) = some t ∧
    t.pool.thr = [.holding 0] ∧ t.ran 0 = [3, 5] ∧ t.pool.leaked = [] :=
  ⟨_, rfl, rfl, rfl, rfl⟩

end Verif.Pool

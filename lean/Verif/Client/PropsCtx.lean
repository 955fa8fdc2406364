import Verif.Client.Ctx
/-!
# Property C133: a call is given up when its context is done
-/
namespace Verif.Pool

theorem cact_steps {cap : Nat} {a : CAct} {s t : CState} (h : cact cap a s = some t) : Steps cap s.pool t.pool := by
  cases a with
  | cancel i => simp only [cact, Option.some.injEq] at h; subst h; exact .refl
  | renew i =>
    simp only [cact] at h
    split at h
    · simp only [Option.some.injEq] at h; subst h; exact .refl
    · simp at h
  | «by» m =>
    simp only [cact] at h
    split at h
    · simp at h
    · simp only [Option.map_eq_some_iff] at h
      obtain ⟨p, h1, rfl⟩ := h
      exact .one (move_step h1)

theorem crun_steps {cap : Nat} {as : List CAct} {s t : CState} (h : crun cap as s = some t) : Steps cap s.pool t.pool := by
  induction as generalizing s with
  | nil => simp only [crun, Option.some.injEq] at h; subst h; exact .refl
  | cons a as ih =>
    simp only [crun, Option.bind_eq_some_iff] at h
    obtain ⟨u, h1, h2⟩ := h
    exact (cact_steps h1).trans (ih h2)

theorem creachable {cap n : Nat} {s : CState} (h : CReachable cap n s) : Reachable cap n s.pool := by
  obtain ⟨as, h⟩ := h
  exact crun_steps h

theorem cact_by {cap : Nat} {m : Move} {s : CState} {u : State} (h : ¬ (onDone s.pool m ∧ s.done m.i = false)) (hm : move cap m s.pool = some u) :
    cact cap (.by m) s = some { s with pool := u } := by
  simp [cact, h, hm]

/-- C133 is false: a call whose context was done before it began is given an idle connection, if there is one, and nothing else can happen to it. -/
theorem C133_violated (cap : Nat) (s : CState) (i : Nat) (c : Conn) (cs : List Conn) (hi : s.pool.thr[i]? = some .idle)
    (hc : s.pool.chan = c :: cs) (m : Move) (hm : m.i = i) (hcl : m.close = false) :
    ∃ t, cact cap (.by m) s = some t ∧ t.pool.thr[i]? = some (.holding c) := by
  subst hm
  have h1 : ¬ (onDone s.pool m ∧ s.done m.i = false) := by
    rintro ⟨⟨h, _⟩, _⟩
    rw [hi] at h; cases h
  refine ⟨{ s with pool := { s.pool.at m.i (.holding c) with chan := cs } }, ?_, set_same hi⟩
  simp [cact, h1, move, hi, hcl, hc]

/-- A pool with an idle connection and a caller whose context is done. -/
example : ∃ s, CReachable (capacity 1) 1 s ∧ s.pool.thr = [.idle] ∧ s.pool.chan = [0] ∧ s.done 0 = true :=
  ⟨_, ⟨[.by (go 0), .by (go 0), .by (go 0), .by (go 0), .by (go 0), .by (go 0), .by (go 0), .by (go 0), .cancel 0], rfl⟩, rfl, rfl, rfl⟩

/-- C133 is false: once a dial or an open handler has failed, a caller at the mutex stays there, whoever's context is done. -/
theorem C133_violated_stuck (cap n : Nat) (s t : CState) (h : CReachable cap n s) (hb : s.pool.broken = true) (as : List CAct)
    (st : crun cap as s = some t) (i : Nat) (hi : s.pool.thr[i]? = some .wantLock) : t.pool.thr[i]? = some .wantLock :=
  C55_violated_forever cap n s.pool t.pool (creachable h) hb (crun_steps st) i hi

/-- Caller `i` can make a move. -/
def CanMove (cap : Nat) (s : CState) (i : Nat) : Prop := ∃ m t, m.i = i ∧ m.close = false ∧ cact cap (.by m) s = some t

/-- Which callers are blocked when their contexts are not done: those at the mutex while it is held, those for whom there is no connection; outside `Close`
nobody else. -/
theorem canMove_iff {cap n : Nat} {s : CState} (h : CReachable cap n s) {i : Nat} {p : PC} (hp : s.pool.thr[i]? = some p) (hcl : p ≠ .closing) :
    CanMove cap s i ↔ ¬ (p = .wantLock ∧ s.pool.lock = true) ∧ ¬ (p = .waiting ∧ s.pool.chan = [] ∧ s.done i = false) := by
  have hinv := inv_reachable (creachable h)
  have room : heldW p = 1 → s.pool.chan.length < cap := by
    intro h1
    have := wsum_ge heldW hp
    have := hinv.size
    have := hinv.room
    omega
  constructor
  · rintro ⟨m, t, rfl, hc, hm⟩
    constructor
    · rintro ⟨rfl, hl⟩
      have : ¬ (onDone s.pool m ∧ s.done m.i = false) := by
        rintro ⟨⟨g, _⟩, _⟩
        rw [hp] at g; cases g
      simp [cact, this, move, hp, hl] at hm
    · rintro ⟨rfl, hch, hd⟩
      cases hf : m.fail with
      | true => simp [cact, onDone, hp, hf, hd] at hm
      | false => simp [cact, onDone, hp, hf, move, hch] at hm
  · rintro ⟨h1, h2⟩
    have plain : (∃ u, move cap (go i) s.pool = some u) → CanMove cap s i := by
      rintro ⟨u, hu⟩
      exact ⟨go i, _, rfl, rfl, cact_by (by simp [onDone, go]) hu⟩
    cases p with
    | idle => cases hc : s.pool.chan <;> exact plain (by simp [move, go, hp, hc])
    | wantLock =>
      have hl : s.pool.lock = false := by simpa using h1
      exact plain (by simp [move, go, hp, hl])
    | locked => by_cases hs : s.pool.size < cap <;> exact plain (by simp [move, go, hp, hs])
    | created c => exact plain (by simp [move, go, hp])
    | counted c => exact plain (by simp [move, go, hp, room rfl])
    | unlocking => exact plain (by simp [move, go, hp])
    | waiting =>
      cases hc : s.pool.chan with
      | cons c cs => exact plain (by simp [move, go, hp, hc])
      | nil =>
        have hd : s.done i = true := by
          cases hd : s.done i with
          | true => rfl
          | false => exact absurd ⟨rfl, hc, hd⟩ h2
        exact ⟨⟨i, true, false, false⟩, _, rfl, rfl, cact_by (u := s.pool.at i .idle) (by simp [hd]) (by simp [move, hp])⟩
    | holding c => exact plain (by simp [move, go, hp, room rfl])
    | closing => exact absurd rfl hcl

/-- C133, exactly: when the context of a blocked caller is done, the caller can go on if and only if it is at the second `select` of `Get`.  (The others, at
the mutex, stay blocked.) -/
theorem C133_exact (cap n : Nat) (s : CState) (h : CReachable cap n s) (i : Nat) (p : PC) (hp : s.pool.thr[i]? = some p) (hcl : p ≠ .closing)
    (hb : ¬ CanMove cap s i) :
    (∃ t, cact cap (.cancel i) s = some t ∧ CanMove cap t i) ↔ p = .waiting := by
  have h' : CReachable cap n { s with done := fun j => if j = i then true else s.done j } := by
    obtain ⟨as, ha⟩ := h
    refine ⟨as ++ [.cancel i], ?_⟩
    have : ∀ (as : List CAct) (u : CState), crun cap as u = some s →
        crun cap (as ++ [.cancel i]) u = some { s with done := fun j => if j = i then true else s.done j } := by
      intro as
      induction as with
      | nil => intro u hu; simp only [crun, Option.some.injEq] at hu; subst hu; rfl
      | cons a as ih =>
        intro u hu
        simp only [crun, Option.bind_eq_some_iff] at hu
        obtain ⟨v, h1, h2⟩ := hu
        simp only [List.cons_append, crun, h1, Option.bind_some]
        exact ih v h2
    exact this as _ ha
  rw [canMove_iff h hp hcl] at hb
  constructor
  · rintro ⟨t, ht, hm⟩
    simp only [cact, Option.some.injEq] at ht
    subst ht
    rw [canMove_iff h' hp hcl] at hm
    simp only at hm
    refine Classical.byContradiction fun hw => ?_
    exact hb ⟨hm.1, by simp [hw]⟩
  · rintro rfl
    refine ⟨_, rfl, (canMove_iff h' hp hcl).mpr ⟨by simp, by simp⟩⟩

/-- C133, as far as it holds: a caller at the second `select` whose context is done can return at once, leaving the pool as it is. -/
theorem C133_waiting_partial (cap : Nat) (s : CState) (i : Nat) (hi : s.pool.thr[i]? = some .waiting) (hd : s.done i = true) :
    cact cap (.by ⟨i, true, false, false⟩) s = some { s with pool := s.pool.at i .idle } := by
  simp [cact, onDone, hi, hd, move]

/-- And, exactly: a caller inside `Get` whose context is done can return without help of others - its dial, if it dials, coming back with any
result - if and only if it is not at the mutex while that is held. -/
theorem C133_returns_exact (cap n : Nat) (s : CState) (h : CReachable cap n s) (i : Nat) (hg : InGet s.pool i) (hd : s.done i = true) :
    (∃ ms t, Own i ms ∧ crun cap (ms.map .by) s = some t ∧ Back t.pool i) ↔ ¬ (s.pool.thr[i]? = some .wantLock ∧ s.pool.lock = true) := by
  have hinv := inv_reachable (creachable h)
  constructor
  · rintro ⟨ms, t, ho, hr, hb⟩ ⟨hw, hl⟩
    cases ms with
    | nil =>
      simp only [List.map_nil, crun, Option.some.injEq] at hr
      subst hr
      rcases hb with hb | ⟨c, hb⟩ <;> rw [hw] at hb <;> cases hb
    | cons m ms =>
      obtain ⟨rfl, hc⟩ := ho m (by simp)
      simp only [List.map_cons, crun, Option.bind_eq_some_iff] at hr
      obtain ⟨u, h1, _⟩ := hr
      have := ((canMove_iff h hw (by simp)).mp ⟨m, u, rfl, hc, h1⟩).1
      exact this ⟨rfl, hl⟩
  · intro hn
    -- from the second `select`
    have fin : ∀ u : CState, u.pool.thr[i]? = some .waiting → u.done i = true →
        ∃ ms t, Own i ms ∧ crun cap (ms.map .by) u = some t ∧ Back t.pool i := by
      intro u hu hd
      refine ⟨[⟨i, true, false, false⟩], { u with pool := u.pool.at i .idle }, ?_, ?_, .inl (set_same hu)⟩
      · intro m hm; simp only [List.mem_singleton] at hm; subst hm; exact ⟨rfl, rfl⟩
      · simp [crun, C133_waiting_partial cap u i hu hd]
    have pre : ∀ (u v : CState) (m : Move), m.i = i → m.close = false → cact cap (.by m) u = some v →
        (∃ ms t, Own i ms ∧ crun cap (ms.map .by) v = some t ∧ Back t.pool i) →
        ∃ ms t, Own i ms ∧ crun cap (ms.map .by) u = some t ∧ Back t.pool i := by
      rintro u v m hm hc hu ⟨ms, t, ho, hr, hb⟩
      refine ⟨m :: ms, t, ?_, by simp [crun, hu, hr], hb⟩
      intro x hx
      rcases List.mem_cons.mp hx with rfl | hx
      · exact ⟨hm, hc⟩
      · exact ho x hx
    have unl : ∀ u : CState, u.pool.thr[i]? = some .unlocking → u.done i = true →
        ∃ ms t, Own i ms ∧ crun cap (ms.map .by) u = some t ∧ Back t.pool i := by
      intro u hu hd
      exact pre u { u with pool := { u.pool.at i .waiting with lock := false } } (go i) rfl rfl (by simp [cact, onDone, go, move, hu])
        (fin _ (set_same hu) hd)
    have loc : ∀ u : CState, u.pool.thr[i]? = some .locked → u.done i = true →
        ∃ ms t, Own i ms ∧ crun cap (ms.map .by) u = some t ∧ Back t.pool i := by
      intro u hu hd
      by_cases hs : u.pool.size < cap
      · exact pre u { u with pool := { u.pool.at i .idle with broken := true } } ⟨i, true, false, false⟩ rfl rfl
          (by simp [cact, onDone, move, hu, hs]) ⟨[], _, by simp [Own], rfl, .inl (set_same hu)⟩
      · exact pre u { u with pool := u.pool.at i .unlocking } (go i) rfl rfl (by simp [cact, onDone, go, move, hu, hs])
          (unl _ (set_same hu) hd)
    have cnt : ∀ (u : CState) (c : Conn), Inv cap u.pool → u.pool.thr[i]? = some (.counted c) → u.done i = true →
        ∃ ms t, Own i ms ∧ crun cap (ms.map .by) u = some t ∧ Back t.pool i := by
      intro u c hv hu hd
      have hroom : u.pool.chan.length < cap := by
        have h1 := wsum_ge heldW hu
        simp only [heldW] at h1
        have := hv.size
        have := hv.room
        omega
      exact pre u { u with pool := { u.pool.at i .unlocking with chan := u.pool.chan ++ [c] } } (go i) rfl rfl
        (by simp [cact, onDone, go, move, hu, hroom]) (unl _ (set_same hu) hd)
    obtain ⟨p, hp, h1, h2, h3⟩ := hg
    cases p with
    | idle => exact absurd rfl h1
    | closing => exact absurd rfl h2
    | holding c => exact absurd rfl (h3 c)
    | wantLock =>
      have hl : s.pool.lock = false := by
        cases hl : s.pool.lock with
        | false => rfl
        | true => exact absurd ⟨hp, hl⟩ hn
      exact pre s { s with pool := { s.pool.at i .locked with lock := true } } (go i) rfl rfl (by simp [cact, onDone, go, move, hp, hl])
        (loc _ (set_same hp) hd)
    | locked => exact loc s hp hd
    | created c =>
      have hst : cact cap (.by (go i)) s = some { s with pool := { s.pool.at i (.counted c) with size := s.pool.size + 1 } } := by
        simp [cact, onDone, go, move, hp]
      exact pre s _ (go i) rfl rfl hst (cnt _ c (inv_steps hinv (cact_steps hst)) (set_same hp) hd)
    | counted c => exact cnt s c hinv hp hd
    | unlocking => exact unl s hp hd
    | waiting => exact fin s hp hd

/-- With a pool of one connection, in the hands of caller 0, caller 1 waits; when its context is done it returns. -/
example : ∃ s, CReachable (capacity 1) 2 s ∧ s.pool.thr = [.holding 0, .waiting] ∧ ¬ CanMove (capacity 1) s 1 ∧
    ∃ t, crun (capacity 1) [.cancel 1, .by ⟨1, true, false, false⟩] s = some t ∧ t.pool.thr = [.holding 0, .idle] := by
  have hr : ∃ s, crun (capacity 1) [.by (go 0), .by (go 0), .by (go 0), .by (go 0), .by (go 0), .by (go 0), .by (go 0),
      .by (go 1), .by (go 1), .by (go 1), .by (go 1)] (CState.init 2) = some s ∧ s.pool.thr = [.holding 0, .waiting] ∧ s.pool.chan = [] ∧
      s.done 1 = false := ⟨_, rfl, rfl, rfl, rfl⟩
  obtain ⟨s, h1, h2, h3, h4⟩ := hr
  have hc : CReachable (capacity 1) 2 s := ⟨_, h1⟩
  have hp : s.pool.thr[1]? = some .waiting := by rw [h2]; rfl
  refine ⟨s, hc, h2, ?_, { s with pool := s.pool.at 1 .idle, done := fun j => if j = 1 then true else s.done j }, ?_, by simp [State.at, h2]⟩
  · rw [canMove_iff hc hp (by simp)]
    simp [h3, h4]
  · simp [crun, cact, onDone, move, hp]

end Verif.Pool

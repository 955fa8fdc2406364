import Verif.Client.PropsPoolExact
/-!
# C54 and C83, exactly
-/
namespace Verif.Pool

/-! ## C54: where the connections are -/

/-- C54, conservation, exactly: every connection that was opened is idle or in the hands of exactly one caller, if and only if no
open handler has failed and `Close` took none. -/
theorem C54_exact (cap n : Nat) (s : State) (h : Reachable cap n s) :
    (∀ c, c < s.opened → s.chan.count c + wsum (has c) s.thr = 1) ↔ s.leaked = [] ∧ s.closed = [] := by
  have hinv := inv_reachable h
  constructor
  · intro hall
    have none : ∀ (l : List Conn), (∀ c, l.count c = 0) → l = [] := by
      intro l hl
      cases l with
      | nil => rfl
      | cons c l => have := hl c; simp at this
    have each : ∀ c, s.leaked.count c = 0 ∧ s.closed.count c = 0 := by
      intro c
      have h1 := hinv.each c
      by_cases hc : c < s.opened
      · have h2 := hall c hc
        simp only [below, if_pos hc] at h1
        omega
      · simp only [below, if_neg hc] at h1
        omega
    exact ⟨none _ fun c => (each c).1, none _ fun c => (each c).2⟩
  · rintro ⟨h1, h2⟩ c hc
    have h3 := hinv.each c
    rw [h1, h2] at h3
    simp only [below, if_pos hc, List.count_nil] at h3
    omega

/-- At most one connection is ever dropped: the mutex stays locked behind it. -/
theorem C54_lost_once (cap n : Nat) (s : State) (h : Reachable cap n s) : s.leaked.length ≤ 1 := by
  have key : ∀ s0, Inv cap s0 → s0.leaked.length ≤ bit s0.broken → Steps cap s0 s → s.leaked.length ≤ bit s.broken := by
    intro s0 i0 h0 st
    have both : Inv cap s ∧ s.leaked.length ≤ bit s.broken := by
      clear h
      induction st with
      | refl => exact ⟨i0, h0⟩
      | @tail t u _ st2 ih =>
        refine ⟨inv_step ih.1 st2, ?_⟩
        have ih2 := ih.2
        have intact : ∀ j : Nat, t.thr[j]? = some .locked → t.leaked = [] := by
          intro j hj
          cases hb : t.broken with
          | false => exact ih.1.leak hb
          | true => exact absurd hj (not_locked ih.1 hb j).1
        cases st2 with
        | dialFail h1 _ =>
          show t.leaked.length ≤ 1
          rw [intact _ h1]; simp
        | openFail h1 _ =>
          show (t.opened :: t.leaked).length ≤ 1
          rw [intact _ h1]; simp
        | _ => exact ih2
    exact both.2
  have := key _ (inv_init cap n) (by simp [State.init]) h
  unfold bit at this
  split at this <;> omega

/-- A pool after an open handler failed, with one connection in use. -/
example : ∃ s, Reachable (capacity 2) 2 s ∧ s.leaked = [1] ∧ s.thr = [.holding 0, .idle] :=
  ⟨⟨[], 1, true, 2, [1], [], true, 0, [.holding 0, .idle]⟩,
    run_steps (ms := [go 0, go 0, go 0, go 0, go 0, go 0, go 0, go 1, go 1, ⟨1, false, true, false⟩]) (by decide), rfl, rfl⟩

/-! ## C83: waiting while there is room -/

/-- Six steps: a lone caller of a pool without idle connections gets to put a new one into the channel and to leave the
mutex. -/
theorem fill {cap : Nat} {size opened errs : Nat} {closed : List Conn} {rest : List PC} (h : size < cap) :
    Steps cap ⟨[], size, false, opened, [], closed, false, errs, .idle :: rest⟩
      ⟨[opened], size + 1, false, opened + 1, [], closed, false, errs, .waiting :: rest⟩ :=
  (((((Steps.one (Step.getSlow (i := 0) rfl rfl)).tail (.lock (i := 0) rfl rfl)).tail (.dialOk (i := 0) rfl h)).tail
    (.count (i := 0) rfl)).tail (.push (i := 0) rfl (by simp [State.at]; omega))).tail (.unlock (i := 0) rfl)

/-- The first caller lost the connection it dialled to the second. -/
theorem robbed (cap n : Nat) (hc : 0 < cap) :
    Reachable cap (n + 2) ⟨[], 1, false, 1, [], [], false, 0, .waiting :: .holding 0 :: List.replicate n .idle⟩ :=
  (fill (rest := .idle :: List.replicate n .idle) hc).tail (.getFast (i := 1) rfl rfl)

/-- C83, exactly, for pools that are not closed: a caller can come to wait although fewer connections than the capacity were
opened, if and only if the capacity is at least two and there are at least two callers. -/
theorem C83_exact (cap n : Nat) (hcap : 0 < cap) :
    (∃ s, Reachable cap n s ∧ s.closed = [] ∧ s.chan = [] ∧ s.opened < cap ∧ ∃ i : Nat, s.thr[i]? = some .waiting) ↔ 2 ≤ cap ∧ 2 ≤ n := by
  constructor
  · rintro ⟨s, h, hcl, hch, ho, i, hi⟩
    have h1 := waiting_size hcap h i (.inl hi)
    have hinv := inv_reachable h
    have h2 := hinv.open_
    refine ⟨by omega, ?_⟩
    have h3 := hinv.size
    rw [hch, hcl] at h3
    simp only [List.length_nil] at h3
    obtain ⟨j, p, hj, hp⟩ := wsum_pos heldW (l := s.thr) (by omega)
    have hji : j ≠ i := by
      rintro rfl
      rw [hi] at hj
      cases hj
      simp [heldW] at hp
    have hn : s.thr.length = n := by
      have : ∀ {s0 : State}, Steps cap s0 s → s.thr.length = s0.thr.length := by
        intro s0 st
        clear h1 hinv h2 h3 hj hi ho hch hcl h
        induction st with
        | refl => rfl
        | tail _ st2 ih => cases st2 <;> simpa [State.at] using ih
      simpa [State.init] using this h
    have a := (List.getElem?_eq_some_iff.1 hi).1
    have b := (List.getElem?_eq_some_iff.1 hj).1
    omega
  · rintro ⟨h1, h2⟩
    obtain ⟨m, rfl⟩ : ∃ m, n = m + 2 := ⟨n - 2, by omega⟩
    exact ⟨_, robbed cap m hcap, rfl, rfl, h1, 0, rfl⟩

/-- A caller used the pool `k` times and closed it each time, and each time closing the connection failed. -/
theorem closed_often (cap n k : Nat) (h : k ≤ cap) :
    ∃ closed : List Conn, closed.length = k ∧
      Reachable cap (n + 1) ⟨[], k, false, k, [], closed, false, k, .idle :: List.replicate n .idle⟩ := by
  induction k with
  | zero => exact ⟨[], rfl, .refl⟩
  | succ k ih =>
    obtain ⟨closed, hl, hr⟩ := ih (by omega)
    refine ⟨k :: closed, by simp [hl], ?_⟩
    have h1 := Steps.trans hr (fill (by omega))
    have h2 := h1.tail (.recv (i := 0) rfl rfl)
    have h3 := h2.tail (.put (i := 0) rfl (by simp [State.at]; omega))
    have h4 := h3.tail (.closeStart (i := 0) rfl)
    exact h4.tail (.closeErr (i := 0) rfl rfl)

/-- C83 with `Close`: closed connections keep counting as open.  In a pool of any capacity, even a lone caller can come to wait when no
connection is open at all, and then neither it nor anybody else will ever get one. -/
theorem C83_violated_closed (cap n : Nat) :
    ∃ s, Reachable cap (n + 1) s ∧ s.thr[0]? = some .waiting ∧ s.closed.length = s.opened ∧ s.broken = false ∧
      ∀ t, Steps cap s t → ∀ (i : Nat) c, t.thr[i]? ≠ some (.holding c) := by
  obtain ⟨closed, hl, hr⟩ := closed_often cap n cap (Nat.le_refl _)
  have h1 := hr.tail (.getSlow (i := 0) rfl rfl)
  have h2 := h1.tail (.lock (i := 0) rfl rfl)
  have h3 := h2.tail (.noRoom (i := 0) rfl (Nat.le_refl _))
  have h4 := h3.tail (.unlock (i := 0) rfl)
  refine ⟨_, h4, rfl, hl, rfl, ?_⟩
  intro t st i c hi
  have hdead : ¬ CanServe cap ⟨[], cap, false, cap, [], closed, false, cap, .waiting :: List.replicate n .idle⟩ := by
    simp only [CanServe, not_or, Decidable.not_not, not_and, not_exists]
    refine ⟨trivial, ?_, by simp⟩
    intro j c
    match j with
    | 0 => simp
    | j + 1 =>
      simp only [List.getElem?_cons_succ, List.getElem?_replicate]
      split <;> simp
  have key : Inv cap t ∧ ¬ CanServe cap t := by
    clear hi
    induction st with
    | refl => exact ⟨inv_reachable h4, hdead⟩
    | tail _ st2 ih => exact ⟨inv_step ih.1 st2, dead_step ih.1 ih.2 st2⟩
  exact key.2 (.inr (.inl ⟨i, c, .inl hi⟩))

end Verif.Pool

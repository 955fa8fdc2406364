import Verif.Client.PropsPool
/-!
# C55: exactly when a pool can still serve
-/
namespace Verif.Pool

/-- There is a connection that is idle, in somebody's hands or on its way into the pool; or one may still be dialled. -/
def CanServe (cap : Nat) (s : State) : Prop :=
  s.chan ≠ [] ∨ (∃ (j : Nat) (c : Conn), s.thr[j]? = some (.holding c) ∨ s.thr[j]? = some (.created c) ∨ s.thr[j]? = some (.counted c)) ∨
    (s.broken = false ∧ s.size < cap)

theorem not_locked {cap : Nat} {s : State} (h : Inv cap s) (hb : s.broken = true) (j : Nat) :
    s.thr[j]? ≠ some .locked ∧ s.thr[j]? ≠ some .unlocking ∧ (∀ c, s.thr[j]? ≠ some (.counted c)) ∧ ∀ c, s.thr[j]? ≠ some (.created c) := by
  have hm := h.mutex
  rw [hb] at hm
  have e1 : bit true = 1 := rfl
  have hbit : bit s.lock ≤ 1 := by unfold bit; split <;> omega
  refine ⟨fun hj => ?_, fun hj => ?_, fun c hj => ?_, fun c hj => ?_⟩
  · have := wsum_ge critW hj; simp only [critW] at this; omega
  · have := wsum_ge critW hj; simp only [critW] at this; omega
  · have := wsum_ge critW hj; simp only [critW] at this; omega
  · have := wsum_ge freshW hj; simp only [freshW] at this; omega

/-- A pool that cannot serve stays so. -/
theorem dead_step {cap : Nat} {s t : State} (h : Inv cap s) (hd : ¬ CanServe cap s) (st : Step cap s t) : ¬ CanServe cap t := by
  simp only [CanServe, not_or, Decidable.not_not, not_and, not_exists] at hd
  obtain ⟨h1, h2, h3⟩ := hd
  have plain : ∀ (j : Nat) (q : PC), (∀ c, q ≠ .holding c ∧ q ≠ .created c ∧ q ≠ .counted c) → ∀ (i : Nat) (c : Conn),
      ¬ (s.thr.set j q)[i]? = some (.holding c) ∧ ¬ (s.thr.set j q)[i]? = some (.created c) ∧ ¬ (s.thr.set j q)[i]? = some (.counted c) := by
    intro j q hq i c
    by_cases hij : i = j
    · subst hij
      rw [List.getElem?_set_self']
      cases hg : s.thr[i]? with
      | none => simp
      | some p =>
        simp only [Option.map_eq_map, Option.map_some, Option.some.injEq]
        exact hq c
    · rw [set_other hij]; exact h2 i c
  have dead : ∀ (j : Nat) (q : PC), s.thr[j]? = some .locked → s.size < cap → False := by
    intro j q hj hs
    cases hb : s.broken with
    | true => exact (not_locked h hb j).1 hj
    | false => exact h3 hb hs
  have fin : ∀ u : State, u.chan = [] → (∀ (i : Nat) (c : Conn), ¬ u.thr[i]? = some (.holding c) ∧ ¬ u.thr[i]? = some (.created c) ∧ ¬ u.thr[i]? = some (.counted c)) →
      (u.broken = false → ¬ u.size < cap) → ¬ CanServe cap u := by
    intro u a b d
    simp only [CanServe, not_or, Decidable.not_not, not_and, not_exists]
    exact ⟨a, b, d⟩
  cases st with
  | getFast g1 g2 => rw [h1] at g2; cases g2
  | getSlow g1 g2 => exact fin _ h1 (plain _ _ (by simp)) h3
  | lock g1 g2 => exact fin _ h1 (plain _ _ (by simp)) h3
  | dialOk g1 g2 => exact (dead _ .idle g1 g2).elim
  | dialFail g1 g2 => exact (dead _ .idle g1 g2).elim
  | openFail g1 g2 => exact (dead _ .idle g1 g2).elim
  | noRoom g1 g2 => exact fin _ h1 (plain _ _ (by simp)) h3
  | count g1 => exact absurd g1 (h2 _ _).2.1
  | push g1 _ => exact absurd g1 (h2 _ _).2.2
  | unlock g1 => exact fin _ h1 (plain _ _ (by simp)) h3
  | recv g1 g2 => rw [h1] at g2; cases g2
  | timeout g1 => exact fin _ h1 (plain _ _ (by simp)) h3
  | put g1 _ => exact absurd g1 (h2 _ _).1
  | closeStart g1 => exact fin _ h1 (plain _ _ (by simp)) h3
  | closeOne g1 g2 => rw [h1] at g2; cases g2
  | closeErr g1 g2 => rw [h1] at g2; cases g2

/-- C55, exactly: whatever has happened before, a caller that enters `Get` can still obtain a connection if and only if there is one
that is idle, in somebody's hands or on its way into the pool, or no dial has failed and not all that may be dialled were. -/
theorem C55_exact (cap n : Nat) (s : State) (h : Reachable cap n s) (i : Nat) (hi : s.thr[i]? = some .idle) :
    (∃ t c, Steps cap s t ∧ t.thr[i]? = some (.holding c)) ↔ CanServe cap s := by
  have hinv := inv_reachable h
  constructor
  · rintro ⟨t, c, st, ht⟩
    refine Classical.byContradiction fun hd => ?_
    have key : Inv cap t ∧ ¬ CanServe cap t := by
      clear ht
      induction st with
      | refl => exact ⟨hinv, hd⟩
      | tail _ st2 ih => exact ⟨inv_step ih.1 st2, dead_step ih.1 ih.2 st2⟩
    exact key.2 (.inr (.inl ⟨i, c, .inl ht⟩))
  · -- from an idle connection
    have fast : ∀ t, Steps cap s t → t.chan ≠ [] → t.thr[i]? = some .idle → ∃ t c, Steps cap s t ∧ t.thr[i]? = some (.holding c) := by
      intro t st hne ht
      cases hc : t.chan with
      | nil => exact absurd hc hne
      | cons c cs => exact ⟨_, c, st.tail (.getFast ht hc), set_same ht⟩
    have hold : (∃ (j : Nat) (c : Conn), s.thr[j]? = some (.holding c) ∨ s.thr[j]? = some (.created c) ∨ s.thr[j]? = some (.counted c)) →
        ∃ t c, Steps cap s t ∧ t.thr[i]? = some (.holding c) := by
      rintro ⟨j, c, hj | hj | hj⟩
      · have hij : i ≠ j := by rintro rfl; rw [hi] at hj; cases hj
        have h1 := wsum_ge heldW hj
        simp only [heldW] at h1
        have := hinv.size
        have := hinv.room
        exact fast _ (.one (.put hj (by omega))) (by simp) (by simp only [State.at]; rw [set_other hij]; exact hi)
      · have hij : i ≠ j := by rintro rfl; rw [hi] at hj; cases hj
        have hb : s.broken = false := by
          cases hb : s.broken with
          | false => rfl
          | true => exact absurd hj ((not_locked hinv hb j).2.2.2 c)
        obtain ⟨t, ht, hne, _⟩ := release_created hinv hb hj
        exact fast t ht.1 hne ((ht.2.2.2.2.1 i hij).trans hi)
      · have hij : i ≠ j := by rintro rfl; rw [hi] at hj; cases hj
        have hb : s.broken = false := by
          cases hb : s.broken with
          | false => rfl
          | true => exact absurd hj ((not_locked hinv hb j).2.2.1 c)
        obtain ⟨t, ht, hne, _⟩ := release_counted hinv hb hj
        exact fast t ht.1 hne ((ht.2.2.2.2.1 i hij).trans hi)
    rintro (hc | hc | ⟨hb, hs⟩)
    · exact fast s .refl hc hi
    · exact hold hc
    · by_cases hx : wsum heldW s.thr + wsum freshW s.thr = 0
      · refine C55_can_obtain_partial cap n s h hb ?_ i hi
        have := hinv.size
        simp only [busy]; omega
      · by_cases h0 : 0 < wsum heldW s.thr
        · obtain ⟨j, p, hj, hp⟩ := wsum_pos heldW h0
          cases p with
          | holding c => exact hold ⟨j, c, .inl hj⟩
          | counted c => exact hold ⟨j, c, .inr (.inr hj)⟩
          | _ => simp [heldW] at hp
        · obtain ⟨j, p, hj, hp⟩ := wsum_pos freshW (l := s.thr) (by omega)
          cases p with
          | created c => exact hold ⟨j, c, .inr (.inl hj)⟩
          | _ => simp [freshW] at hp

/-- After a failed dial a pool of two still serves while the other connection is in use, and no longer when it is closed. -/
example : (∃ s, Reachable (capacity 2) 2 s ∧ s.broken = true ∧ s.thr = [.holding 0, .idle] ∧ CanServe (capacity 2) s) ∧
    ∃ s, Reachable (capacity 2) 2 s ∧ s.thr[1]? = some .idle ∧ ¬ CanServe (capacity 2) s := by
  refine ⟨⟨⟨[], 1, true, 1, [], [], true, 0, [.holding 0, .idle]⟩, ?_, rfl, rfl, .inr (.inl ⟨0, 0, .inl rfl⟩)⟩,
    ⟨⟨[], 1, true, 1, [], [0], true, 0, [.closing, .idle]⟩, ?_, rfl, ?_⟩⟩
  · exact run_steps (ms := [go 0, go 0, go 0, go 0, go 0, go 0, go 0, go 1, go 1, ⟨1, true, false, false⟩]) (by decide)
  · exact run_steps (ms := [go 0, go 0, go 0, go 0, go 0, go 0, go 0, go 1, go 1, ⟨1, true, false, false⟩, go 0, ⟨0, false, false, true⟩, go 0]) (by decide)
  · simp only [CanServe, not_or, Decidable.not_not, not_and, not_exists]
    refine ⟨trivial, ?_, by simp⟩
    intro j c
    match j with
    | 0 => simp
    | 1 => simp
    | j + 2 => simp

end Verif.Pool

import Verif.Client.PropsPoolExact
/-!
# C56: exactly when `Close` can still return
-/
namespace Verif.Pool

/-- There is a connection that is idle, in somebody's hands or on its way into the pool; or one may still be dialled, and there is a
caller who is not itself inside `Close`. -/
def CanFail (cap : Nat) (s : State) : Prop :=
  s.chan ≠ [] ∨ (∃ (j : Nat) (c : Conn), s.thr[j]? = some (.holding c) ∨ s.thr[j]? = some (.created c) ∨ s.thr[j]? = some (.counted c)) ∨
    (s.broken = false ∧ s.size < cap ∧ ∃ (j : Nat) (p : PC), s.thr[j]? = some p ∧ p ≠ .closing)

/-- When everybody is in `Close` and nothing is idle, nothing happens any more. -/
theorem all_closing {cap : Nat} {s t : State} (hc : s.chan = []) (ha : ∀ (j : Nat) (p : PC), s.thr[j]? = some p → p = .closing) :
    ¬ Step cap s t := by
  intro st
  cases st with
  | getFast h1 h2 => rw [hc] at h2; cases h2
  | getSlow h1 _ => cases ha _ _ h1
  | lock h1 h2 => cases ha _ _ h1
  | dialOk h1 _ => cases ha _ _ h1
  | dialFail h1 _ => cases ha _ _ h1
  | openFail h1 _ => cases ha _ _ h1
  | noRoom h1 _ => cases ha _ _ h1
  | count h1 => cases ha _ _ h1
  | push h1 _ => cases ha _ _ h1
  | unlock h1 => cases ha _ _ h1
  | recv h1 _ => cases ha _ _ h1
  | timeout h1 => cases ha _ _ h1
  | put h1 _ => cases ha _ _ h1
  | closeStart h1 => cases ha _ _ h1
  | closeOne h1 h2 => rw [hc] at h2; cases h2
  | closeErr h1 h2 => rw [hc] at h2; cases h2

/-- Only a failing close of an idle connection ends a `Close`. -/
theorem closing_step {cap : Nat} {s t : State} {i : Nat} (hi : s.thr[i]? = some .closing) (st : Step cap s t) :
    t.thr[i]? = some .closing ∨ s.chan ≠ [] := by
  cases hc : s.chan with
  | cons c cs => exact .inr (by simp)
  | nil =>
    refine .inl ?_
    have he : t.closeErrs = s.closeErrs := by
      cases st with
      | closeErr h1 h2 => rw [hc] at h2; cases h2
      | _ => rfl
    exact C56_violated cap s t (.one st) i hi he

/-- C56, exactly: whatever has happened before, a running `Close` can still return if and only if there is a connection that is idle, in
somebody's hands or on its way into the pool, or no dial has failed, not all that may be dialled were and somebody is there to dial.  And
it only returns because closing a connection failed. -/
theorem C56_exact (cap n : Nat) (s : State) (h : Reachable cap n s) (i : Nat) (hi : s.thr[i]? = some .closing) :
    ((∃ t, Steps cap s t ∧ t.thr[i]? ≠ some .closing) ↔ CanFail cap s) ∧
    (∀ t, Steps cap s t → t.thr[i]? ≠ some .closing → s.closeErrs < t.closeErrs) := by
  refine ⟨⟨?_, ?_⟩, ?_⟩
  · rintro ⟨t, st, ht⟩
    refine Classical.byContradiction fun hd => ?_
    by_cases hs : CanServe cap s
    · obtain ⟨hc, hj, hb⟩ : s.chan = [] ∧ (¬ ∃ (j : Nat) (c : Conn), s.thr[j]? = some (.holding c) ∨ s.thr[j]? = some (.created c) ∨ s.thr[j]? = some (.counted c)) ∧
          ∀ (j : Nat) (p : PC), s.thr[j]? = some p → p = .closing := by
        refine ⟨Classical.byContradiction fun e => hd (.inl e), fun e => hd (.inr (.inl e)), ?_⟩
        intro j p hj
        refine Classical.byContradiction fun e => ?_
        rcases hs with a | a | ⟨a, b⟩
        · exact hd (.inl a)
        · exact hd (.inr (.inl a))
        · exact hd (.inr (.inr ⟨a, b, j, p, hj, e⟩))
      have key : t = s := by
        clear ht
        induction st with
        | refl => rfl
        | tail _ st2 ih => subst ih; exact absurd st2 (all_closing hc hb)
      subst key
      exact ht hi
    · have key : Inv cap t ∧ ¬ CanServe cap t ∧ t.thr[i]? = some .closing := by
        clear ht
        induction st with
        | refl => exact ⟨inv_reachable h, hs, hi⟩
        | tail _ st2 ih =>
          refine ⟨inv_step ih.1 st2, dead_step ih.1 ih.2.1 st2, ?_⟩
          rcases closing_step ih.2.2 st2 with a | a
          · exact a
          · exact absurd (.inl a) ih.2.1
      exact ht key.2.2
  · -- an idle connection is there
    have quick : ∀ t, Steps cap s t → t.chan ≠ [] → ∃ t, Steps cap s t ∧ t.thr[i]? ≠ some .closing := by
      intro t st hne
      by_cases ht : t.thr[i]? = some .closing
      · cases hc : t.chan with
        | nil => exact absurd hc hne
        | cons c cs => exact ⟨_, st.tail (.closeErr ht hc), by simp only [State.at]; rw [set_same ht]; simp⟩
      · exact ⟨t, st, ht⟩
    have hold : ∀ t, Steps cap s t → (∃ (j : Nat) (c : Conn), t.thr[j]? = some (.holding c) ∨ t.thr[j]? = some (.created c) ∨ t.thr[j]? = some (.counted c)) →
        ∃ t, Steps cap s t ∧ t.thr[i]? ≠ some .closing := by
      rintro t st ⟨j, c, hj | hj | hj⟩
      · have hinv := inv_steps (inv_reachable h) st
        have h1 := wsum_ge heldW hj
        simp only [heldW] at h1
        have := hinv.size
        have := hinv.room
        exact quick _ (st.tail (.put hj (by omega))) (by simp)
      · have hinv := inv_steps (inv_reachable h) st
        have hb : t.broken = false := by
          cases hb : t.broken with
          | false => rfl
          | true => exact absurd hj ((not_locked hinv hb j).2.2.2 c)
        obtain ⟨u, hu, hne, _⟩ := release_created hinv hb hj
        exact quick u (st.trans hu.1) hne
      · have hinv := inv_steps (inv_reachable h) st
        have hb : t.broken = false := by
          cases hb : t.broken with
          | false => rfl
          | true => exact absurd hj ((not_locked hinv hb j).2.2.1 c)
        obtain ⟨u, hu, hne, _⟩ := release_counted hinv hb hj
        exact quick u (st.trans hu.1) hne
    have locked : ∀ t, Steps cap s t → t.size < cap → ∀ j : Nat, t.thr[j]? = some .locked → ∃ t, Steps cap s t ∧ t.thr[i]? ≠ some .closing := by
      intro t st hs j hj
      exact hold _ (st.tail (.dialOk hj hs)) ⟨j, t.opened, .inr (.inl (set_same hj))⟩
    have idle : ∀ t, Steps cap s t → t.broken = false → t.size < cap → ∀ j : Nat, t.thr[j]? = some .idle → ∃ t, Steps cap s t ∧ t.thr[i]? ≠ some .closing := by
      intro t st hb hs j hj
      obtain ⟨u, c, hu, huj⟩ := (C55_exact cap n t (Steps.trans h st) j hj).2 (.inr (.inr ⟨hb, hs⟩))
      exact hold u (st.trans hu) ⟨j, c, .inl huj⟩
    have waiting : ∀ t, Steps cap s t → t.broken = false → t.size < cap → ∀ j : Nat, t.thr[j]? = some .waiting → ∃ t, Steps cap s t ∧ t.thr[i]? ≠ some .closing := by
      intro t st hb hs j hj
      exact idle (t.at j .idle) (st.tail (.timeout hj)) hb hs j (set_same hj)
    have unlocking : ∀ t, Steps cap s t → t.broken = false → t.size < cap → ∀ j : Nat, t.thr[j]? = some .unlocking → ∃ t, Steps cap s t ∧ t.thr[i]? ≠ some .closing := by
      intro t st hb hs j hj
      exact waiting _ (st.tail (.unlock hj)) hb hs j (set_same hj)
    rintro (hc | hc | ⟨hb, hs, j, p, hj, hp⟩)
    · exact quick s .refl hc
    · exact hold s .refl hc
    · cases p with
      | idle => exact idle s .refl hb hs j hj
      | wantLock =>
        cases hl : s.lock with
        | false => exact locked _ (.one (.lock hj hl)) hs j (set_same hj)
        | true =>
          have hm := (inv_reachable h).mutex
          rw [hb, hl] at hm
          have e1 : bit true = 1 := rfl
          have e2 : bit false = 0 := rfl
          by_cases h0 : 0 < wsum critW s.thr
          · obtain ⟨k, p, hk, hp⟩ := wsum_pos critW h0
            cases p with
            | locked => exact locked s .refl hs k hk
            | counted c => exact hold s .refl ⟨k, c, .inr (.inr hk)⟩
            | unlocking => exact unlocking s .refl hb hs k hk
            | _ => simp [critW] at hp
          · obtain ⟨k, p, hk, hp⟩ := wsum_pos freshW (l := s.thr) (by omega)
            cases p with
            | created c => exact hold s .refl ⟨k, c, .inr (.inl hk)⟩
            | _ => simp [freshW] at hp
      | locked => exact locked s .refl hs j hj
      | created c => exact hold s .refl ⟨j, c, .inr (.inl hj)⟩
      | counted c => exact hold s .refl ⟨j, c, .inr (.inr hj)⟩
      | unlocking => exact unlocking s .refl hb hs j hj
      | waiting => exact waiting s .refl hb hs j hj
      | holding c => exact hold s .refl ⟨j, c, .inl hj⟩
      | closing => exact absurd rfl hp
  · intro t st ht
    have mono : s.closeErrs ≤ t.closeErrs := by
      clear ht
      induction st with
      | refl => exact Nat.le_refl _
      | tail _ st2 ih =>
        refine Nat.le_trans ih ?_
        cases st2 <;> simp [State.at]
    rcases Nat.lt_or_eq_of_le mono with a | a
    · exact a
    · exact absurd (C56_violated cap s t st i hi a.symm) ht

/-- A `Close` of an empty pool that can still fail because another caller may dial, and one that never returns: the other caller is in
`Close` too. -/
example : (∃ s, Reachable (capacity 1) 2 s ∧ s.thr = [.closing, .idle] ∧ CanFail (capacity 1) s) ∧
    ∃ s, Reachable (capacity 1) 2 s ∧ s.thr = [.closing, .closing] ∧ ¬ CanFail (capacity 1) s := by
  refine ⟨⟨⟨[], 0, false, 0, [], [], false, 0, [.closing, .idle]⟩, ?_, rfl, .inr (.inr ⟨rfl, by decide, 1, .idle, rfl, by decide⟩)⟩,
    ⟨⟨[], 0, false, 0, [], [], false, 0, [.closing, .closing]⟩, ?_, rfl, ?_⟩⟩
  · exact run_steps (ms := [⟨0, false, false, true⟩]) (by decide)
  · exact run_steps (ms := [⟨0, false, false, true⟩, ⟨1, false, false, true⟩]) (by decide)
  · rintro (a | ⟨j, c, a⟩ | ⟨_, _, j, p, a, b⟩)
    · exact a rfl
    · match j with
      | 0 => simp at a
      | 1 => simp at a
      | j + 2 => simp at a
    · match j with
      | 0 => simp at a; exact b a.symm
      | 1 => simp at a; exact b a.symm
      | j + 2 => simp at a

end Verif.Pool

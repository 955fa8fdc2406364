import Verif.Cache.PropsDb
/-!
# Property C136: caches with `Cron` switched on

`Cron` (cache/cache.go:26-28) starts `cronExpire` (cache/cachecron.go:6-25) with a period of two seconds: a tick two seconds after the call and every two seconds
after that, each as soon as the lock is free.
-/
namespace Verif

open Cache

/-- The period of `Cron` in nanoseconds (cache/cache.go:27). -/
def cronPeriod : Int := 2 * 1000000000

/-- In the history, a tick of the sweep comes at most `slack` behind each multiple of the period after the moment `start` at which `Cron` was called, up to
the moment `t`.  (A ticker drops ticks for which nobody waits; one that was dropped is followed by another at once.) -/
def Ticking (start slack t : Int) (h : History) : Prop :=
  ∀ n : Nat, start + (n + 1) * cronPeriod + slack ≤ t →
    ∃ s, (s, Call.cronTick) ∈ h ∧ start + (n + 1) * cronPeriod ≤ s ∧ s ≤ start + (n + 1) * cronPeriod + slack

/-- The call is a tick. -/
def Call.isTick : Call → Bool
  | .cronTick => true
  | _ => false

theorem isTick_iff {op : Call} : op.isTick = true ↔ op = .cronTick := by cases op <;> simp [Call.isTick]

/-- The clock readings of a history do not decrease. -/
def InOrder (h : History) : Prop := h.Pairwise fun p q => p.1 ≤ q.1

/-- C136, exactly what a tick leaves behind: the calls after it are answered as by a new cache. -/
theorem C136_exact (h1 h2 : History) (t : Int) (ht : yearOne < t) :
    run Cache.new (h1 ++ (t, .cronTick) :: h2) = run Cache.new h2 := by
  rw [run_append]
  simp only [run]
  rw [C27_tick_wipes_partial _ ⟨h1, rfl⟩ t ht]

/-- A key that no call after the last tick writes is absent. -/
theorem after_tick (h1 h2 : History) (s t : Int) (hs : yearOne < s) (k : Bytes) (hw : NoWrite k h2) (hu : Until t h2) :
    getOut (run Cache.new (h1 ++ (s, .cronTick) :: h2)) t k = .str (.err .keyNil) := by
  rw [C136_exact h1 h2 s hs]
  have := liveVal_run_of_noWrite Cache.new t h2 k hw hu
  simp only [getOut, exec, get_snd, this]
  rfl

/-- A list of calls cut behind the last one that satisfies a condition. -/
theorem cut_last {α : Type} (p : α → Bool) (l : List α) (h : ∃ a ∈ l, p a = true) : ∃ l1 a l2, l = l1 ++ a :: l2 ∧ p a = true ∧ ∀ b ∈ l2, p b = false := by
  induction l with
  | nil => simp at h
  | cons x l ih =>
    by_cases hl : ∃ a ∈ l, p a = true
    · obtain ⟨l1, a, l2, e, h1, h2⟩ := ih hl
      exact ⟨x :: l1, a, l2, by rw [e]; rfl, h1, h2⟩
    · obtain ⟨a, ha, hp⟩ := h
      rcases List.mem_cons.mp ha with rfl | ha
      · refine ⟨[], a, l, rfl, hp, fun b hb => ?_⟩
        cases hb' : p b with
        | false => rfl
        | true => exact absurd ⟨b, hb, hb'⟩ hl
      · exact absurd ⟨a, ha, hp⟩ hl

/-- C136 is false: with `Cron` on, whatever the deadline of a key, or without one, the key is absent two seconds (and the slack) after the last call that
wrote it. -/
theorem C136_violated (h : History) (start slack t : Int) (hstart : yearOne < start) (hsl : 0 ≤ slack) (ho : InOrder h) (hu : Until t h)
    (htick : Ticking start slack t h) (k : Bytes) (w : Int) (hw : ∀ p ∈ h, p.2.writes k = true → p.2 ≠ .cronTick → p.1 ≤ w)
    (hstart' : start ≤ w) (hold : w + 2000000000 + slack < t) :
    getOut (run Cache.new h) t k = .str (.err .keyNil) := by
  have hold : w + cronPeriod + slack < t := hold
  -- the first multiple of the period after `w`
  obtain ⟨n, hn1, hn2⟩ : ∃ n : Nat, w < start + (n + 1) * cronPeriod ∧ start + (n + 1) * cronPeriod ≤ w + cronPeriod := by
    refine ⟨((w - start) / cronPeriod).toNat, ?_, ?_⟩
    all_goals
      have hp : (0 : Int) < cronPeriod := by decide
      have h0 : 0 ≤ (w - start) / cronPeriod := Int.ediv_nonneg (by omega) (by omega)
      have h1 := Int.mul_ediv_add_emod (w - start) cronPeriod
      have h2 := Int.emod_lt_of_pos (w - start) hp
      have h3 := Int.emod_nonneg (w - start) (show cronPeriod ≠ 0 by omega)
      rw [Int.toNat_of_nonneg h0, Int.add_mul, Int.mul_comm ((w - start) / cronPeriod)]
      omega
  obtain ⟨s, hs, hs1, _⟩ := htick n (by omega)
  -- the last tick after `w`
  obtain ⟨h1, ⟨s', op⟩, h2, e, hp, hl⟩ := cut_last (fun p : Int × Call => p.2.isTick && decide (w < p.1)) h ⟨_, hs, by simp [Call.isTick]; omega⟩
  simp only [Bool.and_eq_true, decide_eq_true_eq, isTick_iff] at hp
  obtain ⟨rfl, hp⟩ := hp
  rw [e]
  refine after_tick h1 h2 s' t (by omega) k (fun q hq => ?_) (fun q hq => hu q (by rw [e]; simp [hq]))
  cases hb : q.2.writes k with
  | false => rfl
  | true =>
    have hle : s' ≤ q.1 := by
      rw [e] at ho
      have := (List.pairwise_append.mp ho).2.1
      exact (List.pairwise_cons.mp this).1 q hq
    have hc : q.2 ≠ .cronTick := by
      intro hc
      have := hl q hq
      simp [hc, Call.isTick] at this
      omega
    have := hw q (by rw [e]; simp [hq]) hb hc
    omega

/-- An hour is asked for; less than five seconds later the key is gone. -/
example : InOrder [(1000000000, .setEX b!"k" b!"v" 3600), (2000000000, .cronTick), (4000000001, .cronTick)] ∧
    Ticking 0 5 5000000006 [(1000000000, .setEX b!"k" b!"v" 3600), (2000000000, .cronTick), (4000000001, .cronTick)] ∧
    getOut (run Cache.new [(1000000000, .setEX b!"k" b!"v" 3600)]) 5000000006 b!"k" = .str (.ok b!"v") ∧
    getOut (run Cache.new [(1000000000, .setEX b!"k" b!"v" 3600), (2000000000, .cronTick), (4000000001, .cronTick)]) 5000000006 b!"k" = .str (.err .keyNil) := by
  refine ⟨by simp [InOrder], ?_, by decide +kernel, by decide +kernel⟩
  intro n hn
  simp only [cronPeriod] at hn ⊢
  have : n = 0 ∨ n = 1 := by omega
  rcases this with rfl | rfl
  · exact ⟨2000000000, by simp, by decide, by decide⟩
  · exact ⟨4000000001, by simp, by decide, by decide⟩

/-- C136, as far as it holds: until the first tick the sweep does nothing (there is none in the history), so that a key is kept until its deadline. -/
theorem C136_before_first_partial (c : Cache) (h : History) (k : Bytes) (t : Int) (hw : NoWrite k h) (hu : Until t h) :
    getOut (run c h) t k = getOut c t k := by
  have := liveVal_run_of_noWrite c t h k hw hu
  simp only [getOut, exec, get_snd, this]

end Verif

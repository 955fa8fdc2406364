import Verif.Conc.Machine
/-!
# The mutex is held by exactly the calls that took it
-/
namespace Verif.Conc
variable {S Op Out : Type}

structure Locks (P : Spec S Op Out) (g : Config S Op Out) : Prop where
  write : ∀ i op p, (g.thr i).cur = some (op, p) → P.mode op = .write → g.writer = some i ∧ g.readers = []
  read : ∀ i op p, (g.thr i).cur = some (op, p) → P.mode op = .read → g.writer = none ∧ i ∈ g.readers
  writer : ∀ i, g.writer = some i → ∃ op p, (g.thr i).cur = some (op, p) ∧ P.mode op = .write
  readers : ∀ i ∈ g.readers, ∃ op p, (g.thr i).cur = some (op, p) ∧ P.mode op = .read
  nodup : g.readers.Nodup

theorem cur_start {thr : Nat → Thread S Op Out} {i j : Nat} {t : Thread S Op Out} {a : Op} {p : Prog S Out}
    (h : (setThr thr i t j).cur = some (a, p)) : (j = i ∧ t.cur = some (a, p)) ∨ (j ≠ i ∧ (thr j).cur = some (a, p)) := by
  by_cases hj : j = i
  · subst hj; rw [setThr_same] at h; exact .inl ⟨rfl, h⟩
  · rw [setThr_ne _ _ hj] at h; exact .inr ⟨hj, h⟩

theorem locks_step {P : Spec S Op Out} {ov : Bool} {g g' : Config S Op Out} (st : Step P ov g g') (ih : Locks P g) : Locks P g' := by
  cases st with
  | tick s' hh => exact ⟨ih.write, ih.read, ih.writer, ih.readers, ih.nodup⟩
  | startW i op rest ht hm hw hr =>
    have idle : ∀ j a p, (g.thr j).cur = some (a, p) → P.mode a ≠ .write ∧ P.mode a ≠ .read := by
      intro j a p hj
      refine ⟨fun h => ?_, fun h => ?_⟩
      · have := (ih.write j a p hj h).1; rw [hw] at this; cases this
      · have := (ih.read j a p hj h).2; rw [hr] at this; cases this
    refine ⟨fun j a p hj hma => ?_, fun j a p hj hma => ?_, fun j hj => ?_, fun j hj => ?_, ih.nodup⟩
    · rcases cur_start hj with ⟨rfl, _⟩ | ⟨_, h⟩
      · exact ⟨rfl, hr⟩
      · exact absurd hma (idle j a p h).1
    · rcases cur_start hj with ⟨rfl, h⟩ | ⟨_, h⟩
      · cases h; rw [hm] at hma; cases hma
      · exact absurd hma (idle j a p h).2
    · cases hj; exact ⟨op, P.prog op, by simp, hm⟩
    · simp only [hr] at hj; cases hj
  | startR i op rest ht hm hw hr =>
    refine ⟨fun j a p hj hma => ?_, fun j a p hj hma => ?_, fun j hj => ?_, fun j hj => ?_, ?_⟩
    · rcases cur_start hj with ⟨rfl, h⟩ | ⟨_, h⟩
      · cases h; rw [hm] at hma; cases hma
      · have := (ih.write j a p h hma).1; rw [hw] at this; cases this
    · rcases cur_start hj with ⟨rfl, h⟩ | ⟨_, h⟩
      · exact ⟨hw, by simp⟩
      · exact ⟨hw, by simp [(ih.read j a p h hma).2]⟩
    · simp only [hw] at hj; cases hj
    · by_cases hji : j = i
      · subst hji; exact ⟨op, P.prog op, by simp, hm⟩
      · simp only [List.mem_cons, hji, false_or] at hj
        obtain ⟨a, p, h1, h2⟩ := ih.readers j hj
        exact ⟨a, p, by simp only; rw [setThr_ne _ _ hji]; exact h1, h2⟩
    · refine List.nodup_cons.2 ⟨fun h => ?_, ih.nodup⟩
      obtain ⟨a, p, h1, _⟩ := ih.readers i h
      rw [ht] at h1; cases h1
  | startN i op rest ht hm =>
    have keep : ∀ j a p, (g.thr j).cur = some (a, p) → ((setThr g.thr i ⟨rest, some (op, P.prog op)⟩) j).cur = some (a, p) := by
      intro j a p hj
      have : j ≠ i := by rintro rfl; rw [ht] at hj; cases hj
      rw [setThr_ne _ _ this]; exact hj
    refine ⟨fun j a p hj hma => ?_, fun j a p hj hma => ?_, fun j hj => ?_, fun j hj => ?_, ih.nodup⟩
    · rcases cur_start hj with ⟨rfl, h⟩ | ⟨_, h⟩
      · cases h; rw [hm] at hma; cases hma
      · exact ih.write j a p h hma
    · rcases cur_start hj with ⟨rfl, h⟩ | ⟨_, h⟩
      · cases h; rw [hm] at hma; cases hma
      · exact ih.read j a p h hma
    · obtain ⟨a, p, h1, h2⟩ := ih.writer j hj
      exact ⟨a, p, keep j a p h1, h2⟩
    · obtain ⟨a, p, h1, h2⟩ := ih.readers j hj
      exact ⟨a, p, keep j a p h1, h2⟩
  | act i op todo u q ht =>
    have hi : (g.thr i).cur = some (op, .act u q) := by rw [ht]
    have keep : ∀ j a p, (g.thr j).cur = some (a, p) →
        ∃ p', ((setThr g.thr i ⟨todo, some (op, q g.sh)⟩) j).cur = some (a, p') := by
      intro j a p hj
      by_cases hji : j = i
      · subst hji; rw [hi] at hj; cases hj; exact ⟨q g.sh, by simp⟩
      · exact ⟨p, by rw [setThr_ne _ _ hji]; exact hj⟩
    refine ⟨fun j a p hj hma => ?_, fun j a p hj hma => ?_, fun j hj => ?_, fun j hj => ?_, ih.nodup⟩
    · rcases cur_start hj with ⟨rfl, h⟩ | ⟨_, h⟩
      · cases h; exact ih.write j _ _ hi hma
      · exact ih.write j a p h hma
    · rcases cur_start hj with ⟨rfl, h⟩ | ⟨_, h⟩
      · cases h; exact ih.read j _ _ hi hma
      · exact ih.read j a p h hma
    · obtain ⟨a, p, h1, h2⟩ := ih.writer j hj
      obtain ⟨p', h3⟩ := keep j a p h1
      exact ⟨a, p', h3, h2⟩
    · obtain ⟨a, p, h1, h2⟩ := ih.readers j hj
      obtain ⟨p', h3⟩ := keep j a p h1
      exact ⟨a, p', h3, h2⟩
  | fin i op todo o ht =>
    have hi : (g.thr i).cur = some (op, .ret o) := by rw [ht]
    refine ⟨fun j a p hj hma => ?_, fun j a p hj hma => ?_, fun j hj => ?_, fun j hj => ?_, ?_⟩
    · rcases cur_start hj with ⟨rfl, h⟩ | ⟨hji, h⟩
      · cases h
      · obtain ⟨h1, h2⟩ := ih.write j a p h hma
        have hne : P.mode op ≠ .write := by
          intro h
          have := (ih.write i op _ hi h).1
          rw [h1] at this
          exact hji (by injection this)
        show unlockW (P.mode op) g.writer = some j ∧ unlockR (P.mode op) i g.readers = []
        simp [unlockW, unlockR, hne, h1, h2]
    · rcases cur_start hj with ⟨rfl, h⟩ | ⟨hji, h⟩
      · cases h
      · obtain ⟨h1, h2⟩ := ih.read j a p h hma
        show unlockW (P.mode op) g.writer = none ∧ j ∈ unlockR (P.mode op) i g.readers
        refine ⟨by simp [unlockW, h1], ?_⟩
        unfold unlockR
        split
        · exact (List.mem_erase_of_ne hji).2 h2
        · exact h2
    · have hj : unlockW (P.mode op) g.writer = some j := hj
      unfold unlockW at hj
      split at hj
      · cases hj
      · rename_i hne
        obtain ⟨a, p, h1, h2⟩ := ih.writer j hj
        have hji : j ≠ i := by rintro rfl; rw [hi] at h1; cases h1; exact hne h2
        exact ⟨a, p, by simp only; rw [setThr_ne _ _ hji]; exact h1, h2⟩
    · have hj : j ∈ unlockR (P.mode op) i g.readers := hj
      have hj' : j ∈ g.readers := by
        unfold unlockR at hj
        split at hj
        · exact List.mem_of_mem_erase hj
        · exact hj
      obtain ⟨a, p, h1, h2⟩ := ih.readers j hj'
      have hji : j ≠ i := by
        rintro rfl
        rw [hi] at h1
        cases h1
        unfold unlockR at hj
        rw [if_pos h2] at hj
        exact (List.Nodup.not_mem_erase ih.nodup) hj
      exact ⟨a, p, by simp only; rw [setThr_ne _ _ hji]; exact h1, h2⟩
    · show (unlockR (P.mode op) i g.readers).Nodup
      unfold unlockR
      split
      · exact ih.nodup.erase i
      · exact ih.nodup

theorem locks_steps {P : Spec S Op Out} {ov : Bool} {s : S} {calls : Nat → List Op} {g : Config S Op Out}
    (h : Steps P ov (initial s calls) g) : Locks P g := by
  induction h with
  | refl => exact ⟨by simp [initial], by simp [initial], by simp [initial], by simp [initial], by simp [initial]⟩
  | snoc _ st ih => exact locks_step st ih

end Verif.Conc

import Verif.Cache.Frame
/-!
# Congruence: a call's outcome depends only on the keys it names
-/
namespace Verif
open Cache

theorem load_congr {c d : Cache} {t : Int} {k : Bytes} (h : SameAt c d k) :
    (c.load t k).2 = (d.load t k).2 ∧ SameAt (c.load t k).1 (d.load t k).1 k := by
  refine ⟨by rw [load_snd, load_snd, liveVal_congr h], ?_⟩
  have hs : Stale c t k ↔ Stale d t k := by unfold Stale; rw [h.1, h.2]
  rcases stale_dec c t k with h1 | h1
  · rw [load_fst_of_stale h1, load_fst_of_stale (hs.1 h1)]; simp [SameAt]
  · rw [load_fst_of_not_stale h1, load_fst_of_not_stale (fun h2 => h1 (hs.2 h2))]; exact h

theorem sameAt_store_both {c d : Cache} {k j : Bytes} {v : Val} (h : SameAt c d k) :
    SameAt (c.store j v) (d.store j v) k := by
  by_cases hk : k = j
  · subst hk; exact ⟨by simp [store], h.2⟩
  · exact ⟨by simp [store, hk]; exact h.1, h.2⟩

theorem sameAt_store_both' {c d : Cache} {k : Bytes} {v w : Val} (h : SameAt c d k) (e : v = w) :
    SameAt (c.store k v) (d.store k w) k := e ▸ sameAt_store_both h

theorem sameAt_expires_both {c d : Cache} {t : Int} {k : Bytes} {n : Int64} (h : SameAt c d k) :
    SameAt (c.expires t k n) (d.expires t k n) k := by
  unfold expires
  split
  · exact ⟨h.1, by simp⟩
  · exact ⟨h.1, by simp⟩

theorem withHash_congr {α : Type} {c d : Cache} {t : Int} {k : Bytes}
    {f : HashEntry → HashEntry × Res α} (h : SameAt c d k) :
    (c.withHash t k f).2 = (d.withHash t k f).2 ∧ SameAt (c.withHash t k f).1 (d.withHash t k f).1 k := by
  rw [withHash_snd, withHash_snd, withHash_fst, withHash_fst, liveVal_congr h]
  refine ⟨rfl, ?_⟩
  split
  · exact sameAt_store_both (load_congr h).2
  · exact (load_congr h).2

theorem readHash_congr {α : Type} {c d : Cache} {t : Int} {k : Bytes}
    {f : Option HashEntry → Res α} (h : SameAt c d k) :
    (c.readHash t k f).2 = (d.readHash t k f).2 ∧ SameAt (c.readHash t k f).1 (d.readHash t k f).1 k := by
  rw [readHash_snd, readHash_snd, readHash_fst, readHash_fst, liveVal_congr h]
  exact ⟨rfl, (load_congr h).2⟩

theorem incrBy_congr {c d : Cache} {k : Bytes} {n : Int64} (h : SameAt c d k) :
    (c.incrBy k n).2 = (d.incrBy k n).2 ∧ SameAt (c.incrBy k n).1 (d.incrBy k n).1 k := by
  unfold incrBy
  rw [h.1]
  cases d.data k with
  | none => exact ⟨rfl, sameAt_store_both h⟩
  | some v =>
    cases v with
    | scalar s =>
      simp only
      cases incrScalar n s with
      | none => exact ⟨rfl, h⟩
      | some p => exact ⟨rfl, sameAt_store_both h⟩
    | _ => exact ⟨rfl, h⟩

theorem incrByFloat_congr {c d : Cache} {k : Bytes} {x : F64} (h : SameAt c d k) :
    (c.incrByFloat k x).2 = (d.incrByFloat k x).2 ∧
      SameAt (c.incrByFloat k x).1 (d.incrByFloat k x).1 k := by
  unfold incrByFloat
  rw [h.1]
  cases d.data k with
  | none => exact ⟨rfl, sameAt_store_both h⟩
  | some v =>
    cases v with
    | scalar s =>
      cases s with
      | float f => exact ⟨rfl, sameAt_store_both h⟩
      | int f => exact ⟨rfl, sameAt_store_both h⟩
      | _ => exact ⟨rfl, h⟩
    | _ => exact ⟨rfl, h⟩

/-- Same key, same state at that key: same outcome, same state at that key afterwards. -/
theorem exec_congr_one {c d : Cache} (t : Int) (op : Call) (k : Bytes) (hk : op.keys = some [k])
    (hm : ∀ kv, op ≠ .mSet kv) (hm2 : ∀ kv, op ≠ .mSetNX kv) (hm3 : ∀ ks, op ≠ .mGet ks)
    (hm4 : ∀ ks, op ≠ .exists_ ks)
    (h : SameAt c d k) : (exec c t op).2 = (exec d t op).2 ∧ SameAt (exec c t op).1 (exec d t op).1 k := by
  cases op with
  | flush => simp [Call.keys] at hk
  | cronTick => simp [Call.keys] at hk
  | mSet kv => exact absurd rfl (hm _)
  | mSetNX kv => exact absurd rfl (hm2 _)
  | mGet js => exact absurd rfl (hm3 _)
  | exists_ js => exact absurd rfl (hm4 _)
  | list j => exact ⟨rfl, h⟩
  | set j v => simp [Call.keys] at hk; subst hk; exact ⟨rfl, sameAt_store_both h⟩
  | setNX j v =>
    simp [Call.keys] at hk; subst hk
    simp only [exec, setNX, h.1]
    cases d.data j with
    | none => exact ⟨rfl, sameAt_store_both h⟩
    | some _ => exact ⟨rfl, h⟩
  | setEX j v s =>
    simp [Call.keys] at hk; subst hk
    exact ⟨rfl, sameAt_expires_both (sameAt_store_both h)⟩
  | pSetEX j v s =>
    simp [Call.keys] at hk; subst hk
    exact ⟨rfl, sameAt_expires_both (sameAt_store_both h)⟩
  | get j =>
    simp [Call.keys] at hk; subst hk
    simp only [exec, get_fst, get_snd, liveVal_congr h]
    exact ⟨trivial, (load_congr h).2⟩
  | getSet j v =>
    simp [Call.keys] at hk; subst hk
    have hl := load_congr (t := t) h
    simp only [exec]
    refine ⟨?_, by rw [getSet_fst, getSet_fst]; exact sameAt_store_both hl.2⟩
    unfold getSet
    revert hl
    generalize c.load t j = p; generalize d.load t j = q
    obtain ⟨c', o⟩ := p; obtain ⟨d', o'⟩ := q
    rintro ⟨h1, _⟩; simp only at h1; subst h1; cases o <;> rfl
  | strLen j =>
    simp [Call.keys] at hk; subst hk
    have hl := load_congr (t := t) h
    simp only [exec]
    refine ⟨?_, by rw [strLen_fst, strLen_fst]; exact hl.2⟩
    unfold strLen loadLive
    revert hl
    generalize c.load t j = p; generalize d.load t j = q
    obtain ⟨c', o⟩ := p; obtain ⟨d', o'⟩ := q
    rintro ⟨h1, _⟩; simp only at h1; subst h1; cases o <;> rfl
  | append j v =>
    simp [Call.keys] at hk; subst hk
    have hl := load_congr (t := t) h
    simp only [exec]
    unfold append loadLive
    revert hl
    generalize c.load t j = p; generalize d.load t j = q
    obtain ⟨c', o⟩ := p; obtain ⟨d', o'⟩ := q
    rintro ⟨h1, h2⟩; simp only at h1 h2; subst h1
    cases o with
    | none => exact ⟨rfl, sameAt_store_both h2⟩
    | some o =>
      simp only
      cases fmtString o with
      | ok s => exact ⟨rfl, sameAt_store_both h2⟩
      | _ => exact ⟨rfl, h2⟩
  | setRange j p r =>
    simp [Call.keys] at hk; subst hk
    have hl := load_congr (t := t) h
    simp only [exec]
    unfold setRange loadLive
    split
    · exact ⟨rfl, h⟩
    · revert hl
      generalize c.load t j = a; generalize d.load t j = q
      obtain ⟨c', o⟩ := a; obtain ⟨d', o'⟩ := q
      rintro ⟨h1, h2⟩; simp only at h1 h2; subst h1
      by_cases hm : maxAlloc < p.toInt <;> simp only [hm, if_true, if_false]
      · cases o with
        | none => exact ⟨rfl, h2⟩
        | some o => simp only; cases fmtString o <;> exact ⟨rfl, h2⟩
      cases o with
      | none => exact ⟨rfl, sameAt_store_both h2⟩
      | some o =>
        simp only
        cases fmtString o with
        | ok s => exact ⟨rfl, sameAt_store_both h2⟩
        | _ => exact ⟨rfl, h2⟩
  | getRange j a b =>
    simp [Call.keys] at hk; subst hk
    have hl := load_congr (t := t) h
    simp only [exec]
    refine ⟨?_, by rw [getRange_fst, getRange_fst]; exact hl.2⟩
    unfold getRange loadLive
    revert hl
    generalize c.load t j = p; generalize d.load t j = q
    obtain ⟨c', o⟩ := p; obtain ⟨d', o'⟩ := q
    rintro ⟨h1, _⟩; simp only at h1; subst h1; cases o <;> rfl
  | incr j =>
    simp [Call.keys] at hk; subst hk
    have := incrBy_congr (n := 1) h
    exact ⟨by simp only [exec, incr, this.1], this.2⟩
  | incrBy j n =>
    simp [Call.keys] at hk; subst hk
    have := incrBy_congr (n := n) h
    exact ⟨by simp only [exec, this.1], this.2⟩
  | incrByFloat j x =>
    simp [Call.keys] at hk; subst hk
    have := incrByFloat_congr (x := x) h
    exact ⟨by simp only [exec, this.1], this.2⟩
  | decr j =>
    simp [Call.keys] at hk; subst hk
    have := incrBy_congr (n := -1) h
    exact ⟨by simp only [exec, decr, this.1], this.2⟩
  | decrBy j n =>
    simp [Call.keys] at hk; subst hk
    have := incrBy_congr (n := -n) h
    exact ⟨by simp only [exec, decrBy, this.1], this.2⟩
  | del j =>
    simp [Call.keys] at hk; subst hk
    have hl := load_congr (t := t) h
    simp only [exec, del, hl.1]
    exact ⟨trivial, by simp [SameAt]⟩
  | type j =>
    simp [Call.keys] at hk; subst hk
    have hl := load_congr (t := t) h
    simp only [exec]
    refine ⟨?_, by rw [type_fst, type_fst]; exact hl.2⟩
    unfold Cache.type
    revert hl
    generalize c.load t j = p; generalize d.load t j = q
    obtain ⟨c', o⟩ := p; obtain ⟨d', o'⟩ := q
    rintro ⟨h1, _⟩; simp only at h1; subst h1; cases o <;> rfl
  | hExists j f =>
    simp [Call.keys] at hk; subst hk
    have hl := load_congr (t := t) h
    have e : (c.getHash t j).2 = (d.getHash t j).2 := by rw [getHash_snd, getHash_snd, liveVal_congr h]
    simp only [exec]
    refine ⟨?_, ?_⟩
    · unfold hExists
      revert e
      generalize c.getHash t j = p; generalize d.getHash t j = q
      obtain ⟨c', o⟩ := p; obtain ⟨d', o'⟩ := q
      intro h1; simp only at h1; subst h1
      rcases o with (_ | _) | _ | _ <;> rfl
    · rw [hExists_fst, hExists_fst, liveVal_congr h]
      split
      · exact sameAt_store_both hl.2
      · exact hl.2
  | hDel j fs =>
    simp [Call.keys] at hk; subst hk
    have hl := load_congr (t := t) h
    have e : (c.getHash t j).2 = (d.getHash t j).2 := by rw [getHash_snd, getHash_snd, liveVal_congr h]
    simp only [exec]
    refine ⟨?_, ?_⟩
    · unfold hDel
      revert e
      generalize c.getHash t j = p; generalize d.getHash t j = q
      obtain ⟨c', o⟩ := p; obtain ⟨d', o'⟩ := q
      intro h1; simp only at h1; subst h1
      rcases o with (_ | _) | _ | _ <;> rfl
    · rw [hDel_fst, hDel_fst, liveVal_congr h]
      split
      · exact sameAt_store_both hl.2
      · exact hl.2
  | hSet j f v =>
    simp [Call.keys] at hk; subst hk
    simp only [exec, hSet]
    exact ⟨by rw [(withHash_congr h).1], (withHash_congr h).2⟩
  | hSetNX j f v =>
    simp [Call.keys] at hk; subst hk
    simp only [exec, hSetNX]
    exact ⟨by rw [(withHash_congr h).1], (withHash_congr h).2⟩
  | hIncrBy j f n =>
    simp [Call.keys] at hk; subst hk
    simp only [exec, hIncrBy]
    exact ⟨by rw [(withHash_congr h).1], (withHash_congr h).2⟩
  | hIncrByFloat j f x =>
    simp [Call.keys] at hk; subst hk
    simp only [exec, hIncrByFloat]
    exact ⟨by rw [(withHash_congr h).1], (withHash_congr h).2⟩
  | hMSet j fv =>
    simp [Call.keys] at hk; subst hk
    simp only [exec, hMSet]
    exact ⟨by rw [(withHash_congr h).1], (withHash_congr h).2⟩
  | hLen j =>
    simp [Call.keys] at hk; subst hk
    simp only [exec, hLen]
    exact ⟨by rw [(readHash_congr h).1], (readHash_congr h).2⟩
  | hStrLen j f =>
    simp [Call.keys] at hk; subst hk
    simp only [exec, hStrLen]
    exact ⟨by rw [(readHash_congr h).1], (readHash_congr h).2⟩
  | hGet j f =>
    simp [Call.keys] at hk; subst hk
    simp only [exec, hGet]
    exact ⟨by rw [(readHash_congr h).1], (readHash_congr h).2⟩
  | hMGet j fs =>
    simp [Call.keys] at hk; subst hk
    simp only [exec, hMGet]
    exact ⟨by rw [(readHash_congr h).1], (readHash_congr h).2⟩
  | hKeys j =>
    simp [Call.keys] at hk; subst hk
    simp only [exec, hKeys]
    exact ⟨by rw [(readHash_congr h).1], (readHash_congr h).2⟩
  | hVals j =>
    simp [Call.keys] at hk; subst hk
    simp only [exec, hVals]
    exact ⟨by rw [(readHash_congr h).1], (readHash_congr h).2⟩
  | hGetAll j =>
    simp [Call.keys] at hk; subst hk
    simp only [exec, hGetAll]
    exact ⟨by rw [(readHash_congr h).1], (readHash_congr h).2⟩

theorem mSet_congr {c d : Cache} {P : Bytes → Prop} (h : ∀ k, P k → SameAt c d k)
    (kv : List (Bytes × Bytes)) : ∀ k, P k → SameAt (c.mSet kv).1 (d.mSet kv).1 k := by
  unfold mSet
  simp only
  induction kv generalizing c d with
  | nil => exact h
  | cons p kv ih =>
    rw [List.foldl_cons, List.foldl_cons]
    exact ih (fun k hk => sameAt_store_both (h k hk))

theorem mSetNXLoop_congr {c d : Cache} {P : Bytes → Prop} (h : ∀ k, P k → SameAt c d k)
    (kv : List (Bytes × Bytes)) (n : Int) (hp : ∀ p ∈ kv, P p.1) :
    (mSetNXLoop c kv n).2 = (mSetNXLoop d kv n).2 ∧
      ∀ k, P k → SameAt (mSetNXLoop c kv n).1 (mSetNXLoop d kv n).1 k := by
  induction kv generalizing c d n with
  | nil => exact ⟨rfl, h⟩
  | cons p kv ih =>
    obtain ⟨j, v⟩ := p
    have hj := h j (hp (j, v) (by simp))
    simp only [mSetNXLoop]
    rw [hj.1]
    cases d.data j with
    | none =>
      exact ih (fun k hk => sameAt_store_both (h k hk)) _ (fun p hp' => hp p (by simp [hp']))
    | some _ => exact ih h _ (fun p hp' => hp p (by simp [hp']))

theorem mGet_congr {c d : Cache} {P : Bytes → Prop} (t : Int) (h : ∀ k, P k → SameAt c d k)
    (ks : List Bytes) (hp : ∀ k ∈ ks, P k) :
    (c.mGet t ks).2 = (d.mGet t ks).2 ∧ ∀ k, P k → SameAt (c.mGet t ks).1 (d.mGet t ks).1 k := by
  induction ks generalizing c d with
  | nil => exact ⟨rfl, h⟩
  | cons j ks ih =>
    have hj := h j (hp j (by simp))
    have h' : ∀ k, P k → SameAt (c.get t j).1 (d.get t j).1 k := by
      intro k hk
      rw [get_fst, get_fst]
      by_cases e : k = j
      · subst e; exact (load_congr hj).2
      · exact ((load_other e).trans (h k hk)).trans (load_other e).symm
    have := ih h' (fun k hk => hp k (by simp [hk]))
    simp only [mGet]
    refine ⟨?_, this.2⟩
    rw [this.1, get_snd, get_snd, liveVal_congr hj]

/-- A call's outcome and its effect on a set of keys depend only on the state at these keys,
provided the set contains every key the call names. -/
theorem exec_congr {c d : Cache} {P : Bytes → Prop} (h : ∀ k, P k → SameAt c d k) (t : Int)
    (op : Call) (hk : ∀ ks, op.keys = some ks → ∀ k ∈ ks, P k) :
    (exec c t op).2 = (exec d t op).2 ∧ ∀ k, P k → SameAt (exec c t op).1 (exec d t op).1 k := by
  have one : ∀ j, op.keys = some [j] → (∀ kv, op ≠ .mSet kv) → (∀ kv, op ≠ .mSetNX kv) →
      (∀ kv, op ≠ .mGet kv) → (∀ ks, op ≠ .exists_ ks) →
      (exec c t op).2 = (exec d t op).2 ∧ ∀ k, P k → SameAt (exec c t op).1 (exec d t op).1 k := by
    intro j hj h1 h2 h3 h4
    have := exec_congr_one (c := c) (d := d) t op j hj h1 h2 h3 h4 (h j (hk _ hj j (by simp)))
    refine ⟨this.1, fun k hkP => ?_⟩
    by_cases e : k = j
    · subst e; exact this.2
    · exact ((exec_frame c t op _ k hj (by simp [e])).trans (h k hkP)).trans
        (exec_frame d t op _ k hj (by simp [e])).symm
  cases op with
  | flush => exact ⟨rfl, fun k _ => ⟨rfl, rfl⟩⟩
  | cronTick =>
    refine ⟨rfl, fun k hP => ?_⟩
    have := h k hP
    simp only [exec, cronTick]
    refine ⟨?_, ?_⟩ <;> simp only [this.1]
    · cases d.data k with
      | none => rfl
      | some v => cases v <;> simp [cronEntry] <;> (try split) <;> simp [this.1, *]
    · cases d.data k with
      | none => exact this.2
      | some v => cases v <;> simp [cronEntry] <;> (try split) <;> simp [this.2, *]
  | mSet kv => exact ⟨rfl, mSet_congr h kv⟩
  | mSetNX kv =>
    have := mSetNXLoop_congr h kv 0 (fun p hp => hk _ rfl p.1 (List.mem_map_of_mem hp))
    exact ⟨by simp only [exec, mSetNX, this.1], this.2⟩
  | mGet ks =>
    have := mGet_congr t h ks (fun k hk' => hk _ rfl k hk')
    exact ⟨by simp only [exec, this.1], this.2⟩
  | exists_ ks =>
    refine ⟨?_, h⟩
    have h' : ∀ k ∈ ks, c.data k = d.data k := fun k hk' => (h k (hk _ rfl k hk')).1
    simp only [exec, «exists»]
    congr 2
    clear hk one
    generalize (0 : Int) = n
    induction ks generalizing n with
    | nil => rfl
    | cons k ks ih =>
      rw [List.foldl_cons, List.foldl_cons, h' k (by simp)]
      exact ih (fun k hk => h' k (by simp [hk])) _
  | _ => exact one _ rfl (by simp) (by simp) (by simp) (by simp)

end Verif

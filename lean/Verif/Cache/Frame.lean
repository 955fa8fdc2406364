import Verif.Cache.Lemmas
/-!
# Frame lemmas: which keys a call can touch
-/
namespace Verif
open Cache

theorem SameAt.rfl' {c : Cache} {k : Bytes} : SameAt c c k := ⟨rfl, rfl⟩
theorem SameAt.trans {a b c : Cache} {k : Bytes} (h : SameAt a b k) (g : SameAt b c k) : SameAt a c k :=
  ⟨h.1.trans g.1, h.2.trans g.2⟩
theorem SameAt.symm {a b : Cache} {k : Bytes} (h : SameAt a b k) : SameAt b a k := ⟨h.1.symm, h.2.symm⟩

theorem sameAt_store {c : Cache} {k k' : Bytes} {v : Val} (h : k' ≠ k) : SameAt (c.store k v) c k' := by
  simp [SameAt, store, h]

theorem sameAt_expires {c : Cache} {t : Int} {k k' : Bytes} {d : Int64} (h : k' ≠ k) :
    SameAt (c.expires t k d) c k' := by
  unfold expires; split <;> simp [SameAt, h]

theorem strLen_fst (c : Cache) (t : Int) (k : Bytes) : (c.strLen t k).1 = (c.load t k).1 := by
  unfold strLen loadLive
  generalize c.load t k = p
  obtain ⟨c', o⟩ := p
  cases o <;> rfl

theorem getRange_fst (c : Cache) (t : Int) (k : Bytes) (a b : Int64) :
    (c.getRange t k a b).1 = (c.load t k).1 := by
  unfold getRange loadLive
  generalize c.load t k = p
  obtain ⟨c', o⟩ := p
  cases o <;> rfl

theorem type_fst (c : Cache) (t : Int) (k : Bytes) : (c.type t k).1 = (c.load t k).1 := by
  unfold Cache.type
  generalize c.load t k = p
  obtain ⟨c', o⟩ := p
  cases o <;> rfl

theorem getSet_fst (c : Cache) (t : Int) (k v : Bytes) :
    (c.getSet t k v).1 = (c.load t k).1.store k (.scalar (tryInt64 v)) := by
  unfold getSet
  generalize c.load t k = p
  obtain ⟨c', o⟩ := p
  cases o <;> rfl

theorem append_fst (c : Cache) (t : Int) (k v : Bytes) :
    (c.append t k v).1 = match liveVal c t k with
      | none => (c.load t k).1.store k (.scalar (tryInt64 v))
      | some o => match fmtString o with
        | .ok s => (c.load t k).1.store k (.scalar (tryInt64 (s ++ v)))
        | _ => (c.load t k).1 := by
  unfold append loadLive
  rw [← load_snd]
  generalize c.load t k = p
  obtain ⟨c', o⟩ := p
  cases o with
  | none => rfl
  | some o => simp only; cases fmtString o <;> rfl

theorem setRange_fst (c : Cache) (t : Int) (k : Bytes) (p : Int64) (r : Bytes) :
    (c.setRange t k p r).1 = if p.toInt < 0 then c else match liveVal c t k with
      | none => if maxAlloc < p.toInt then (c.load t k).1
        else (c.load t k).1.store k (.scalar (tryInt64 (List.replicate p.toInt.toNat 0 ++ r)))
      | some o => match fmtString o with
        | .ok s => if maxAlloc < p.toInt then (c.load t k).1
          else (c.load t k).1.store k (.scalar (tryInt64
            (writeLoop p.toInt.toNat r (padLoop (p.toInt.toNat - s.length) s))))
        | _ => (c.load t k).1 := by
  unfold setRange loadLive
  split
  · rfl
  · rw [← load_snd]
    generalize c.load t k = q
    obtain ⟨c', o⟩ := q
    cases o with
    | none => simp only; split <;> rfl
    | some o =>
      simp only
      cases fmtString o with
      | ok s => simp only; split <;> rfl
      | _ => rfl

theorem incrBy_fst_form (c : Cache) (k : Bytes) (n : Int64) :
    (c.incrBy k n).1 = c ∨ ∃ v, (c.incrBy k n).1 = c.store k (.scalar v) := by
  unfold incrBy
  split
  · exact .inr ⟨_, rfl⟩
  · split
    · exact .inr ⟨_, rfl⟩
    · exact .inl rfl
  · exact .inl rfl

theorem incrByFloat_fst_form (c : Cache) (k : Bytes) (x : F64) :
    (c.incrByFloat k x).1 = c ∨ ∃ v, (c.incrByFloat k x).1 = c.store k (.scalar v) := by
  unfold incrByFloat
  split
  · exact .inr ⟨_, rfl⟩
  · exact .inr ⟨_, rfl⟩
  · exact .inr ⟨_, rfl⟩
  · exact .inl rfl

theorem sameAt_incrBy {c : Cache} {k k' : Bytes} {n : Int64} (h : k' ≠ k) :
    SameAt (c.incrBy k n).1 c k' := by
  rcases incrBy_fst_form c k n with h' | ⟨v, h'⟩ <;> rw [h']
  · exact .rfl'
  · exact sameAt_store h

theorem sameAt_incrByFloat {c : Cache} {k k' : Bytes} {x : F64} (h : k' ≠ k) :
    SameAt (c.incrByFloat k x).1 c k' := by
  rcases incrByFloat_fst_form c k x with h' | ⟨v, h'⟩ <;> rw [h']
  · exact .rfl'
  · exact sameAt_store h

theorem sameAt_mSet (c : Cache) (kv : List (Bytes × Bytes)) (k : Bytes) (h : k ∉ kv.map (·.1)) :
    SameAt (c.mSet kv).1 c k := by
  unfold mSet
  simp only
  induction kv generalizing c with
  | nil => exact .rfl'
  | cons p kv ih =>
    simp at h
    rw [List.foldl_cons]
    exact (ih _ (by simpa using h.2)).trans (sameAt_store h.1)

theorem sameAt_mSetNXLoop (c : Cache) (kv : List (Bytes × Bytes)) (n : Int) (k : Bytes)
    (h : k ∉ kv.map (·.1)) : SameAt (mSetNXLoop c kv n).1 c k := by
  induction kv generalizing c n with
  | nil => exact .rfl'
  | cons p kv ih =>
    obtain ⟨j, v⟩ := p
    simp at h
    unfold mSetNXLoop
    split
    · exact ih _ _ (by simpa using h.2)
    · exact (ih _ _ (by simpa using h.2)).trans (sameAt_store h.1)

theorem sameAt_mGet (c : Cache) (t : Int) (ks : List Bytes) (k : Bytes) (h : k ∉ ks) :
    SameAt (c.mGet t ks).1 c k := by
  induction ks generalizing c with
  | nil => exact .rfl'
  | cons j ks ih =>
    simp at h
    rw [mGet_fst_cons]
    exact (ih _ h.2).trans (load_other h.1)

theorem sameAt_withHash {α : Type} {c : Cache} {t : Int} {k k' : Bytes}
    {f : HashEntry → HashEntry × Res α} (h : k' ≠ k) : SameAt (c.withHash t k f).1 c k' := by
  rw [withHash_fst]
  split
  · exact (sameAt_store h).trans (load_other h)
  · exact load_other h

theorem hExists_fst (c : Cache) (t : Int) (k f : Bytes) :
    (c.hExists t k f).1 = match asHash (liveVal c t k) with
      | .ok (some h) => (c.load t k).1.store k
          (.hash { h with length := h.length - (if (h.get f).isSome then 1 else 0) })
      | _ => (c.load t k).1 := by
  unfold hExists
  rw [← getHash_snd, ← getHash_fst]
  generalize c.getHash t k = p
  obtain ⟨c', o⟩ := p
  rcases o with (_ | _) | _ | _ <;> rfl

theorem hDel_fst (c : Cache) (t : Int) (k : Bytes) (fs : List Bytes) :
    (c.hDel t k fs).1 = match asHash (liveVal c t k) with
      | .ok (some h) => (c.load t k).1.store k
          (.hash { fields := (hDelLoop fs h.fields 0).1,
                   length := if (hDelLoop fs h.fields 0).2 ≠ 0 then h.length - (hDelLoop fs h.fields 0).2 else h.length })
      | _ => (c.load t k).1 := by
  unfold hDel
  rw [← getHash_snd, ← getHash_fst]
  generalize c.getHash t k = p
  obtain ⟨c', o⟩ := p
  rcases o with (_ | _) | _ | _ <;> rfl

theorem sameAt_del {c : Cache} {t : Int} {k k' : Bytes} (h : k' ≠ k) : SameAt (c.del t k).1 c k' := by
  have := load_other (c := c) (t := t) h
  unfold del
  simp only
  exact ⟨by simp [h]; exact this.1, by simp [h]; exact this.2⟩

/-- A call leaves every key it does not name exactly as it was. -/
theorem exec_frame (c : Cache) (t : Int) (op : Call) (ks : List Bytes) (k : Bytes)
    (hk : op.keys = some ks) (h : k ∉ ks) : SameAt (exec c t op).1 c k := by
  cases op with
  | flush => simp [Call.keys] at hk
  | cronTick => simp [Call.keys] at hk
  | mSet kv => simp [Call.keys] at hk; subst hk; exact sameAt_mSet c kv k h
  | mSetNX kv =>
    simp [Call.keys] at hk; subst hk
    exact sameAt_mSetNXLoop c kv 0 k h
  | mGet js => simp [Call.keys] at hk; subst hk; exact sameAt_mGet c t js k h
  | exists_ js => exact .rfl'
  | list j => exact .rfl'
  | set j v => simp [Call.keys] at hk; subst hk; simp at h; exact sameAt_store h
  | setNX j v =>
    simp [Call.keys] at hk; subst hk; simp at h
    simp only [exec, setNX]; split
    · exact .rfl'
    · exact sameAt_store h
  | setEX j v s =>
    simp [Call.keys] at hk; subst hk; simp at h
    exact (sameAt_expires h).trans (sameAt_store h)
  | pSetEX j v s =>
    simp [Call.keys] at hk; subst hk; simp at h
    exact (sameAt_expires h).trans (sameAt_store h)
  | get j =>
    simp [Call.keys] at hk; subst hk; simp at h
    simp only [exec, get_fst]; exact load_other h
  | getSet j v =>
    simp [Call.keys] at hk; subst hk; simp at h
    simp only [exec, getSet_fst]; exact (sameAt_store h).trans (load_other h)
  | strLen j =>
    simp [Call.keys] at hk; subst hk; simp at h
    simp only [exec, strLen_fst]; exact load_other h
  | append j v =>
    simp [Call.keys] at hk; subst hk; simp at h
    simp only [exec, append_fst]
    split
    · exact (sameAt_store h).trans (load_other h)
    · split
      · exact (sameAt_store h).trans (load_other h)
      · exact load_other h
  | setRange j p r =>
    simp [Call.keys] at hk; subst hk; simp at h
    simp only [exec, setRange_fst]
    split
    · exact .rfl'
    · split
      · split
        · exact load_other h
        · exact (sameAt_store h).trans (load_other h)
      · split
        · split
          · exact load_other h
          · exact (sameAt_store h).trans (load_other h)
        · exact load_other h
  | getRange j a b =>
    simp [Call.keys] at hk; subst hk; simp at h
    simp only [exec, getRange_fst]; exact load_other h
  | incr j => simp [Call.keys] at hk; subst hk; simp at h; exact sameAt_incrBy h
  | incrBy j n => simp [Call.keys] at hk; subst hk; simp at h; exact sameAt_incrBy h
  | incrByFloat j x => simp [Call.keys] at hk; subst hk; simp at h; exact sameAt_incrByFloat h
  | decr j => simp [Call.keys] at hk; subst hk; simp at h; exact sameAt_incrBy h
  | decrBy j n => simp [Call.keys] at hk; subst hk; simp at h; exact sameAt_incrBy h
  | del j => simp [Call.keys] at hk; subst hk; simp at h; exact sameAt_del h
  | type j =>
    simp [Call.keys] at hk; subst hk; simp at h
    simp only [exec, type_fst]; exact load_other h
  | hSet j f v =>
    simp [Call.keys] at hk; subst hk; simp at h
    simp only [exec, hSet]; exact sameAt_withHash h
  | hSetNX j f v =>
    simp [Call.keys] at hk; subst hk; simp at h
    simp only [exec, hSetNX]; exact sameAt_withHash h
  | hExists j f =>
    simp [Call.keys] at hk; subst hk; simp at h
    simp only [exec, hExists_fst]; split
    · exact (sameAt_store h).trans (load_other h)
    · exact load_other h
  | hDel j fs =>
    simp [Call.keys] at hk; subst hk; simp at h
    simp only [exec, hDel_fst]; split
    · exact (sameAt_store h).trans (load_other h)
    · exact load_other h
  | hLen j =>
    simp [Call.keys] at hk; subst hk; simp at h
    simp only [exec, hLen, readHash_fst]; exact load_other h
  | hStrLen j f =>
    simp [Call.keys] at hk; subst hk; simp at h
    simp only [exec, hStrLen, readHash_fst]; exact load_other h
  | hGet j f =>
    simp [Call.keys] at hk; subst hk; simp at h
    simp only [exec, hGet, readHash_fst]; exact load_other h
  | hIncrBy j f n =>
    simp [Call.keys] at hk; subst hk; simp at h
    simp only [exec, hIncrBy]; exact sameAt_withHash h
  | hIncrByFloat j f x =>
    simp [Call.keys] at hk; subst hk; simp at h
    simp only [exec, hIncrByFloat]; exact sameAt_withHash h
  | hMSet j fv =>
    simp [Call.keys] at hk; subst hk; simp at h
    simp only [exec, hMSet]; exact sameAt_withHash h
  | hMGet j fs =>
    simp [Call.keys] at hk; subst hk; simp at h
    simp only [exec, hMGet, readHash_fst]; exact load_other h
  | hKeys j =>
    simp [Call.keys] at hk; subst hk; simp at h
    simp only [exec, hKeys, readHash_fst]; exact load_other h
  | hVals j =>
    simp [Call.keys] at hk; subst hk; simp at h
    simp only [exec, hVals, readHash_fst]; exact load_other h
  | hGetAll j =>
    simp [Call.keys] at hk; subst hk; simp at h
    simp only [exec, hGetAll, readHash_fst]; exact load_other h

/-- A call that does not write `k` leaves what `k` shows from then on unchanged. -/
theorem liveVal_exec_of_not_writes (c : Cache) {s t : Int} (op : Call) (k : Bytes)
    (hw : op.writes k = false) (h : s ≤ t) : liveVal (exec c s op).1 t k = liveVal c t k := by
  have frame : ∀ ks, op.keys = some ks → k ∉ ks → liveVal (exec c s op).1 t k = liveVal c t k :=
    fun ks h1 h2 => liveVal_congr (exec_frame c s op ks k h1 h2) t
  cases op with
  | get j => simp only [exec, get_fst]; exact liveVal_load _ _ _ h
  | strLen j => simp only [exec, strLen_fst]; exact liveVal_load _ _ _ h
  | getRange j a b => simp only [exec, getRange_fst]; exact liveVal_load _ _ _ h
  | mGet js => exact liveVal_mGet _ _ _ h
  | exists_ js => rfl
  | list j => rfl
  | type j => simp only [exec, type_fst]; exact liveVal_load _ _ _ h
  | hLen j => simp only [exec, hLen, readHash_fst]; exact liveVal_load _ _ _ h
  | hStrLen j f => simp only [exec, hStrLen, readHash_fst]; exact liveVal_load _ _ _ h
  | hGet j f => simp only [exec, hGet, readHash_fst]; exact liveVal_load _ _ _ h
  | hMGet j f => simp only [exec, hMGet, readHash_fst]; exact liveVal_load _ _ _ h
  | hKeys j => simp only [exec, hKeys, readHash_fst]; exact liveVal_load _ _ _ h
  | hVals j => simp only [exec, hVals, readHash_fst]; exact liveVal_load _ _ _ h
  | hGetAll j => simp only [exec, hGetAll, readHash_fst]; exact liveVal_load _ _ _ h
  | flush => simp [Call.writes] at hw
  | cronTick => simp [Call.writes] at hw
  | mSet kv =>
    refine frame _ rfl ?_
    simp [Call.writes] at hw; simp; exact fun x hx => hw _ _ hx rfl
  | mSetNX kv =>
    refine frame _ rfl ?_
    simp [Call.writes] at hw; simp; exact fun x hx => hw _ _ hx rfl
  | _ =>
    refine frame _ rfl ?_
    simp [Call.writes] at hw
    simp; exact fun e => hw e.symm

/-- The same over a whole history. -/
theorem liveVal_run_of_noWrite (c : Cache) (t : Int) (h : History) (k : Bytes)
    (hw : NoWrite k h) (hu : Until t h) : liveVal (run c h) t k = liveVal c t k := by
  induction h generalizing c with
  | nil => rfl
  | cons p h ih =>
    obtain ⟨s, op⟩ := p
    simp only [run]
    rw [ih _ (fun p hp => hw p (by simp [hp])) (fun p hp => hu p (by simp [hp]))]
    exact liveVal_exec_of_not_writes c op k (hw (s, op) (by simp)) (hu (s, op) (by simp))

end Verif

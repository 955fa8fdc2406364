import Verif.Cache.Frame
/-!
# Invariant of all reachable states
-/
namespace Verif
open Cache

/-- Scalars that can be stored under a key: non-numeric text, integers, floats. -/
inductive GoodScalar : Scalar → Prop
  | str (s : Bytes) : NonNumeric s → GoodScalar (.str s)
  | int (n : Int64) : GoodScalar (.int n)
  | int64 (n : Int64) : GoodScalar (.int64 n)
  | float (f : F64) : GoodScalar (.float f)

/-- Kinds of values that can be stored in a hash field. -/
inductive GoodField : Scalar → Prop
  | str (s : Bytes) : GoodField (.str s)
  | int (n : Int64) : GoodField (.int n)
  | float (f : F64) : GoodField (.float f)

/-- A hash lists each field once. -/
structure GoodHash (h : HashEntry) : Prop where
  nodup : (h.fields.map (·.1)).Nodup
  kinds : ∀ p ∈ h.fields, GoodField p.2

inductive GoodVal : Val → Prop
  | scalar (s : Scalar) : GoodScalar s → GoodVal (.scalar s)
  | hash (h : HashEntry) : GoodHash h → GoodVal (.hash h)

/-- A deadline belongs to a stored key, and stored values are of the expected kinds. -/
structure Inv (c : Cache) : Prop where
  exp_data : ∀ k, c.data k = none → c.exp k = none
  good : ∀ k v, c.data k = some v → GoodVal v

theorem goodScalar_tryInt64 (v : Bytes) : GoodScalar (tryInt64 v) := by
  unfold tryInt64
  cases h : atoi v with
  | some n => exact .int n
  | none => cases h2 : parseFloat v with
    | some f => exact .float f
    | none => exact .str v ⟨h, h2⟩

theorem goodField_tryInt64 (v : Bytes) : GoodField (tryInt64 v) := by
  unfold tryInt64
  cases h : atoi v with
  | some n => exact .int n
  | none => cases h2 : parseFloat v with
    | some f => exact .float f
    | none => exact .str v

theorem Inv.new : Inv Cache.new := ⟨fun _ _ => rfl, fun _ _ h => by simp [Cache.new] at h⟩

theorem Inv.store {c : Cache} (h : Inv c) {k : Bytes} {v : Val} (hv : GoodVal v) :
    Inv (c.store k v) := by
  refine ⟨fun j hj => ?_, fun j w hj => ?_⟩
  · by_cases e : j = k
    · subst e; simp [Cache.store] at hj
    · simp [Cache.store, e] at hj; exact h.exp_data j hj
  · by_cases e : j = k
    · subst e; simp [Cache.store] at hj; subst hj; exact hv
    · simp [Cache.store, e] at hj; exact h.good j w hj

theorem Inv.erase {c : Cache} (h : Inv c) (k : Bytes) :
    Inv { data := upd c.data k none, exp := upd c.exp k none } := by
  refine ⟨fun j hj => ?_, fun j w hj => ?_⟩
  · by_cases e : j = k
    · subst e; simp
    · simp [e] at hj ⊢; exact h.exp_data j hj
  · by_cases e : j = k
    · subst e; simp at hj
    · simp [e] at hj; exact h.good j w hj

theorem Inv.load {c : Cache} (h : Inv c) (t : Int) (k : Bytes) : Inv (c.load t k).1 := by
  rcases stale_dec c t k with hs | hs
  · rw [load_fst_of_stale hs]; exact h.erase k
  · rw [load_fst_of_not_stale hs]; exact h

theorem Inv.storeExpires {c : Cache} (h : Inv c) (t : Int) (k : Bytes) {v : Val} (n : Int64)
    (hv : GoodVal v) : Inv ((c.store k v).expires t k n) := by
  have := h.store (k := k) hv
  unfold expires
  split <;>
  · refine ⟨fun j hj => ?_, this.good⟩
    by_cases e : j = k
    · subst e; simp [Cache.store] at hj
    · simp only [upd_other _ _ _ _ e]; exact this.exp_data j hj

theorem Inv.incrBy {c : Cache} (h : Inv c) (k : Bytes) (n : Int64) : Inv (c.incrBy k n).1 := by
  unfold Cache.incrBy
  cases hd : c.data k with
  | none => exact h.store (.scalar _ (.int64 _))
  | some v =>
    cases h.good k v hd with
    | hash _ => exact h
    | scalar s hs =>
      cases hs with
      | str s _ => simp only [incrScalar]; exact h
      | int m => simp only [incrScalar]; exact h.store (.scalar _ (.int _))
      | int64 m => simp only [incrScalar]; exact h.store (.scalar _ (.int64 _))
      | float f => simp only [incrScalar]; exact h

theorem Inv.incrByFloat {c : Cache} (h : Inv c) (k : Bytes) (x : F64) : Inv (c.incrByFloat k x).1 := by
  unfold Cache.incrByFloat
  split
  · exact h.store (.scalar _ (.float _))
  · exact h.store (.scalar _ (.float _))
  · exact h.store (.scalar _ (.float _))
  · exact h

/-! Association-list facts. -/

theorem hfind_eq_none {fs : List (Bytes × Scalar)} {f : Bytes} :
    hfind fs f = none ↔ f ∉ fs.map (·.1) := by
  induction fs with
  | nil => simp [hfind]
  | cons p fs ih =>
    obtain ⟨g, v⟩ := p
    by_cases e : g = f
    · simp [hfind, e]
    · simp only [hfind, if_neg e, ih, List.map_cons, List.mem_cons]
      constructor
      · rintro h (rfl | h')
        · exact e rfl
        · exact h h'
      · exact fun h h' => h (.inr h')

theorem hfind_mem {fs : List (Bytes × Scalar)} {f : Bytes} {v : Scalar} (h : hfind fs f = some v) :
    (f, v) ∈ fs := by
  induction fs with
  | nil => simp [hfind] at h
  | cons p fs ih =>
    obtain ⟨g, w⟩ := p
    by_cases e : g = f
    · simp [hfind, e] at h; subst h; simp [e]
    · simp [hfind, e] at h; simp [ih h]

theorem hfind_hput (fs : List (Bytes × Scalar)) (f g : Bytes) (v : Scalar) :
    hfind (hput fs f v) g = if g = f then some v else hfind fs g := by
  induction fs with
  | nil =>
    by_cases e : g = f
    · subst e; simp [hput, hfind]
    · simp [hput, hfind, e, show ¬ (f = g) from fun e' => e e'.symm]
  | cons p fs ih =>
    obtain ⟨j, w⟩ := p
    by_cases e : j = f
    · subst e
      by_cases e2 : g = j
      · subst e2; simp [hput, hfind]
      · simp [hput, hfind, e2, show ¬ (j = g) from fun e' => e2 e'.symm]
    · by_cases e2 : g = f
      · subst e2
        simp [hput, hfind, e, ih]
      · simp only [hput, if_neg e, hfind, ih, if_neg e2]

theorem hput_keys (fs : List (Bytes × Scalar)) (f : Bytes) (v : Scalar) :
    (hput fs f v).map (·.1) = if f ∈ fs.map (·.1) then fs.map (·.1) else fs.map (·.1) ++ [f] := by
  induction fs with
  | nil => simp [hput]
  | cons p fs ih =>
    obtain ⟨g, w⟩ := p
    by_cases e : g = f
    · simp [hput, e]
    · simp only [hput, if_neg e, List.map_cons, ih, List.mem_cons]
      have e' : f ≠ g := fun h => e h.symm
      split <;> simp_all

theorem hput_mem {fs : List (Bytes × Scalar)} {f : Bytes} {v : Scalar} {p : Bytes × Scalar}
    (h : p ∈ hput fs f v) : p.2 = v ∨ p ∈ fs := by
  induction fs with
  | nil => simp [hput] at h; simp [h]
  | cons q fs ih =>
    obtain ⟨g, w⟩ := q
    by_cases e : g = f
    · simp [hput, e] at h; rcases h with h | h <;> simp [h]
    · simp [hput, e] at h
      rcases h with h | h
      · simp [h]
      · rcases ih h with h | h <;> simp [h]

theorem hdelete_sublist (fs : List (Bytes × Scalar)) (f : Bytes) : (hdelete fs f).Sublist fs := by
  induction fs with
  | nil => simp [hdelete]
  | cons p fs ih =>
    obtain ⟨g, w⟩ := p
    by_cases e : g = f
    · simp [hdelete, e]
    · simp [hdelete, e, ih]

theorem hfind_hdelete {fs : List (Bytes × Scalar)} (hn : (fs.map (·.1)).Nodup) (f g : Bytes) :
    hfind (hdelete fs f) g = if g = f then none else hfind fs g := by
  induction fs with
  | nil => simp [hdelete, hfind]
  | cons p fs ih =>
    obtain ⟨j, w⟩ := p
    simp at hn
    by_cases e : j = f
    · subst e
      by_cases e2 : g = j
      · subst e2; simp [hdelete]; rw [hfind_eq_none]; simpa using hn.1
      · simp [hdelete, hfind, e2, show ¬ (j = g) from fun e' => e2 e'.symm]
    · have := ih hn.2
      simp only [hdelete, if_neg e, hfind, this]
      by_cases e2 : g = f
      · subst e2; simp [e]
      · simp [e2]

theorem GoodHash.empty : GoodHash HashEntry.empty := ⟨by simp [HashEntry.empty], by simp [HashEntry.empty]⟩

theorem GoodHash.put {h : HashEntry} (hg : GoodHash h) {v : Scalar} (hv : GoodField v) (f : Bytes) (n : Int) :
    GoodHash { fields := hput h.fields f v, length := n } := by
  refine ⟨?_, fun p hp => ?_⟩
  · simp only [hput_keys]
    split
    · exact hg.nodup
    · rename_i hf
      rw [List.nodup_append]
      refine ⟨hg.nodup, by simp, ?_⟩
      intro a ha b hb; simp at hb; subst hb; rintro rfl; exact hf ha
  · rcases hput_mem hp with h | h
    · rw [h]; exact hv
    · exact hg.kinds p h

theorem GoodHash.set {h : HashEntry} (hg : GoodHash h) (f v : Bytes) : GoodHash (h.set f v).1 :=
  hg.put (goodField_tryInt64 v) f _

theorem GoodHash.withLength {h : HashEntry} (hg : GoodHash h) (n : Int) :
    GoodHash { h with length := n } := ⟨hg.nodup, hg.kinds⟩

theorem GoodHash.sub {h : HashEntry} (hg : GoodHash h) {fs : List (Bytes × Scalar)} {n : Int}
    (hs : fs.Sublist h.fields) : GoodHash { fields := fs, length := n } :=
  ⟨hg.nodup.sublist (hs.map _), fun p hp => hg.kinds p (hs.subset hp)⟩

theorem hDelLoop_sublist (ks : List Bytes) (fs : List (Bytes × Scalar)) (n : Int) :
    (hDelLoop ks fs n).1.Sublist fs := by
  induction ks generalizing fs n with
  | nil => exact List.Sublist.refl _
  | cons f ks ih =>
    simp only [hDelLoop]
    split
    · exact (ih _ _).trans (hdelete_sublist fs f)
    · exact ih _ _

theorem GoodHash.mset {h : HashEntry} (hg : GoodHash h) (fv : List (Bytes × Bytes)) (n : Int) :
    GoodHash (hMSetLoop fv h n).1 := by
  induction fv generalizing h n with
  | nil => exact hg
  | cons p fv ih => obtain ⟨f, v⟩ := p; exact ih (hg.set f v) _

theorem Inv.asHash {c : Cache} (h : Inv c) {t : Int} {k : Bytes} {o : Option HashEntry}
    (ho : asHash (liveVal c t k) = .ok o) : GoodHash (o.getD HashEntry.empty) := by
  cases hl : liveVal c t k with
  | none => rw [hl] at ho; simp [Verif.asHash] at ho; subst ho; exact .empty
  | some v =>
    rw [hl] at ho
    cases v with
    | scalar s => simp [Verif.asHash] at ho
    | time s => simp [Verif.asHash] at ho
    | hash e =>
      simp [Verif.asHash] at ho; subst ho
      have hd : c.data k = some (.hash e) := by
        unfold liveVal at hl
        cases hd : c.data k with
        | none => simp [hd] at hl
        | some v =>
          simp only [hd] at hl
          split at hl
          · exact hl
          · split at hl
            · cases hl
            · exact hl
      cases h.good k _ hd with
      | hash _ hg => exact hg

theorem Inv.withHash {α : Type} {c : Cache} (h : Inv c) (t : Int) (k : Bytes)
    (f : HashEntry → HashEntry × Res α) (hf : ∀ e, GoodHash e → GoodHash (f e).1) :
    Inv (c.withHash t k f).1 := by
  rw [withHash_fst]
  split
  · rename_i o ho
    exact (h.load t k).store (.hash _ (hf _ (h.asHash ho)))
  · exact h.load t k

theorem Inv.exec {c : Cache} (h : Inv c) (t : Int) (op : Call) : Inv (exec c t op).1 := by
  cases op with
  | set k v => exact h.store (.scalar _ (goodScalar_tryInt64 v))
  | setNX k v =>
    simp only [Verif.exec, setNX]
    split
    · exact h
    · exact h.store (.scalar _ (goodScalar_tryInt64 v))
  | setEX k v n => exact h.storeExpires t k _ (.scalar _ (goodScalar_tryInt64 v))
  | pSetEX k v n => exact h.storeExpires t k _ (.scalar _ (goodScalar_tryInt64 v))
  | get j => simp only [Verif.exec, get_fst]; exact h.load t j
  | getSet j v =>
    simp only [Verif.exec, getSet_fst]; exact (h.load t j).store (.scalar _ (goodScalar_tryInt64 v))
  | strLen j => simp only [Verif.exec, strLen_fst]; exact h.load t j
  | append j v =>
    simp only [Verif.exec, append_fst]
    split <;> (try split) <;>
      first | exact (h.load t j).store (.scalar _ (goodScalar_tryInt64 _)) | exact h.load t j
  | setRange j p r =>
    simp only [Verif.exec, setRange_fst]
    split
    · exact h
    · split <;> (try split) <;> (try split) <;>
        first | exact (h.load t j).store (.scalar _ (goodScalar_tryInt64 _)) | exact h.load t j
  | getRange j a b => simp only [Verif.exec, getRange_fst]; exact h.load t j
  | incr j => exact h.incrBy j 1
  | incrBy j n => exact h.incrBy j n
  | incrByFloat j x => exact h.incrByFloat j x
  | decr j => exact h.incrBy j (-1)
  | decrBy j n => exact h.incrBy j (-n)
  | mSet kv =>
    simp only [Verif.exec, mSet]
    induction kv generalizing c with
    | nil => exact h
    | cons p kv ih =>
      rw [List.foldl_cons]; exact ih (h.store (.scalar _ (goodScalar_tryInt64 _)))
  | mSetNX kv =>
    simp only [Verif.exec, mSetNX]
    generalize (0 : Int) = n
    induction kv generalizing c n with
    | nil => exact h
    | cons p kv ih =>
      obtain ⟨j, v⟩ := p
      simp only [mSetNXLoop]
      split
      · exact ih h _
      · exact ih (h.store (.scalar _ (goodScalar_tryInt64 _))) _
  | mGet ks =>
    simp only [Verif.exec]
    induction ks generalizing c with
    | nil => exact h
    | cons j ks ih => rw [mGet_fst_cons]; exact ih (h.load t j)
  | exists_ ks => exact h
  | list j => exact h
  | del j => simp only [Verif.exec, del]; exact (h.load t j).erase j
  | flush => exact .new
  | type j => simp only [Verif.exec, type_fst]; exact h.load t j
  | hSet j f v => simp only [Verif.exec, hSet]; exact h.withHash t j _ (fun e he => he.set f v)
  | hSetNX j f v =>
    simp only [Verif.exec, hSetNX]
    refine h.withHash t j _ (fun e he => ?_)
    split
    · exact he
    · exact he.put (.str v) f _
  | hIncrBy j f n =>
    simp only [Verif.exec, hIncrBy]
    refine h.withHash t j _ (fun e he => ?_)
    split
    · exact he.set _ _
    · split
      · exact he.set _ _
      · exact he
  | hIncrByFloat j f x =>
    simp only [Verif.exec, hIncrByFloat]
    refine h.withHash t j _ (fun e he => ?_)
    split
    · exact he.set _ _
    · split
      · exact he.set _ _
      · exact he
  | hMSet j fv =>
    simp only [Verif.exec, hMSet]
    exact h.withHash t j _ (fun e he => he.mset fv 0)
  | hExists j f =>
    simp only [Verif.exec, hExists_fst]
    split
    · rename_i e he
      exact (h.load t j).store (.hash _ ((h.asHash he).withLength _))
    · exact h.load t j
  | hDel j fs =>
    simp only [Verif.exec, hDel_fst]
    split
    · rename_i e he
      exact (h.load t j).store (.hash _ ((h.asHash he).sub (hDelLoop_sublist _ _ _)))
    · exact h.load t j
  | hLen j => simp only [Verif.exec, hLen, readHash_fst]; exact h.load t j
  | hStrLen j f => simp only [Verif.exec, hStrLen, readHash_fst]; exact h.load t j
  | hGet j f => simp only [Verif.exec, hGet, readHash_fst]; exact h.load t j
  | hMGet j fs => simp only [Verif.exec, hMGet, readHash_fst]; exact h.load t j
  | hKeys j => simp only [Verif.exec, hKeys, readHash_fst]; exact h.load t j
  | hVals j => simp only [Verif.exec, hVals, readHash_fst]; exact h.load t j
  | hGetAll j => simp only [Verif.exec, hGetAll, readHash_fst]; exact h.load t j
  | cronTick =>
    refine ⟨fun j hj => ?_, fun j v hj => ?_⟩
    · simp only [Verif.exec, cronTick] at hj ⊢
      cases hd : c.data j with
      | none => simp only; exact h.exp_data j hd
      | some v =>
        simp only [hd] at hj ⊢
        simp only [cronEntry] at hj ⊢
        cases v <;> simp at hj ⊢ <;> split <;> simp_all
    · simp only [Verif.exec, cronTick] at hj
      cases hd : c.data j with
      | none => simp [hd] at hj
      | some w =>
        have hw := h.good j w hd
        simp only [hd, cronEntry] at hj
        cases w <;> simp at hj <;> split at hj <;> simp_all

theorem Inv.run {c : Cache} (h : Inv c) (hist : History) : Inv (run c hist) := by
  induction hist generalizing c with
  | nil => exact h
  | cons p hist ih => obtain ⟨t, op⟩ := p; exact ih (h.exec t op)

/-- Every reachable state satisfies the invariant. -/
theorem Reachable.inv {c : Cache} (h : Reachable c) : Inv c := by
  obtain ⟨hist, rfl⟩ := h; exact Inv.new.run hist

end Verif

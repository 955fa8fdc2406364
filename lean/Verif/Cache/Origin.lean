import Verif.Cache.Inv
/-!
# Where stored values come from

What one call can put under a key, in terms of its arguments and of what was there before.
-/
namespace Verif
open Cache

/-- The call assigns the value `w` to key `k`. -/
inductive Gives : Call → Bytes → Bytes → Prop
  | set (k w) : Gives (.set k w) k w
  | setNX (k w) : Gives (.setNX k w) k w
  | setEX (k w n) : Gives (.setEX k w n) k w
  | pSetEX (k w n) : Gives (.pSetEX k w n) k w
  | getSet (k w) : Gives (.getSet k w) k w
  | mSet (kv k w) : (k, w) ∈ kv → Gives (.mSet kv) k w
  | mSetNX (kv k w) : (k, w) ∈ kv → Gives (.mSetNX kv) k w

/-- The call computes a new string or number for key `k`. -/
inductive Edits : Call → Bytes → Prop
  | append (k v) : Edits (.append k v) k
  | setRange (k p r) : Edits (.setRange k p r) k
  | incr (k) : Edits (.incr k) k
  | incrBy (k n) : Edits (.incrBy k n) k
  | decr (k) : Edits (.decr k) k
  | decrBy (k n) : Edits (.decrBy k n) k
  | incrByFloat (k x) : Edits (.incrByFloat k x) k

/-- The call gives the text `w` for field `f` of the hash `k`. -/
inductive GivesField : Call → Bytes → Bytes → Bytes → Prop
  | hSet (k f w) : GivesField (.hSet k f w) k f w
  | hSetNX (k f w) : GivesField (.hSetNX k f w) k f w
  | hMSet (k fv f w) : (f, w) ∈ fv → GivesField (.hMSet k fv) k f w
  | hIncrBy (k f n) : GivesField (.hIncrBy k f n) k f (itoa n)
  | hIncrByFloat (k f x) : GivesField (.hIncrByFloat k f x) k f (formatFloat x)

/-- The call may create the hash `k`. -/
inductive MakesHash : Call → Bytes → Prop
  | hSet (k f w) : MakesHash (.hSet k f w) k
  | hSetNX (k f w) : MakesHash (.hSetNX k f w) k
  | hMSet (k fv) : MakesHash (.hMSet k fv) k
  | hIncrBy (k f n) : MakesHash (.hIncrBy k f n) k
  | hIncrByFloat (k f x) : MakesHash (.hIncrByFloat k f x) k

/-- The fields of `e'` are fields of `e` or given by the call. -/
def FieldsFrom (op : Call) (k : Bytes) (e e' : HashEntry) : Prop :=
  ∀ p ∈ e'.fields, p ∈ e.fields ∨ ∃ w, GivesField op k p.1 w ∧ (p.2 = tryInt64 w ∨ p.2 = .str w)

/-- What the call may put under `k`, where `old` was. -/
inductive Puts (op : Call) (k : Bytes) (old : Option Val) : Val → Prop
  | old (v) : old = some v → Puts op k old v
  | assign (w) : Gives op k w → Puts op k old (.scalar (tryInt64 w))
  | edit (s) : Edits op k → Puts op k old (.scalar s)
  | hash (e e') : old = some (.hash e) → FieldsFrom op k e e' → Puts op k old (.hash e')
  | newHash (e') : MakesHash op k → FieldsFrom op k .empty e' → Puts op k old (.hash e')

variable {c : Cache} {t : Int} {op : Call} {j k : Bytes} {v : Val}

theorem load_data (h : (c.load t j).1.data k = some v) : c.data k = some v := by
  by_cases e : k = j
  · subst e
    rcases stale_dec c t k with h1 | h1
    · rw [load_fst_of_stale h1] at h; simp at h
    · rwa [load_fst_of_not_stale h1] at h
  · rwa [(load_other e).1] at h

theorem puts_load (h : (c.load t j).1.data k = some v) : Puts op k (c.data k) v := .old v (load_data h)

theorem puts_store {d : Cache} {w : Val} (hd : ∀ v, d.data k = some v → c.data k = some v)
    (h : (d.store j w).data k = some v) (hw : k = j → Puts op k (c.data k) w) : Puts op k (c.data k) v := by
  by_cases e : k = j
  · subst e; simp [store] at h; subst h; exact hw rfl
  · simp [store, e] at h; exact .old v (hd v h)

theorem liveVal_data (h : liveVal c t k = some v) : c.data k = some v := by
  rw [← load_snd] at h
  unfold load at h
  cases hd : c.data k with
  | none => simp [hd] at h
  | some w =>
    simp only [hd] at h
    split at h
    · simp at h
    · simpa using h

theorem asHash_some {e : HashEntry} (h : asHash (liveVal c t k) = .ok (some e)) : c.data k = some (.hash e) := by
  cases hl : liveVal c t k with
  | none => rw [hl] at h; simp [asHash] at h
  | some v =>
    rw [hl] at h
    cases v with
    | hash e' => simp [asHash] at h; subst h; exact liveVal_data hl
    | scalar s => simp [asHash] at h
    | time s => simp [asHash] at h

theorem puts_withHash {α : Type} {f : HashEntry → HashEntry × Res α} (hm : MakesHash op j)
    (hf : ∀ e, FieldsFrom op j e (f e).1) (h : (c.withHash t j f).1.data k = some v) :
    Puts op k (c.data k) v := by
  rw [withHash_fst] at h
  split at h
  · rename_i o ho
    refine puts_store (fun v => load_data) h (fun e => ?_)
    subst e
    cases o with
    | none => exact .newHash _ hm (hf _)
    | some e => exact .hash e _ (asHash_some ho) (hf e)
  · exact puts_load h

theorem FieldsFrom.refl (op : Call) (k : Bytes) (e : HashEntry) : FieldsFrom op k e e := fun _ hp => .inl hp

theorem hput_mem' {fs : List (Bytes × Scalar)} {f : Bytes} {v : Scalar} {p : Bytes × Scalar}
    (h : p ∈ hput fs f v) : p = (f, v) ∨ p ∈ fs := by
  induction fs with
  | nil => simp [hput] at h; simp [h]
  | cons q fs ih =>
    obtain ⟨g, w⟩ := q
    by_cases e : g = f
    · simp [hput, e] at h; rcases h with h | h <;> simp [h]
    · simp [hput, e] at h
      rcases h with h | h
      · simp [h]
      · rcases ih h with h | h <;> simp [h]

theorem FieldsFrom.set {f w : Bytes} (h : GivesField op k f w) (e : HashEntry) :
    FieldsFrom op k e (e.set f w).1 := by
  intro p hp
  rcases hput_mem' hp with rfl | hp
  · exact .inr ⟨w, h, .inl rfl⟩
  · exact .inl hp

theorem FieldsFrom.trans {e1 e2 e3 : HashEntry} (h1 : FieldsFrom op k e1 e2) (h2 : FieldsFrom op k e2 e3) :
    FieldsFrom op k e1 e3 := by
  intro p hp
  rcases h2 p hp with h | h
  · exact h1 p h
  · exact .inr h

theorem FieldsFrom.mset (fv : List (Bytes × Bytes)) (hg : ∀ p ∈ fv, GivesField op k p.1 p.2) (e : HashEntry) (n : Int) :
    FieldsFrom op k e (hMSetLoop fv e n).1 := by
  induction fv generalizing e n with
  | nil => exact .refl _ _ _
  | cons p fv ih =>
    obtain ⟨f, w⟩ := p
    exact (FieldsFrom.set (hg (f, w) (by simp)) e).trans (ih (fun p hp => hg p (by simp [hp])) _ _)

theorem puts_mSet (kv : List (Bytes × Bytes)) (hop : ∀ p ∈ kv, Gives op p.1 p.2) {old : Option Val}
    (d : Cache) (hd : ∀ v, d.data k = some v → Puts op k old v)
    (h : (kv.foldl (fun c p => c.store p.1 (.scalar (tryInt64 p.2))) d).data k = some v) : Puts op k old v := by
  induction kv generalizing d with
  | nil => exact hd v h
  | cons p kv ih =>
    refine ih (fun p hp => hop p (by simp [hp])) _ (fun w hw => ?_) h
    by_cases e : k = p.1
    · subst e; simp [store] at hw; subst hw; exact .assign _ (hop p (by simp))
    · simp [store, e] at hw; exact hd w hw

theorem puts_mSetNX (kv : List (Bytes × Bytes)) (hop : ∀ p ∈ kv, Gives op p.1 p.2) {old : Option Val}
    (d : Cache) (n : Int) (hd : ∀ v, d.data k = some v → Puts op k old v)
    (h : (mSetNXLoop d kv n).1.data k = some v) : Puts op k old v := by
  induction kv generalizing d n with
  | nil => exact hd v h
  | cons p kv ih =>
    obtain ⟨j, w⟩ := p
    simp only [mSetNXLoop] at h
    split at h
    · exact ih (fun p hp => hop p (by simp [hp])) _ _ hd h
    · refine ih (fun p hp => hop p (by simp [hp])) _ _ (fun w hw => ?_) h
      by_cases e : k = j
      · subst e; simp [store] at hw; subst hw; exact .assign _ (hop (k, _) (by simp))
      · simp [store, e] at hw; exact hd w hw

theorem puts_incrBy {n : Int64} (ho : Edits op j) (h : (c.incrBy j n).1.data k = some v) :
    Puts op k (c.data k) v := by
  rcases incrBy_fst_form c j n with h' | ⟨w, h'⟩ <;> rw [h'] at h
  · exact .old v h
  · exact puts_store (fun _ h => h) h (fun e => e ▸ .edit w ho)

/-- Every value found under a key after a call was there before, or the call put it there. -/
theorem exec_puts (c : Cache) (t : Int) (op : Call) (k : Bytes) (v : Val)
    (h : (exec c t op).1.data k = some v) : Puts op k (c.data k) v := by
  have idv : ∀ v, c.data k = some v → c.data k = some v := fun _ h => h
  have ldv : ∀ j v, (c.load t j).1.data k = some v → c.data k = some v := fun _ _ h => load_data h
  cases op with
  | set j w => exact puts_store idv h (fun e => by subst e; exact .assign w (.set _ w))
  | setNX j w =>
    simp only [exec, setNX] at h
    split at h
    · exact .old v h
    · exact puts_store idv h (fun e => by subst e; exact .assign w (.setNX _ w))
  | setEX j w n =>
    have h' : (c.store j (.scalar (tryInt64 w))).data k = some v := by
      simp only [exec, setEX, expires] at h; split at h <;> exact h
    exact puts_store idv h' (fun e => by subst e; exact .assign w (.setEX _ w n))
  | pSetEX j w n =>
    have h' : (c.store j (.scalar (tryInt64 w))).data k = some v := by
      simp only [exec, pSetEX, expires] at h; split at h <;> exact h
    exact puts_store idv h' (fun e => by subst e; exact .assign w (.pSetEX _ w n))
  | get j => simp only [exec, get_fst] at h; exact puts_load h
  | getSet j w =>
    simp only [exec, getSet_fst] at h
    exact puts_store (ldv j) h (fun e => by subst e; exact .assign w (.getSet _ w))
  | strLen j => simp only [exec, strLen_fst] at h; exact puts_load h
  | append j w =>
    simp only [exec, append_fst] at h
    split at h
    · exact puts_store (ldv j) h (fun e => by subst e; exact .edit _ (.append _ w))
    · split at h
      · exact puts_store (ldv j) h (fun e => by subst e; exact .edit _ (.append _ w))
      · exact puts_load h
  | setRange j p r =>
    simp only [exec, setRange_fst] at h
    split at h
    · exact .old v h
    · split at h
      · split at h
        · exact puts_load h
        · exact puts_store (ldv j) h (fun e => by subst e; exact .edit _ (.setRange _ p r))
      · split at h
        · split at h
          · exact puts_load h
          · exact puts_store (ldv j) h (fun e => by subst e; exact .edit _ (.setRange _ p r))
        · exact puts_load h
  | getRange j a b => simp only [exec, getRange_fst] at h; exact puts_load h
  | incr j => exact puts_incrBy (.incr j) h
  | incrBy j n => exact puts_incrBy (.incrBy j n) h
  | decr j => exact puts_incrBy (.decr j) h
  | decrBy j n => exact puts_incrBy (.decrBy j n) h
  | incrByFloat j x =>
    simp only [exec] at h
    rcases incrByFloat_fst_form c j x with h' | ⟨w, h'⟩ <;> rw [h'] at h
    · exact .old v h
    · exact puts_store idv h (fun e => by subst e; exact .edit w (.incrByFloat _ x))
  | mSet kv => exact puts_mSet kv (fun p hp => .mSet kv p.1 p.2 hp) c (fun v h => .old v h) h
  | mSetNX kv => exact puts_mSetNX kv (fun p hp => .mSetNX kv p.1 p.2 hp) c 0 (fun v h => .old v h) h
  | mGet ks =>
    simp only [exec] at h
    refine .old v ?_
    induction ks generalizing c with
    | nil => exact h
    | cons j ks ih =>
      rw [mGet_fst_cons] at h
      exact load_data (ih (c.load t j).1 (fun _ h => h) (fun _ _ h => load_data h) h)
  | del j =>
    by_cases e : k = j
    · subst e; simp [exec, del] at h
    · simp [exec, del, e] at h; exact puts_load h
  | flush => simp [exec, flush, Cache.new] at h
  | exists_ ks => exact .old v h
  | list j => exact .old v h
  | type j => simp only [exec, type_fst] at h; exact puts_load h
  | hSet j f w =>
    simp only [exec, hSet] at h
    exact puts_withHash (.hSet j f w) (fun e => .set (.hSet j f w) e) h
  | hSetNX j f w =>
    simp only [exec, hSetNX] at h
    refine puts_withHash (.hSetNX j f w) (fun e => ?_) h
    split
    · exact .refl _ _ _
    · intro p hp
      rcases hput_mem' hp with rfl | hp
      · exact .inr ⟨w, .hSetNX j f w, .inr rfl⟩
      · exact .inl hp
  | hExists j f =>
    simp only [exec, hExists_fst] at h
    split at h
    · rename_i e he
      exact puts_store (ldv j) h (fun ej => by subst ej; exact .hash e _ (asHash_some he) (fun p hp => .inl hp))
    · exact puts_load h
  | hDel j fs =>
    simp only [exec, hDel_fst] at h
    split at h
    · rename_i e he
      exact puts_store (ldv j) h (fun ej => by
        subst ej; exact .hash e _ (asHash_some he) (fun p hp => .inl ((hDelLoop_sublist _ _ _).subset hp)))
    · exact puts_load h
  | hIncrBy j f n =>
    simp only [exec, hIncrBy] at h
    refine puts_withHash (.hIncrBy j f n) (fun e => ?_) h
    split
    · exact .set (.hIncrBy j f n) e
    · split
      · exact .set (.hIncrBy j f n) e
      · exact .refl _ _ _
  | hIncrByFloat j f x =>
    simp only [exec, hIncrByFloat] at h
    refine puts_withHash (.hIncrByFloat j f x) (fun e => ?_) h
    split
    · exact .set (.hIncrByFloat j f x) e
    · split
      · exact .set (.hIncrByFloat j f x) e
      · exact .refl _ _ _
  | hMSet j fv =>
    simp only [exec, hMSet] at h
    exact puts_withHash (.hMSet j fv) (fun e => .mset fv (fun p hp => .hMSet j fv p.1 p.2 hp) e 0) h
  | hLen j => simp only [exec, hLen, readHash_fst] at h; exact puts_load h
  | hStrLen j f => simp only [exec, hStrLen, readHash_fst] at h; exact puts_load h
  | hGet j f => simp only [exec, hGet, readHash_fst] at h; exact puts_load h
  | hMGet j fs => simp only [exec, hMGet, readHash_fst] at h; exact puts_load h
  | hKeys j => simp only [exec, hKeys, readHash_fst] at h; exact puts_load h
  | hVals j => simp only [exec, hVals, readHash_fst] at h; exact puts_load h
  | hGetAll j => simp only [exec, hGetAll, readHash_fst] at h; exact puts_load h
  | cronTick =>
    refine .old v ?_
    simp only [exec, cronTick] at h
    cases hd : c.data k with
    | none => simp [hd] at h
    | some w =>
      simp only [hd, cronEntry] at h
      cases w <;> simp at h <;> split at h <;> simp_all

end Verif

import Verif.PropsFloat
/-!
# Exactly where the cache properties hold

For each property of the cache that is false in general: the exact condition under which it holds,
or the exact answer in all cases.
-/
namespace Verif
open Cache

/-- C01, exactly: the bytes come back if and only if they are their own canonical text and the
deadline of the key has not passed. -/
theorem C01_exact (c : Cache) (k v : Bytes) (s t : Int) (h : History) (hw : NoWrite k h) (hu : Until t h) :
    getOut (run (exec c s (.set k v)).1 h) t k = .str (.ok v) ↔ canon v = v ∧ NotPassed c t k := by
  constructor
  · intro hg
    have hp : NotPassed c t k := by
      intro d hd
      false_or_by_contra
      have e := C07_set_keeps_deadline c k v s t d h hd hw hu
      rw [if_neg (by assumption)] at e
      cases hg.symm.trans e
    refine ⟨?_, hp⟩
    have e := hg.symm.trans (C02_get_set_canon c k v s t h hp hw hu)
    injection e with e; injection e with e; exact e.symm
  · rintro ⟨hv, hp⟩
    exact (C02_get_set_canon c k v s t h hp hw hu).trans (by rw [hv])

example : canon b!"hello" = b!"hello" ∧ canon b!"1.50" ≠ b!"1.50" ∧ canon b!"1.5" = b!"1.5" := by decide +kernel

/-- C02, exactly: the text `u` that Get shows is stored and shown again unless it is "-0". -/
theorem C02_exact (c : Cache) (k v u : Bytes) (s1 s2 t : Int) (hd : NotPassed c t k) (hd2 : NotPassed c s2 k)
    (hu : getOut (exec c s1 (.set k v)).1 s2 k = .str (.ok u)) :
    getOut (exec (exec c s1 (.set k v)).1 s2 (.set k u)).1 t k = .str (.ok u) ↔ u ≠ b!"-0" := by
  constructor
  · rintro hg rfl
    have h2 := C02_get_set_canon (exec c s1 (.set k v)).1 k b!"-0" s2 t [] hd (by simp [NoWrite]) (by simp [Until])
    simp only [run] at h2
    have hg := hg.symm.trans h2
    have : canon b!"-0" ≠ b!"-0" := by decide +kernel
    injection hg with hg; injection hg with hg
    exact this hg.symm
  · intro h0; exact C02_canon_stable_partial c k v u s1 s2 t hd hd2 h0 hu

/-- The deadline of a value written at `s` with a duration of `d` nanoseconds. -/
theorem getOut_expires (c : Cache) (k v : Bytes) (d : Int64) (s t : Int) (h : History) (c' : Cache)
    (hc : c' = (c.store k (.scalar (tryInt64 v))).expires s k d) (hw : NoWrite k h) (hu : Until t h) :
    getOut (run c' h) t k = if d.toInt ≤ 0 ∨ t ≤ s + d.toInt then .str (.ok (canon v)) else .str (.err .keyNil) := by
  subst hc
  rw [getOut_eq, liveVal_run_of_noWrite _ _ _ _ hw hu]
  unfold Cache.expires liveVal
  by_cases h0 : d.toInt ≤ 0
  · simp [h0, Cache.store, showVal, fmtString, fmtScalar_tryInt64]
  · by_cases h1 : t ≤ s + d.toInt
    · rw [if_pos (Or.inr h1)]
      simp [h0, Cache.store, show ¬ s + d.toInt < t by omega, showVal, fmtString, fmtScalar_tryInt64]
    · rw [if_neg (by omega)]
      simp [h0, Cache.store, show s + d.toInt < t by omega, showVal]

/-- C05 and C06, exactly, for every TTL: with `d` the number of nanoseconds reduced to 64 bits, the
value is readable for ever if `d ≤ 0` and until `s + d` otherwise. -/
theorem C05_exact (c : Cache) (k v : Bytes) (n : Int64) (s t : Int) (h : History) (hw : NoWrite k h) (hu : Until t h) :
    (getOut (run (exec c s (.setEX k v n)).1 h) t k =
      let d := Int.bmod (1000000000 * n.toInt) (2 ^ 64)
      if d ≤ 0 ∨ t ≤ s + d then .str (.ok (canon v)) else .str (.err .keyNil)) ∧
    (getOut (run (exec c s (.pSetEX k v n)).1 h) t k =
      let d := Int.bmod (1000000 * n.toInt) (2 ^ 64)
      if d ≤ 0 ∨ t ≤ s + d then .str (.ok (canon v)) else .str (.err .keyNil)) := by
  have e1 : (1000000000 * n : Int64).toInt = Int.bmod (1000000000 * n.toInt) (2 ^ 64) := by
    rw [Int64.toInt_mul, show Int64.toInt 1000000000 = 1000000000 by decide]
  have e2 : (1000000 * n : Int64).toInt = Int.bmod (1000000 * n.toInt) (2 ^ 64) := by
    rw [Int64.toInt_mul, show Int64.toInt 1000000 = 1000000 by decide]
  rw [← e1, ← e2]
  exact ⟨getOut_expires c k v _ s t h _ rfl hw hu, getOut_expires c k v _ s t h _ rfl hw hu⟩

/-- C05, the exact range: for a positive TTL the value is readable precisely until `s + n` seconds,
at all times, if and only if the nanoseconds fit in 63 bits. -/
theorem C05_exact_range (c : Cache) (k v : Bytes) (n : Int64) (s : Int) (hn : 0 < n.toInt) :
    (∀ t, s ≤ t → (getOut (exec c s (.setEX k v n)).1 t k = .str (.ok (canon v)) ↔ t ≤ s + 1000000000 * n.toInt)) ↔
      1000000000 * n.toInt < 2 ^ 63 := by
  have key := fun t => (C05_exact c k v n s t [] (by simp [NoWrite]) (by simp [Until])).1
  simp only [run] at key
  constructor
  · intro H
    false_or_by_contra
    rename_i hge
    have hlt : Int.bmod (1000000000 * n.toInt) (2 ^ 64) < 2 ^ 63 := by
      have := Int.bmod_lt (x := 1000000000 * n.toInt) (m := 2 ^ 64) (by decide)
      omega
    generalize hd : Int.bmod (1000000000 * n.toInt) (2 ^ 64) = d at key hlt
    by_cases h0 : d ≤ 0
    · have := (H (s + 1000000000 * n.toInt + 1) (by omega)).1 (by rw [key]; simp [h0])
      omega
    · have := (H (s + d + 1) (by omega)).2 (by omega)
      rw [key] at this
      rw [if_neg (by omega)] at this
      cases this
  · intro hfit t ht
    have e : Int.bmod (1000000000 * n.toInt) (2 ^ 64) = 1000000000 * n.toInt :=
      Int.bmod_eq_of_le (by omega) (by omega)
    rw [key, e]
    by_cases h1 : t ≤ s + 1000000000 * n.toInt
    · simp [h1]
    · rw [if_neg (by omega)]; simp [h1]

example : 0 < (86400 : Int64).toInt ∧ 1000000000 * (86400 : Int64).toInt < 2 ^ 63 ∧
    ¬ 1000000000 * (9223372037 : Int64).toInt < 2 ^ 63 := by decide

/-- C06, exactly: a TTL that is not positive leaves the value readable for ever if and only if its
nanoseconds, reduced to 64 bits, are not positive. -/
theorem C06_exact (c : Cache) (k v : Bytes) (n : Int64) (s : Int) :
    (∀ t, s ≤ t → getOut (exec c s (.setEX k v n)).1 t k = .str (.ok (canon v))) ↔
      Int.bmod (1000000000 * n.toInt) (2 ^ 64) ≤ 0 := by
  have key := fun t => (C05_exact c k v n s t [] (by simp [NoWrite]) (by simp [Until])).1
  simp only [run] at key
  generalize hd : Int.bmod (1000000000 * n.toInt) (2 ^ 64) = d at key
  constructor
  · intro H
    false_or_by_contra
    have := H (s + d + 1) (by omega)
    rw [key] at this
    rw [if_neg (by omega)] at this
    cases this
  · intro h0 t _
    rw [key]; simp [h0]

/-- C07, exactly: the value set is readable for ever if and only if the key carried no deadline. -/
theorem C07_exact (c : Cache) (k v : Bytes) (s : Int) :
    (∀ t, s ≤ t → getOut (exec c s (.set k v)).1 t k = .str (.ok (canon v))) ↔ c.exp k = none := by
  constructor
  · intro H
    cases hd : c.exp k with
    | none => rfl
    | some d =>
      have h1 := H (max s (d + 1)) (by omega)
      have h2 := C07_set_keeps_deadline c k v s (max s (d + 1)) d [] hd (by simp [NoWrite]) (by simp [Until])
      simp only [run] at h2
      rw [if_neg (by omega)] at h2
      cases h1.symm.trans h2
  · intro hd t _
    exact C07_set_persistent_partial c k v s t [] hd (by simp [NoWrite]) (by simp [Until])

/-- C08, exactly: where Get would report nil, SetNX stores if and only if the key is really absent,
and not merely expired. -/
theorem C08_exact (c : Cache) (k v : Bytes) (t : Int) (hg : getOut c t k = .str (.err .keyNil)) :
    ((exec c t (.setNX k v)).2 = .int (.ok 1) ↔ ¬ Stale c t k) ∧
    (Stale c t k → (exec c t (.setNX k v)).2 = .int (.ok 0) ∧ (exec c t (.setNX k v)).1 = c) := by
  rw [getOut_eq] at hg
  have hn : liveVal c t k = none := by
    apply showVal_ne_nil_iff.1
    injection hg
  have hst : Stale c t k → (exec c t (.setNX k v)).2 = .int (.ok 0) ∧ (exec c t (.setNX k v)).1 = c := by
    rintro ⟨h1, _⟩
    cases hd : c.data k with
    | none => exact absurd hd h1
    | some w => simp only [exec, setNX, hd]; exact ⟨by decide, trivial⟩
  refine ⟨⟨fun h hs => ?_, fun hs => ?_⟩, hst⟩
  · rw [(hst hs).1] at h; revert h; decide
  · have hd : c.data k = none := by rw [← liveVal_of_not_stale hs, hn]
    simp only [exec, setNX, hd]; decide

/-- C09, exactly: whenever GetSet reports a wrong type, the hash has been replaced by the text. -/
theorem C09_exact (c : Cache) (k v : Bytes) (s t : Int) (h : History)
    (he : (exec c s (.getSet k v)).2 = .str (.err .wrongType)) (hd : NotPassed c t k)
    (hw : NoWrite k h) (hu : Until t h) :
    getOut c s k = .str (.err .wrongType) ∧ getOut (run (exec c s (.getSet k v)).1 h) t k = .str (.ok (canon v)) :=
  ⟨by rw [← C09_getSet_returns_old c k v, he], C09_getSet_stores c k v s t h (.inl hd) hw hu⟩

theorem exists_one (c : Cache) (t : Int) (k : Bytes) :
    outs c [(t, .exists_ [k])] = [.int (.ok (if (c.data k).isSome then 1 else 0))] := by
  simp only [outs, exec, Cache.exists, List.foldl_cons, List.foldl_nil]
  split <;> rfl

/-- The read calls that sweep the keys they name. -/
def Call.sweeps : Call → Bool
  | .exists_ _ => false
  | op => op.reads

theorem mGet_data_stale {c : Cache} {t : Int} {ks : List Bytes} {k : Bytes} (hk : k ∈ ks) (hs : Stale c t k) :
    (c.mGet t ks).1.data k = none := by
  induction ks generalizing c with
  | nil => cases hk
  | cons j ks ih =>
    rw [mGet_fst_cons]
    by_cases hj : k = j
    · subst hj
      rw [load_fst_of_stale hs]
      have : ∀ (ks : List Bytes) (d : Cache), d.data k = none → (d.mGet t ks).1.data k = none := by
        intro ks
        induction ks with
        | nil => exact fun d h => h
        | cons j ks ih =>
          intro d hd
          rw [mGet_fst_cons]
          apply ih
          rcases stale_dec d t j with hs | hs
          · rw [load_fst_of_stale hs]; by_cases e : k = j
            · subst e; simp
            · simp [e, hd]
          · rw [load_fst_of_not_stale hs]; exact hd
      exact this ks _ (by simp)
    · have hm : k ∈ ks := by
        rcases List.mem_cons.1 hk with h | h
        · exact absurd h hj
        · exact h
      apply ih hm
      obtain ⟨h1, d, h2, h3⟩ := hs
      have := load_other (c := c) (t := t) hj
      exact ⟨by rw [this.1]; exact h1, d, by rw [this.2]; exact h2, h3⟩

/-- C10, exactly: a read call that sweeps is invisible to all later calls if and only if none of the
keys it names is expired and unswept. -/
theorem C10_exact (c : Cache) (t : Int) (op : Call) (ks : List Bytes) (hr : op.sweeps = true)
    (hks : op.keys = some ks) :
    (∀ h, outs (exec c t op).1 h = outs c h) ↔ ∀ k ∈ ks, ¬ Stale c t k := by
  have hreads : op.reads = true := by cases op <;> simp_all [Call.sweeps, Call.reads]
  constructor
  · intro H k hk hs
    have h1 := H [(t, .exists_ [k])]
    rw [exists_one, exists_one] at h1
    have hd : (exec c t op).1.data k = none := by
      cases op with
      | mGet l =>
        simp only [Call.keys, Option.some.injEq] at hks; subst hks
        exact mGet_data_stale hk hs
      | exists_ l => cases hr
      | get j => simp only [Call.keys, Option.some.injEq] at hks; subst hks; simp only [List.mem_singleton] at hk
                 subst hk; simp only [exec, get_fst, load_fst_of_stale hs]; simp
      | strLen j => simp only [Call.keys, Option.some.injEq] at hks; subst hks; simp only [List.mem_singleton] at hk
                    subst hk; simp only [exec, strLen_fst, load_fst_of_stale hs]; simp
      | getRange j a b => simp only [Call.keys, Option.some.injEq] at hks; subst hks; simp only [List.mem_singleton] at hk
                          subst hk; simp only [exec, getRange_fst, load_fst_of_stale hs]; simp
      | type j => simp only [Call.keys, Option.some.injEq] at hks; subst hks; simp only [List.mem_singleton] at hk
                  subst hk; simp only [exec, type_fst, load_fst_of_stale hs]; simp
      | hLen j | hStrLen j f | hGet j f | hMGet j f | hKeys j | hVals j | hGetAll j =>
        simp only [Call.keys, Option.some.injEq] at hks; subst hks; simp only [List.mem_singleton] at hk
        subst hk
        simp only [exec, hLen, hStrLen, hGet, hMGet, hKeys, hVals, hGetAll, readHash_fst, load_fst_of_stale hs]; simp
      | _ => cases hr
    have hsome : (c.data k).isSome = true := by
      cases hc : c.data k with
      | none => exact absurd hc hs.1
      | some v => rfl
    rw [hd, hsome] at h1
    revert h1; decide
  · intro hs h
    exact C10_reads_not_observable_partial c t op hreads
      (fun ks' e => by rw [hks] at e; injection e with e; subst e; exact hs) h

example : (Call.hGet b!"k" b!"f").sweeps = true ∧ (Call.hGet b!"k" b!"f").keys = some [b!"k"] := by decide

/-- C12, exactly: Get shows old text and suffix if and only if that text is its own canonical text,
as long as the deadline has not passed. -/
theorem C12_exact (c : Cache) (k x s : Bytes) (t0 t : Int) (h : History) (hs : textAt c t0 k = .ok s)
    (hd : NotPassed c t k ∨ Stale c t0 k) (hw : NoWrite k h) (hu : Until t h) :
    getOut (run (exec c t0 (.append k x)).1 h) t k = .str (.ok (s ++ x)) ↔ canon (s ++ x) = s ++ x := by
  rw [(C12_append_canon c k x s t0 t h hs hd hw hu).2]
  simp

/-- C13, exactly. -/
theorem C13_exact (c : Cache) (k r s new : Bytes) (pos : Int64) (t0 t : Int) (h : History)
    (hp : 0 ≤ pos.toInt) (hm : pos.toInt ≤ maxAlloc) (hs : textAt c t0 k = .ok s) (hd : NotPassed c t k ∨ Stale c t0 k)
    (hn : IsOverwrite s pos.toInt.toNat r new) (hw : NoWrite k h) (hu : Until t h) :
    getOut (run (exec c t0 (.setRange k pos r)).1 h) t k = .str (.ok new) ↔ canon new = new := by
  obtain ⟨new', h1, h2, h3⟩ := C13_setRange_canon c k r s pos t0 t h hp hm hs hd hw hu
  have := h1.unique hn
  subst this
  rw [h3]; simp

/-- C15, exactly: on an integer the answer of a counter call is the sum reduced to 64 bits, and Get
then shows it. -/
theorem C15_exact (c : Cache) (k : Bytes) (old n : Int64) (op : Call) (s t : Int) (h : History)
    (hop : Adds k op n) (hold : HoldsInt c k old) (hd : NotPassed c t k) (hw : NoWrite k h) (hu : Until t h) :
    (exec c s op).2 = .int (.ok (Int.bmod (old.toInt + n.toInt) (2 ^ 64))) ∧
    getOut (run (exec c s op).1 h) t k = .str (.ok (itoaInt (Int.bmod (old.toInt + n.toInt) (2 ^ 64)))) ∧
    ((exec c s op).2 = .int (.ok (old.toInt + n.toInt)) ↔
      -(2 ^ 63) ≤ old.toInt + n.toInt ∧ old.toInt + n.toInt < 2 ^ 63) := by
  have hsum : (old + n).toInt = Int.bmod (old.toInt + n.toInt) (2 ^ 64) := Int64.toInt_add old n
  obtain ⟨h1, h2, h3⟩ := incrBy_holds (m := n) hold
  rw [exec_adds hop]
  refine ⟨by simp [h1, GoRes.map, GoRes.bind, hsum], ?_, ?_⟩
  · rw [getOut_eq, liveVal_run_of_noWrite _ _ _ _ hw hu, ← getOut_eq,
      get_holds h2 (by intro d hd'; rw [h3] at hd'; exact hd d hd')]
    simp only [itoa, hsum]
  · simp only [h1, GoRes.map, GoRes.bind, Out.int.injEq, GoRes.ok.injEq]
    constructor
    · intro e; rw [← e]; exact ⟨(old + n).le_toInt, (old + n).toInt_lt⟩
    · rintro ⟨a, b⟩; rw [hsum, Int.bmod_eq_of_le (by omega) (by omega)]

/-- C18, exactly: on an expired, unswept integer a counter call answers `old + n` (64 bits) instead
of `n`, so it is right if and only if the dead value is 0; and the answer is lost at once. -/
theorem C18_exact (c : Cache) (k : Bytes) (old n : Int64) (op : Call) (t t' : Int)
    (hop : Adds k op n) (hold : HoldsInt c k old) (hs : Stale c t k) (htt : t ≤ t') :
    ((exec c t op).2 = .int (.ok n.toInt) ↔ old = 0) ∧
    getOut (exec c t op).1 t' k = .str (.err .keyNil) := by
  obtain ⟨h1, h2, h3⟩ := incrBy_holds (m := n) hold
  rw [exec_adds hop]
  constructor
  · simp only [h1, GoRes.map, GoRes.bind, Out.int.injEq, GoRes.ok.injEq]
    constructor
    · intro e
      have e := Int64.toInt_inj.1 e
      have : old + n = 0 + n := by rw [e, Int64.zero_add]
      exact (Int64.add_left_inj n).1 this
    · rintro rfl; rw [Int64.zero_add]
  · obtain ⟨_, d, hd, hlt⟩ := hs
    rw [getOut_eq]
    have : liveVal (c.incrBy k n).1 t' k = none := by
      unfold liveVal
      rcases h2 with h2 | h2 <;> rw [h2] <;> simp only [h3, hd] <;> rw [if_pos (by omega)]
    simp only [this]; rfl

example : HoldsInt (run Cache.new [(0, .pSetEX b!"k" b!"41" 1)]) b!"k" 41 ∧
    Stale (run Cache.new [(0, .pSetEX b!"k" b!"41" 1)]) 2000000 b!"k" :=
  ⟨.inl (by decide +kernel), by decide +kernel, 1000000, by decide +kernel, by decide⟩

/-- C19, exactly, in every reachable state: IncrByFloat refuses text, counters made by Incr or Decr,
and hashes; otherwise it answers the float64 sum. -/
theorem C19_exact (c : Cache) (hc : Reachable c) (k : Bytes) (x : F64) (t : Int) :
    (exec c t (.incrByFloat k x)).2 = match c.data k with
      | none => .float (.ok x)
      | some (.scalar (.float v)) => .float (.ok (v.add x))
      | some (.scalar (.int n)) => .float (.ok ((F64.ofInt n.toInt).add x))
      | some _ => .float (.err .wrongType) := by
  have := hc.inv.good k
  simp only [exec, incrByFloat]
  split <;> simp_all

/-- C21, exactly: MSetNX on a Go map stores all pairs or none if and only if all of its keys are
absent or all are stored (expired keys count as stored). -/
theorem C21_exact (c : Cache) (kv : List (Bytes × Bytes)) (t : Int) (hm : IsMap kv) :
    ((∀ p ∈ kv, SameAt (exec c t (.mSetNX kv)).1 (exec c t (.set p.1 p.2)).1 p.1) ∨ (exec c t (.mSetNX kv)).1 = c) ↔
      ((∀ p ∈ kv, c.data p.1 = none ∨ c.data p.1 = some (.scalar (tryInt64 p.2))) ∨ ∀ p ∈ kv, c.data p.1 ≠ none) := by
  obtain ⟨h1, h2, h3, h4⟩ := C21_mSetNX_partial c kv t hm
  constructor
  · rintro (H | H)
    · left
      intro p hp
      cases hd : c.data p.1 with
      | none => exact .inl rfl
      | some w =>
        right
        have e1 := h2 p.1 (by simp [hd])
        have e2 := H p hp
        have : (exec c t (.set p.1 p.2)).1.data p.1 = some (.scalar (tryInt64 p.2)) := by
          simp [exec, Cache.set, Cache.store]
        rw [← hd, ← e1.1, e2.1, this]
    · right
      intro p hp hd
      have := (h4 p.1 p.2 hp hd).1
      rw [H, hd] at this
      simp [exec, Cache.set, Cache.store] at this
  · rintro (H | H)
    · left
      intro p hp
      rcases H p hp with hd | hd
      · exact h4 p.1 p.2 hp hd
      · have e1 := h2 p.1 (by simp [hd])
        exact ⟨by rw [e1.1, hd]; simp [exec, Cache.set, Cache.store], e1.2⟩
    · right
      apply Cache.ext'
      · intro k
        by_cases hk : k ∈ kv.map (·.1)
        · obtain ⟨p, hp, rfl⟩ := List.mem_map.1 hk
          exact (h2 p.1 (Option.isSome_iff_ne_none.2 (H p hp))).1
        · exact (h3 k hk).1
      · intro k
        by_cases hk : k ∈ kv.map (·.1)
        · obtain ⟨p, hp, rfl⟩ := List.mem_map.1 hk
          exact (h2 p.1 (Option.isSome_iff_ne_none.2 (H p hp))).2
        · exact (h3 k hk).2

/-- C24, exactly: Exists counts the readable keys and the expired, unswept ones. -/
theorem C24_exact (c : Cache) (ks : List Bytes) (t : Int) :
    (exec c t (.exists_ ks)).2 = .int (.ok
      ((ks.filter fun k => getOut c t k ≠ .str (.err .keyNil)).length +
       (ks.filter fun k => getOut c t k = .str (.err .keyNil) ∧ c.data k ≠ none).length)) := by
  simp only [exec, exists_eq]
  congr 2
  induction ks with
  | nil => rfl
  | cons k ks ih =>
    simp only [List.filter_cons]
    have hg : (getOut c t k = .str (.err .keyNil)) ↔ liveVal c t k = none := by
      rw [getOut_eq]
      constructor
      · intro h; apply showVal_ne_nil_iff.1; injection h
      · intro h; rw [h]; rfl
    cases hd : c.data k with
    | none =>
      have : liveVal c t k = none := by simp [liveVal, hd]
      simp [hg, this, ih]
    | some v =>
      by_cases hl : liveVal c t k = none
      · simp [hg, hl, ih]; omega
      · simp [hg, hl, ih]; omega

/-- C24, the exact condition: the answer is right if and only if no named key is expired and unswept. -/
theorem C24_exact_iff (c : Cache) (ks : List Bytes) (t : Int) :
    (exec c t (.exists_ ks)).2 = .int (.ok (ks.filter fun k => getOut c t k ≠ .str (.err .keyNil)).length) ↔
      ∀ k ∈ ks, ¬ Stale c t k := by
  constructor
  · intro h k hk hs
    rw [C24_exact] at h
    injection h with h
    injection h with h
    have hz : (ks.filter fun k => getOut c t k = .str (.err .keyNil) ∧ c.data k ≠ none).length = 0 := by omega
    have hm : k ∈ ks.filter fun k => getOut c t k = .str (.err .keyNil) ∧ c.data k ≠ none := by
      refine List.mem_filter.2 ⟨hk, ?_⟩
      rw [decide_eq_true_eq, getOut_eq, liveVal_none_of_stale hs]
      exact ⟨rfl, hs.1⟩
    rw [List.length_eq_zero_iff.1 hz] at hm
    cases hm
  · exact C24_exists_partial c ks t

end Verif

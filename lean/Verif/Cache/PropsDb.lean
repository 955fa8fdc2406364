import Verif.Cache.PropsCounter
/-!
# C20–C29: multi-key calls, database calls, cron, error discipline

`kv` is a Go map: its keys are distinct (`Nodup`), its order is arbitrary.
-/
namespace Verif
open Cache

/-- A Go map given as the list of its pairs in iteration order. -/
def IsMap (kv : List (Bytes × Bytes)) : Prop := (kv.map (·.1)).Nodup

theorem IsMap.perm {a b : List (Bytes × Bytes)} (h : IsMap a) (p : a.Perm b) : IsMap b :=
  (p.map _).nodup_iff.1 h

theorem exp_mSet (c : Cache) (kv : List (Bytes × Bytes)) : (c.mSet kv).1.exp = c.exp := by
  simp only [mSet]
  induction kv generalizing c with
  | nil => rfl
  | cons p kv ih => rw [List.foldl_cons, ih]; rfl

theorem data_mSet_mem {c : Cache} {kv : List (Bytes × Bytes)} {k v : Bytes} (hm : IsMap kv)
    (h : (k, v) ∈ kv) : (c.mSet kv).1.data k = some (.scalar (tryInt64 v)) := by
  obtain ⟨a, b, rfl⟩ := List.append_of_mem h
  have : ∀ p ∈ b, p.1 ≠ k := by
    intro p hp e
    unfold IsMap at hm
    simp only [List.map_append, List.map_cons, List.nodup_append, List.nodup_cons] at hm
    exact hm.2.1.1 (List.mem_map.2 ⟨p, hp, e⟩)
  exact data_of_assigns (.mSet a b this) c 0

/-! ## C20 -/

/-- C20: each pair is stored exactly as Set would store it (every later history of calls on that
key behaves the same), and all other keys are untouched. -/
theorem C20_mSet (c : Cache) (kv : List (Bytes × Bytes)) (t : Int) (hm : IsMap kv) :
    (∀ k v, (k, v) ∈ kv → ∀ h : History, (∀ p ∈ h, p.2.within (· = k)) →
      outs (exec c t (.mSet kv)).1 h = outs (exec c t (.set k v)).1 h) ∧
    (∀ k, k ∉ kv.map (·.1) → SameAt (exec c t (.mSet kv)).1 c k) := by
  constructor
  · intro k v hkv h hh
    have base : SameAt (exec c t (.mSet kv)).1 (exec c t (.set k v)).1 k := by
      refine ⟨?_, ?_⟩
      · show (c.mSet kv).1.data k = _
        rw [data_mSet_mem hm hkv]; simp [exec, Cache.set, store]
      · show (c.mSet kv).1.exp k = _
        rw [exp_mSet]; rfl
    revert base
    generalize (exec c t (.mSet kv)).1 = d
    generalize (exec c t (.set k v)).1 = e
    intro base
    clear hm hkv
    induction h generalizing d e with
    | nil => rfl
    | cons p h ih =>
      obtain ⟨s, o⟩ := p
      have := exec_congr (c := d) (d := e) (P := (· = k)) (by rintro _ rfl; exact base) s o (hh (s, o) (by simp))
      simp only [outs, this.1]
      rw [ih (fun p hp => hh p (by simp [hp])) _ _ (this.2 k rfl)]
  · exact fun k hk => sameAt_mSet c kv k hk

/-- C20: the iteration order of the map does not matter. -/
theorem C20_mSet_any_order (c : Cache) (kv kv' : List (Bytes × Bytes)) (t : Int) (hm : IsMap kv)
    (hp : kv.Perm kv') : exec c t (.mSet kv) = exec c t (.mSet kv') := by
  have : (c.mSet kv).1 = (c.mSet kv').1 := by
    refine Cache.ext' (fun k => ?_) (fun k => ?_)
    · by_cases hk : k ∈ kv.map (·.1)
      · obtain ⟨⟨k', v⟩, h1, rfl⟩ := List.mem_map.1 hk
        rw [data_mSet_mem hm h1, data_mSet_mem (hm.perm hp) (hp.mem_iff.1 h1)]
      · rw [(sameAt_mSet c kv k hk).1, (sameAt_mSet c kv' k (fun h => hk ((hp.map _).mem_iff.2 h))).1]
    · rw [exp_mSet, exp_mSet]
  simp only [exec]
  rw [show c.mSet kv = ((c.mSet kv).1, .ok OK) from rfl, show c.mSet kv' = ((c.mSet kv').1, .ok OK) from rfl, this]

example : IsMap [(b!"a", b!"1"), (b!"b", b!"2")] ∧
    [(b!"a", b!"1"), (b!"b", b!"2")].Perm [(b!"b", b!"2"), (b!"a", b!"1")] := by
  exact ⟨by unfold IsMap; decide, .swap _ _ _⟩

/-! ## C21 -/

theorem mSetNXLoop_spec (c : Cache) (kv : List (Bytes × Bytes)) (n : Int) (hm : IsMap kv) :
    (mSetNXLoop c kv n).2 = n + (kv.filter (fun p => (c.data p.1).isNone)).length ∧
    (mSetNXLoop c kv n).1.exp = c.exp ∧
    (∀ k, (c.data k).isSome → (mSetNXLoop c kv n).1.data k = c.data k) ∧
    (∀ k v, (k, v) ∈ kv → c.data k = none →
      (mSetNXLoop c kv n).1.data k = some (.scalar (tryInt64 v))) := by
  induction kv generalizing c n with
  | nil => simp [mSetNXLoop]
  | cons p kv ih =>
    obtain ⟨j, v⟩ := p
    have hm' : IsMap kv := by unfold IsMap at hm ⊢; simp at hm; exact hm.2
    have hj : j ∉ kv.map (·.1) := by unfold IsMap at hm; simp at hm; simpa using hm.1
    simp only [mSetNXLoop]
    cases hd : c.data j with
    | some w =>
      obtain ⟨h1, h2, h3, h4⟩ := ih c n hm'
      refine ⟨by rw [h1]; simp [hd], h2, h3, ?_⟩
      intro k v' hk hk'
      rcases List.mem_cons.1 hk with e | hk
      · cases e; rw [hd] at hk'; cases hk'
      · exact h4 k v' hk hk'
    | none =>
      obtain ⟨h1, h2, h3, h4⟩ := ih (c.store j (.scalar (tryInt64 v))) (n + 1) hm'
      have hfil : kv.filter (fun p => ((c.store j (.scalar (tryInt64 v))).data p.1).isNone)
          = kv.filter (fun p => (c.data p.1).isNone) := by
        apply List.filter_congr
        intro p hp
        have : p.1 ≠ j := fun e => hj (List.mem_map.2 ⟨p, hp, e⟩)
        simp [store, this]
      refine ⟨?_, h2, ?_, ?_⟩
      · rw [h1, hfil]; simp [hd]; omega
      · intro k hk
        have : k ≠ j := by rintro rfl; simp [hd] at hk
        rw [h3 k (by simp [store, this, hk])]; simp [store, this]
      · intro k v' hk hk'
        rcases List.mem_cons.1 hk with e | hk
        · cases e
          rw [h3 j (by simp [store])]; simp [store]
        · have : k ≠ j := fun e => hj (List.mem_map.2 ⟨(k, v'), hk, e⟩)
          exact h4 k v' hk (by simp [store, this, hk'])

/-- C21, what holds: the count is the number of keys that were not stored, exactly these pairs are
stored, and stored keys are never overwritten.  Missing: it is not all-or-nothing. -/
theorem C21_mSetNX_partial (c : Cache) (kv : List (Bytes × Bytes)) (t : Int) (hm : IsMap kv) :
    (exec c t (.mSetNX kv)).2 = .int (.ok (kv.filter (fun p => (c.data p.1).isNone)).length) ∧
    (∀ k, (c.data k).isSome → SameAt (exec c t (.mSetNX kv)).1 c k) ∧
    (∀ k, k ∉ kv.map (·.1) → SameAt (exec c t (.mSetNX kv)).1 c k) ∧
    (∀ k v, (k, v) ∈ kv → c.data k = none →
      SameAt (exec c t (.mSetNX kv)).1 (exec c t (.set k v)).1 k) := by
  obtain ⟨h1, h2, h3, h4⟩ := mSetNXLoop_spec c kv 0 hm
  refine ⟨?_, ?_, ?_, ?_⟩
  · simp only [exec, mSetNX]; rw [h1]; simp
  · exact fun k hk => ⟨h3 k hk, by simp only [exec, mSetNX, h2]⟩
  · exact fun k hk => sameAt_mSetNXLoop c kv 0 k hk
  · intro k v hk hd
    refine ⟨?_, by simp only [exec, mSetNX, h2]; rfl⟩
    rw [show (exec c t (.mSetNX kv)).1.data k = _ from h4 k v hk hd]
    simp [exec, Cache.set, store]

/-- C21: the iteration order of the map does not matter. -/
theorem C21_mSetNX_any_order (c : Cache) (kv kv' : List (Bytes × Bytes)) (t : Int) (hm : IsMap kv)
    (hp : kv.Perm kv') : exec c t (.mSetNX kv) = exec c t (.mSetNX kv') := by
  have A := C21_mSetNX_partial c kv t hm
  have B := C21_mSetNX_partial c kv' t (hm.perm hp)
  have e2 : (exec c t (.mSetNX kv)).2 = (exec c t (.mSetNX kv')).2 := by
    rw [A.1, B.1, (hp.filter _).length_eq]
  have pt : ∀ k, SameAt (exec c t (.mSetNX kv)).1 (exec c t (.mSetNX kv')).1 k := by
    intro k
    by_cases hs : (c.data k).isSome
    · exact (A.2.1 k hs).trans (B.2.1 k hs).symm
    · by_cases hk : k ∈ kv.map (·.1)
      · obtain ⟨⟨k', v⟩, h1, rfl⟩ := List.mem_map.1 hk
        have hn : c.data k' = none := by simpa using hs
        exact (A.2.2.2 k' v h1 hn).trans (B.2.2.2 k' v (hp.mem_iff.1 h1) hn).symm
      · exact (A.2.2.1 k hk).trans (B.2.2.1 k (fun h => hk ((hp.map _).mem_iff.2 h))).symm
  have e1 : (exec c t (.mSetNX kv)).1 = (exec c t (.mSetNX kv')).1 :=
    Cache.ext' (fun k => (pt k).1) (fun k => (pt k).2)
  exact Prod.ext e1 e2

/-- C21 is false: MSetNX stores the absent key although the other one exists. -/
theorem C21_violated :
    outs Cache.new [(0, .set b!"a" b!"x"), (1, .mSetNX [(b!"a", b!"1"), (b!"b", b!"2")]),
        (2, .mGet [b!"a", b!"b"])]
      = [.str (.ok OK), .int (.ok 1), .slots (.ok [.ok b!"x", .ok b!"2"])] := by
  decide +kernel

/-! ## C22 -/

/-- C22, full: the i-th answer is what Get would answer at that moment. -/
theorem C22_mGet (c : Cache) (ks : List Bytes) (t : Int) :
    (exec c t (.mGet ks)).2 = .slots (.ok (ks.map (fun k => (c.get t k).2))) := by
  simp only [exec]
  have : (c.mGet t ks).2 = ks.map (fun k => (c.get t k).2) := by
    have gen : ∀ d : Cache, (∀ k, liveVal d t k = liveVal c t k) →
        (d.mGet t ks).2 = ks.map (fun k => (c.get t k).2) := by
      induction ks with
      | nil => intros; rfl
      | cons j ks ih =>
        intro d hd
        simp only [mGet, List.map_cons]
        rw [get_snd, get_snd, hd j, ih]
        intro k
        rw [get_fst, liveVal_load _ _ _ (Int.le_refl t), hd k]
    exact gen c (fun _ => rfl)
  rw [this]

/-- In terms of API calls only. -/
theorem C22_mGet_pointwise (c : Cache) (ks : List Bytes) (t : Int) (i : Nat) (hi : i < ks.length) :
    ∃ rs : List (Res Bytes), (exec c t (.mGet ks)).2 = .slots (.ok rs) ∧ rs.length = ks.length ∧
      ∃ r, rs[i]? = some r ∧ getOut c t ks[i] = .str r := by
  refine ⟨_, C22_mGet c ks t, by simp, (c.get t ks[i]).2, by simp [hi], rfl⟩

example : (1 : Nat) < [b!"a", b!"b"].length := by decide

/-! ## C23 -/

/-- C23, full: Del answers 1 iff Get would not answer nil; afterwards the key is absent for every
later history of calls on it, exactly as in a new cache (so a second Del answers 0). -/
theorem C23_del (c : Cache) (k : Bytes) (t : Int) :
    (exec c t (.del k)).2 = .int (.ok (if getOut c t k = .str (.err .keyNil) then 0 else 1)) ∧
    (∀ h : History, (∀ p ∈ h, p.2.within (· = k)) → outs (exec c t (.del k)).1 h = outs Cache.new h) ∧
    (∀ t', (exec (exec c t (.del k)).1 t' (.del k)).2 = .int (.ok 0)) ∧
    (∀ j, j ≠ k → SameAt (exec c t (.del k)).1 c j) := by
  have h2 : ∀ h : History, (∀ p ∈ h, p.2.within (· = k)) → outs (exec c t (.del k)).1 h = outs Cache.new h := by
    intro h hh
    have base : SameAt (exec c t (.del k)).1 Cache.new k := by simp [SameAt, exec, del, Cache.new]
    generalize (exec c t (.del k)).1 = d at base
    generalize Cache.new = e at base
    induction h generalizing d e with
    | nil => rfl
    | cons p h ih =>
      obtain ⟨s, o⟩ := p
      have := exec_congr (c := d) (d := e) (P := (· = k)) (by rintro _ rfl; exact base) s o (hh (s, o) (by simp))
      simp only [outs, this.1]
      rw [ih (fun p hp => hh p (by simp [hp])) _ _ (this.2 k rfl)]
  refine ⟨?_, h2, ?_, fun j hj => sameAt_del hj⟩
  · rw [getOut_eq]
    simp only [exec, del, load_snd]
    cases hl : liveVal c t k with
    | none => simp [showVal]
    | some v => cases v <;> simp [showVal, fmtString]
  · intro t'
    have := h2 [(t', .del k)] (by
      intro p hp ks hk; simp at hp; subst hp; simp [Call.keys] at hk; subst hk; simp)
    simp only [outs, List.cons.injEq, and_true] at this
    rw [this]; rfl

example : outs Cache.new [(0, .setEX b!"k" b!"v" 5), (1, .del b!"k"), (2, .del b!"k"), (3, .set b!"k" b!"w"),
      (9000000000, .get b!"k")]
    = [.str (.ok OK), .int (.ok 1), .int (.ok 0), .str (.ok OK), .str (.ok b!"w")] := by decide +kernel

/-! ## C24 -/

theorem exists_eq (c : Cache) (ks : List Bytes) :
    c.exists ks = ((ks.filter (fun k => (c.data k).isSome)).length : Int) := by
  unfold Cache.exists
  have gen : ∀ n : Int, ks.foldl (fun n k => if (c.data k).isSome then n + 1 else n) n
      = n + ((ks.filter (fun k => (c.data k).isSome)).length : Int) := by
    induction ks with
    | nil => simp
    | cons k ks ih =>
      intro n
      rw [List.foldl_cons, ih, List.filter_cons]
      split <;> simp <;> omega
  rw [gen]; simp

/-- C24 when none of the keys is expired-but-unswept.  Missing: expired keys are counted. -/
theorem C24_exists_partial (c : Cache) (ks : List Bytes) (t : Int) (hs : ∀ k ∈ ks, ¬ Stale c t k) :
    (exec c t (.exists_ ks)).2 =
      .int (.ok (ks.filter (fun k => getOut c t k ≠ .str (.err .keyNil))).length) := by
  simp only [exec, exists_eq]
  congr 4
  apply List.filter_congr
  intro k hk
  rw [getOut_eq, liveVal_of_not_stale (hs k hk)]
  rcases c.data k with _ | (_ | _ | _) <;> simp [showVal, fmtString]

/-- C24 is false: an expired key is counted although Get reports nil for it. -/
theorem C24_violated :
    outs Cache.new [(0, .pSetEX b!"k" b!"a" 1), (2000000, .exists_ [b!"k"]), (2000000, .get b!"k"),
        (2000000, .exists_ [b!"k"])]
      = [.str (.ok OK), .int (.ok 1), .str (.err .keyNil), .int (.ok 0)] := by
  decide +kernel

/-! ## C25 -/

/-- C25, full: after Flush every later history behaves as on a new cache. -/
theorem C25_flush (c : Cache) (t : Int) (h : History) :
    outs (exec c t .flush).1 h = outs Cache.new h := rfl

/-- In particular every key is absent for Get and Exists. -/
theorem C25_flush_empty (c : Cache) (t t' : Int) (k : Bytes) :
    getOut (exec c t .flush).1 t' k = .str (.err .keyNil) ∧
    (exec (exec c t .flush).1 t' (.exists_ [k])).2 = .int (.ok 0) := ⟨rfl, rfl⟩

/-! ## C26 -/

/-- C26 is false: a hash is reported as "string". -/
theorem C26_violated :
    outs Cache.new [(0, .hSet b!"k" b!"f" b!"v"), (1, .type b!"k")]
      = [.int (.ok 1), .str (.ok b!"string")] := by
  decide +kernel

/-- C26 except for hashes: "none" exactly for absent keys, "string" for string values. -/
theorem C26_type_partial (c : Cache) (k : Bytes) (t : Int) :
    ((exec c t (.type k)).2 = .str (.ok b!"none") ↔ getOut c t k = .str (.err .keyNil)) ∧
    (∀ s, getOut c t k = .str (.ok s) → (exec c t (.type k)).2 = .str (.ok b!"string")) := by
  rw [getOut_eq, ← load_snd]
  simp only [exec, Cache.type]
  generalize c.load t k = p
  obtain ⟨c', o⟩ := p
  rcases o with _ | (_ | _ | _) <;> simp [showVal, fmtString]

/-! ## C27 -/

/-- The first moment of year 1, counted in nanoseconds from the start of 1970: 1969 years of 365 days,
and 492 - 19 + 4 leap days. -/
def yearOne : Int := -((1969 * 365 + (492 - 19 + 4)) * 86400 * 1000000000)

theorem zeroTime_eq : zeroTime = yearOne := by decide

/-- C27 is false: a tick of the sweep removes a key without any deadline. -/
theorem C27_violated :
    ¬ ∀ c, Reachable c → ∀ (k : Bytes) (t : Int), yearOne < t → NotPassed c t k →
      getOut (exec c t .cronTick).1 t k = getOut c t k := by
  intro h
  have := h (run Cache.new [(0, .set b!"k" b!"v")]) ⟨_, rfl⟩ b!"k" 1 (by decide)
    (by intro d hd; exact absurd hd (by rw [show (run Cache.new [(0, .set b!"k" b!"v")]).exp b!"k" = none from rfl]; simp))
  revert this
  decide +kernel

/-- What a tick does instead, at every clock reading after year 1: in every reachable state it
removes every key.  So C27 holds exactly for absent keys. -/
theorem C27_tick_wipes_partial (c : Cache) (hc : Reachable c) (t : Int) (ht : yearOne < t) :
    (exec c t .cronTick).1 = Cache.new := by
  rw [← zeroTime_eq] at ht
  refine Cache.ext' (fun k => ?_) (fun k => ?_)
  · simp only [exec, cronTick, Cache.new]
    cases hd : c.data k with
    | none => rfl
    | some v =>
      cases hc.inv.good k v hd <;> simp [cronEntry, ht]
  · simp only [exec, cronTick, Cache.new]
    cases hd : c.data k with
    | none => exact hc.inv.exp_data k hd
    | some v =>
      cases hc.inv.good k v hd <;> simp [cronEntry, ht]

/-- At an earlier clock the sweep takes no key away, but it makes every key persistent. -/
theorem C27_tick_early_partial (c : Cache) (hc : Reachable c) (t : Int) (ht : t ≤ yearOne) :
    (exec c t .cronTick).1 = { c with exp := fun _ => none } := by
  rw [← zeroTime_eq] at ht
  have hlt : ¬ zeroTime < t := by omega
  refine Cache.ext' (fun k => ?_) (fun k => ?_)
  · simp only [exec, cronTick]
    cases hd : c.data k with
    | none => rfl
    | some v =>
      cases hc.inv.good k v hd <;> simp [cronEntry, hlt, hd]
  · simp only [exec, cronTick]
    cases hd : c.data k with
    | none => exact hc.inv.exp_data k hd
    | some v =>
      cases hc.inv.good k v hd <;> simp [cronEntry, hlt]

example : Reachable (run Cache.new [(0, .set b!"k" b!"v")]) ∧ yearOne < 0 := ⟨⟨_, rfl⟩, by decide⟩

/-! ## C28 -/

/-- The string calls that must reject a hash (the unconditional overwrites are excepted). -/
def Call.stringCall (k : Bytes) : Call → Bool
  | .get j | .strLen j | .append j _ | .getRange j _ _ | .incr j | .incrBy j _ | .decr j
  | .decrBy j _ | .incrByFloat j _ => j = k
  | .setRange j p _ => decide (j = k) && decide (0 ≤ p.toInt)
  | _ => false

/-- The hash calls. -/
def Call.hashCall (k : Bytes) : Call → Bool
  | .hSet j _ _ | .hSetNX j _ _ | .hExists j _ | .hDel j _ | .hLen j | .hStrLen j _ | .hGet j _
  | .hIncrBy j _ _ | .hIncrByFloat j _ _ | .hMSet j _ | .hMGet j _ | .hKeys j | .hVals j
  | .hGetAll j => j = k
  | _ => false

/-- The outcome is the wrong-type error. -/
def Out.wrongType : Out → Bool
  | .str r => r = .err .wrongType
  | .int r => r = .err .wrongType
  | .float r => r = .err .wrongType
  | .slots r => r = .err .wrongType
  | .strs r => r = .err .wrongType
  | .pairs r => r = .err .wrongType
  | _ => false

theorem load_of_live {c : Cache} {t : Int} {k : Bytes} {v : Val} (h : liveVal c t k = some v) :
    c.load t k = (c, some v) := by
  have hs : ¬ Stale c t k := fun hs => by rw [liveVal_none_of_stale hs] at h; cases h
  exact Prod.ext (load_fst_of_not_stale hs) (by rw [load_snd, h])

theorem data_of_live {c : Cache} {t : Int} {k : Bytes} {v : Val} (h : liveVal c t k = some v) :
    c.data k = some v := by
  have hs : ¬ Stale c t k := fun hs => by rw [liveVal_none_of_stale hs] at h; cases h
  rw [← liveVal_of_not_stale hs, h]

/-- C28, string calls on a readable hash: wrong type, nothing changes.  GetSet is excepted here
because it violates the claim (`C09_violated`). -/
theorem C28_string_call_on_hash_partial (c : Cache) (k : Bytes) (t : Int) (e : HashEntry) (op : Call)
    (hl : liveVal c t k = some (.hash e)) (hop : op.stringCall k = true) :
    (exec c t op).2.wrongType = true ∧ (exec c t op).1 = c := by
  have h1 := load_of_live hl
  have h2 := data_of_live hl
  cases op <;> simp [Call.stringCall] at hop
  case setRange j p r =>
    obtain ⟨rfl, hp⟩ := hop
    have : ¬ p.toInt < 0 := by omega
    simp [exec, setRange, this, loadLive, h1, fmtString, Out.wrongType]
  all_goals
    subst hop
    simp [exec, Cache.get, strLen, append, getRange, incr, incrBy, decr, decrBy, incrByFloat, loadLive, h1, h2,
      fmtString, Out.wrongType, GoRes.map, GoRes.bind]

/-- C28, hash calls on a readable string value: wrong type, nothing changes (full). -/
theorem C28_hash_call_on_string (c : Cache) (k : Bytes) (t : Int) (v : Scalar) (op : Call)
    (hl : liveVal c t k = some (.scalar v)) (hop : op.hashCall k = true) :
    (exec c t op).2.wrongType = true ∧ (exec c t op).1 = c := by
  have h1 := load_of_live hl
  cases op <;> simp [Call.hashCall] at hop
  all_goals
    subst hop
    simp [exec, hSet, hSetNX, hExists, hDel, hLen, hStrLen, hGet, hIncrBy, hIncrByFloat, hMSet, hMGet, hKeys,
      hVals, hGetAll, withHash, readHash, getHash, h1, Out.wrongType, GoRes.map, GoRes.bind]

example : (Call.append b!"k" b!"x").stringCall b!"k" = true ∧ (Call.hDel b!"k" []).hashCall b!"k" = true ∧
    (∃ e, liveVal (run Cache.new [(0, .hSet b!"k" b!"f" b!"v")]) 1 b!"k" = some (.hash e)) ∧
    (∃ v, liveVal (run Cache.new [(0, .set b!"k" b!"v")]) 1 b!"k" = some (.scalar v)) :=
  ⟨by decide, by decide, ⟨{ fields := [(b!"f", .str b!"v")], length := 1 }, by decide +kernel⟩,
    ⟨.str b!"v", by decide +kernel⟩⟩

/-! ## C29 -/

/-- The outcome is a panic. -/
def Out.panicked : Out → Bool
  | .str r => r = .panic
  | .int r => r = .panic
  | .float r => r = .panic
  | .slots r => r = .panic
  | .strs r => r = .panic
  | .pairs r => r = .panic
  | .panic => true
  | .unit => false

/-- C29 is false: HKeys/HVals/HGetAll of an absent key panic, and so do all list calls and a
SetRange far beyond any memory. -/
theorem C29_violated :
    (exec Cache.new 0 (.hKeys b!"k")).2.panicked = true ∧ (exec Cache.new 0 (.hVals b!"k")).2.panicked = true ∧
    (exec Cache.new 0 (.hGetAll b!"k")).2.panicked = true ∧ (exec Cache.new 0 (.list b!"k")).2.panicked = true ∧
    (exec Cache.new 0 (.setRange b!"k" (2 ^ 60) b!"x")).2.panicked = true := by
  decide +kernel

theorem fmtString_ne_panic (v : Val) : fmtString v ≠ .panic := by cases v <;> simp [fmtString]

theorem asHash_ne_panic (o : Option Val) : asHash o ≠ .panic := by
  rcases o with _ | (_ | _ | _) <;> simp [asHash]

theorem readHash_ne_panic {α : Type} {c : Cache} {t : Int} {k : Bytes} {f : Option HashEntry → Res α}
    (hf : ∀ o, asHash (liveVal c t k) = .ok o → f o ≠ .panic) : (c.readHash t k f).2 ≠ .panic := by
  rw [readHash_snd]
  have := asHash_ne_panic (liveVal c t k)
  revert hf
  cases h : asHash (liveVal c t k) with
  | ok o => exact fun hf => hf o rfl
  | err e => intro _; simp [GoRes.bind]
  | panic => exact absurd h this

theorem withHash_ne_panic {α : Type} {c : Cache} {t : Int} {k : Bytes} {f : HashEntry → HashEntry × Res α}
    (hf : ∀ e, (f e).2 ≠ .panic) : (c.withHash t k f).2 ≠ .panic := by
  rw [withHash_snd]
  have := asHash_ne_panic (liveVal c t k)
  cases h : asHash (liveVal c t k) with
  | ok o => exact hf _
  | err e => simp [GoRes.bind]
  | panic => exact absurd h this

/-- C29 for every other call, in every state: only the list calls, HKeys/HVals/HGetAll of an
absent key, and SetRange of a string past the largest slice, can panic. -/
theorem C29_no_panic_partial (c : Cache) (t : Int) (op : Call) (hl : ∀ k, op ≠ .list k)
    (hk : ∀ k, (op = .hKeys k ∨ op = .hVals k ∨ op = .hGetAll k) → liveVal c t k ≠ none)
    (hs : ∀ k p r, op = .setRange k p r → maxAlloc < p.toInt → ∀ s, textAt c t k ≠ .ok s) :
    (exec c t op).2.panicked = false := by
  have rd : ∀ (k : Bytes), liveVal c t k ≠ none → asHash (liveVal c t k) ≠ .ok none := by
    intro k h e
    cases hv : liveVal c t k with
    | none => exact h hv
    | some v => rw [hv] at e; cases v <;> simp [asHash] at e
  cases op with
  | list k => exact absurd rfl (hl k)
  | hKeys k =>
    have h0 := rd k (hk k (by simp))
    have : (c.hKeys t k).2 ≠ .panic := readHash_ne_panic (by
      intro o ho; cases o with
      | none => exact absurd ho h0
      | some h => simp)
    simp [exec, Out.panicked, this]
  | hVals k =>
    have h0 := rd k (hk k (by simp))
    have : (c.hVals t k).2 ≠ .panic := readHash_ne_panic (by
      intro o ho; cases o with
      | none => exact absurd ho h0
      | some h => simp)
    simp [exec, Out.panicked, this]
  | hGetAll k =>
    have h0 := rd k (hk k (by simp))
    have : (c.hGetAll t k).2 ≠ .panic := readHash_ne_panic (by
      intro o ho; cases o with
      | none => exact absurd ho h0
      | some h => simp [fmtString])
    simp [exec, Out.panicked, this]
  | set k v => simp [exec, Cache.set, Out.panicked]
  | setNX k v => simp only [exec, setNX]; split <;> simp [Out.panicked, GoRes.map, GoRes.bind]
  | setEX k v n => simp [exec, Cache.setEX, Out.panicked]
  | pSetEX k v n => simp [exec, Cache.pSetEX, Out.panicked]
  | get k =>
    simp only [exec, get_snd, Out.panicked]
    cases h : liveVal c t k with
    | none => simp [showVal]
    | some v => simp [showVal, fmtString_ne_panic]
  | getSet k v =>
    rw [C09_getSet_returns_old, getOut_eq]
    simp only [Out.panicked]
    cases h : liveVal c t k with
    | none => simp [showVal]
    | some v => simp [showVal, fmtString_ne_panic]
  | strLen k =>
    rw [C11_strLen, getOut_eq]
    rcases liveVal c t k with _ | (_ | _ | _) <;> simp [showVal, fmtString, Out.panicked]
  | append k v =>
    simp only [exec, append, loadLive]
    generalize c.load t k = p
    obtain ⟨c', o⟩ := p
    rcases o with _ | (_ | _ | _) <;> simp [fmtString, Out.panicked]
  | setRange k p v =>
    simp only [exec, setRange, loadLive]
    split
    · simp [Out.panicked]
    · have hs := hs k p v rfl
      rw [textAt_eq, ← load_snd] at hs
      revert hs
      generalize c.load t k = q
      obtain ⟨c', o⟩ := q
      by_cases hm : maxAlloc < p.toInt
      · rintro hs
        have hs := hs hm
        rcases o with _ | (_ | _ | _) <;> simp [fmtString, Out.panicked] at hs ⊢
      · rintro -
        rcases o with _ | (_ | _ | _) <;> simp [fmtString, Out.panicked, hm]
  | getRange k a b =>
    simp only [exec, getRange, loadLive]
    generalize c.load t k = p
    obtain ⟨c', o⟩ := p
    rcases o with _ | (_ | _ | _) <;> simp [fmtString, Out.panicked, GoRes.map, GoRes.bind]
  | incr k =>
    simp only [exec, incr, incrBy]; split <;> (try split) <;> simp [Out.panicked, GoRes.map, GoRes.bind]
  | incrBy k n =>
    simp only [exec, incrBy]; split <;> (try split) <;> simp [Out.panicked, GoRes.map, GoRes.bind]
  | decr k =>
    simp only [exec, decr, incrBy]; split <;> (try split) <;> simp [Out.panicked, GoRes.map, GoRes.bind]
  | decrBy k n =>
    simp only [exec, decrBy, incrBy]; split <;> (try split) <;> simp [Out.panicked, GoRes.map, GoRes.bind]
  | incrByFloat k x => simp only [exec, incrByFloat]; split <;> simp [Out.panicked]
  | mSet kv => simp [exec, mSet, Out.panicked]
  | mSetNX kv => simp [exec, mSetNX, Out.panicked]
  | mGet ks => simp [exec, Out.panicked]
  | del k => simp [exec, Out.panicked]
  | flush => rfl
  | exists_ ks => simp [exec, Out.panicked]
  | type k => simp [exec, Out.panicked]
  | cronTick => rfl
  | hSet k f v =>
    have : (c.hSet t k f v).2 ≠ .panic := withHash_ne_panic (by simp)
    simp [exec, Out.panicked, this]
  | hSetNX k f v =>
    have : (c.hSetNX t k f v).2 ≠ .panic := withHash_ne_panic (by intro e; split <;> simp)
    simp [exec, Out.panicked, this]
  | hExists k f =>
    have : (c.hExists t k f).2 ≠ .panic := by
      have h := asHash_ne_panic (liveVal c t k)
      unfold hExists
      rw [← getHash_snd] at h
      revert h
      generalize c.getHash t k = p
      obtain ⟨c', o⟩ := p
      rcases o with (_ | _) | _ | _ <;> simp
    simp [exec, Out.panicked, this]
  | hDel k fs =>
    have : (c.hDel t k fs).2 ≠ .panic := by
      have h := asHash_ne_panic (liveVal c t k)
      unfold hDel
      rw [← getHash_snd] at h
      revert h
      generalize c.getHash t k = p
      obtain ⟨c', o⟩ := p
      rcases o with (_ | _) | _ | _ <;> simp
    simp [exec, Out.panicked, this]
  | hLen k =>
    have : (c.hLen t k).2 ≠ .panic := readHash_ne_panic (by intro o _; cases o <;> simp)
    simp [exec, Out.panicked, this]
  | hStrLen k f =>
    have : (c.hStrLen t k f).2 ≠ .panic := readHash_ne_panic (by
      intro o _; cases o <;> simp; split <;> simp)
    simp [exec, Out.panicked, this]
  | hGet k f =>
    have : (c.hGet t k f).2 ≠ .panic := readHash_ne_panic (by
      intro o _; cases o <;> simp; split <;> simp)
    simp [exec, Out.panicked, this]
  | hIncrBy k f n =>
    have : (c.hIncrBy t k f n).2 ≠ .panic := withHash_ne_panic (by
      intro e; split
      · simp
      · split
        · simp
        · rename_i v _ _ _
          cases v <;> simp [hIncrScalar]
          split <;> simp)
    have : (c.hIncrBy t k f n).2.map Int64.toInt ≠ .panic := by
      revert this; cases (c.hIncrBy t k f n).2 <;> simp [GoRes.map, GoRes.bind]
    simp [exec, Out.panicked, this]
  | hIncrByFloat k f x =>
    have : (c.hIncrByFloat t k f x).2 ≠ .panic := withHash_ne_panic (by
      intro e; split
      · simp
      · split
        · simp
        · rename_i v _ _ _
          cases v <;> simp [hIncrFloatScalar]
          split <;> simp)
    simp [exec, Out.panicked, this]
  | hMSet k fv =>
    have : (c.hMSet t k fv).2 ≠ .panic := withHash_ne_panic (by simp)
    simp [exec, Out.panicked, this]
  | hMGet k fs =>
    have : (c.hMGet t k fs).2 ≠ .panic := readHash_ne_panic (by simp)
    simp [exec, Out.panicked, this]

example : liveVal (run Cache.new [(0, .hSet b!"k" b!"f" b!"v")]) 1 b!"k" ≠ none := by decide +kernel

end Verif

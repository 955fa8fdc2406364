import Verif.Cache.PropsDb
/-!
# C30–C39: hashes
-/
namespace Verif
open Cache

/-- `HGet` answer. -/
abbrev hgetOut (c : Cache) (t : Int) (k f : Bytes) : Out := (exec c t (.hGet k f)).2

/-- What a hash call sees in field `f` of `k` at time `t`. -/
def hview (c : Cache) (t : Int) (k f : Bytes) : Res (Option Scalar) :=
  (asHash (liveVal c t k)).map (fun o => o.bind (fun h => hfind h.fields f))

theorem hgetOut_eq (c : Cache) (t : Int) (k f : Bytes) :
    hgetOut c t k f = .str ((hview c t k f).bind (fun o => match o with
      | none => .err .keyNil
      | some v => .ok (fmtScalar v))) := by
  simp only [hgetOut, exec, hGet, readHash_snd, hview]
  cases asHash (liveVal c t k) with
  | ok o =>
    cases o with
    | none => rfl
    | some h =>
      simp only [GoRes.bind, GoRes.map, HashEntry.get, Option.bind]
      cases hfind h.fields f <;> rfl
  | err e => rfl
  | panic => rfl

theorem hgetNil_iff {c : Cache} {t : Int} {k f : Bytes} :
    hgetOut c t k f = .str (.err .keyNil) ↔ hview c t k f = .ok none := by
  rw [hgetOut_eq]
  simp only [hview]
  rcases liveVal c t k with _ | (_ | e | _)
  · simp [asHash, GoRes.map, GoRes.bind]
  · simp [asHash, GoRes.map, GoRes.bind]
  · simp only [asHash, GoRes.map, GoRes.bind, Option.bind]
    cases hfind e.fields f <;> simp
  · simp [asHash, GoRes.map, GoRes.bind]

theorem hview_congr {c d : Cache} {t : Int} {k : Bytes} (h : liveVal c t k = liveVal d t k) (f : Bytes) :
    hview c t k f = hview d t k f := by simp [hview, h]

/-- Calls that may write field `f` of key `k`: hash updates naming `f`, and every call that writes
`k` as a whole. -/
def Call.writesField (k f : Bytes) : Call → Bool
  | .hSet j g _ | .hSetNX j g _ | .hIncrBy j g _ | .hIncrByFloat j g _ => decide (j = k) && decide (g = f)
  | .hExists _ _ => false
  | .hDel j gs => decide (j = k) && decide (f ∈ gs)
  | .hMSet j fv => decide (j = k) && decide (f ∈ fv.map (·.1))
  | op => op.writes k

/-- Value of `k` at `t` after an update at `s` through the hash entry. -/
theorem liveVal_store_load {c : Cache} {s t : Int} {k : Bytes} {v : Val} (_hst : s ≤ t) :
    liveVal ((c.load s k).1.store k v) t k = some v ∨
    (liveVal ((c.load s k).1.store k v) t k = none ∧ liveVal c t k = none) := by
  rcases stale_dec c s k with hs | hs
  · left; rw [load_fst_of_stale hs]; simp [liveVal, store]
  · rw [load_fst_of_not_stale hs]
    unfold liveVal
    simp only [store, upd_same]
    cases he : c.exp k with
    | none => simp
    | some d =>
      by_cases hd : d < t
      · right; simp [hd]; split <;> simp
      · left; simp [hd]

theorem hview_none_of_liveVal {c : Cache} {t : Int} {k f : Bytes} (h : liveVal c t k = none) :
    hview c t k f = .ok none := by simp [hview, h, asHash, GoRes.map, GoRes.bind]

/-- At time `t ≥ s`, a key that held hash `o` at `s` still does, or is gone. -/
theorem liveVal_later {c : Cache} {s t : Int} {k : Bytes} (hst : s ≤ t) :
    liveVal c t k = liveVal c s k ∨ liveVal c t k = none := by
  unfold liveVal
  cases c.data k with
  | none => simp
  | some v =>
    cases c.exp k with
    | none => simp
    | some d =>
      by_cases h1 : d < s
      · right; simp; omega
      · by_cases h2 : d < t
        · right; simp [h2]
        · left; simp [h1, h2]

theorem hview_update {c : Cache} {s t : Int} {k f : Bytes} {h' : HashEntry} (hst : s ≤ t)
    {o : Option HashEntry} (ho : asHash (liveVal c s k) = .ok o)
    (hf : hfind h'.fields f = hfind (o.getD HashEntry.empty).fields f) :
    hview ((c.load s k).1.store k (.hash h')) t k f = hview c t k f := by
  rcases liveVal_store_load (c := c) (s := s) (t := t) (k := k) (v := .hash h') hst with h1 | ⟨h1, h2⟩
  · rcases liveVal_later (c := c) (k := k) hst with h2 | h2
    · simp only [hview, h1, h2, ho]
      simp only [asHash, GoRes.map, GoRes.bind, Option.bind]
      rw [hf]
      cases o with
      | none => simp [HashEntry.empty, hfind]
      | some h => rfl
    · rw [hview_none_of_liveVal h2]
      -- the key was absent already at `s`, or its deadline lies between: both give no field
      simp only [hview, h1, asHash, GoRes.map, GoRes.bind, Option.bind]
      rw [hf]
      -- if the store is visible at `t`, the deadline (if any) has not passed, so `c` was absent at `s`
      have : liveVal c s k = none := by
        rcases stale_dec c s k with hs | hs
        · exact liveVal_none_of_stale hs
        · rw [load_fst_of_not_stale hs] at h1
          unfold liveVal at h1 h2 ⊢
          simp only [store, upd_same] at h1
          cases hd : c.data k with
          | none => rfl
          | some v =>
            simp only [hd] at h2
            cases he : c.exp k with
            | none => simp [he] at h2
            | some d => simp [he] at h1 h2; omega
      rw [this] at ho
      simp [asHash] at ho; subst ho
      simp [HashEntry.empty, hfind]
  · rw [hview_none_of_liveVal h1, hview_none_of_liveVal h2]

theorem hview_withHash {α : Type} {c : Cache} {s t : Int} {k f : Bytes} {g : HashEntry → HashEntry × Res α}
    (hst : s ≤ t) (hg : ∀ h, hfind (g h).1.fields f = hfind h.fields f) :
    hview (c.withHash s k g).1 t k f = hview c t k f := by
  rw [withHash_fst]
  split
  · rename_i o ho
    exact hview_update hst ho (hg _)
  · exact hview_congr (liveVal_load _ _ _ hst) f

theorem hfind_set_other {h : HashEntry} {f g v : Bytes} (e : f ≠ g) :
    hfind (h.set g v).1.fields f = hfind h.fields f := by
  simp [HashEntry.set, hfind_hput, e]

theorem hfind_hDelLoop {fs : List (Bytes × Scalar)} (hn : (fs.map (·.1)).Nodup) (gs : List Bytes) (n : Int)
    (f : Bytes) : hfind (hDelLoop gs fs n).1 f = if f ∈ gs then none else hfind fs f := by
  induction gs generalizing fs n with
  | nil => simp [hDelLoop]
  | cons g gs ih =>
    simp only [hDelLoop]
    split
    · rw [ih (hn.sublist ((hdelete_sublist fs g).map _)), hfind_hdelete hn]
      by_cases e : f = g <;> by_cases e2 : f ∈ gs <;> simp [e, e2]
    · rename_i hg
      rw [ih hn]
      by_cases e : f = g
      · subst e; simp [hg]
      · simp [e]

theorem hfind_hMSetLoop_other {fv : List (Bytes × Bytes)} {h : HashEntry} {n : Int} {f : Bytes}
    (hf : f ∉ fv.map (·.1)) : hfind (hMSetLoop fv h n).1.fields f = hfind h.fields f := by
  induction fv generalizing h n with
  | nil => rfl
  | cons p fv ih =>
    obtain ⟨g, v⟩ := p
    simp at hf
    simp only [hMSetLoop]
    rw [ih (by simpa using hf.2), hfind_set_other hf.1]

/-- A call that does not write field `f` of `k` leaves what HGet shows for it, now and later. -/
theorem hview_exec {c : Cache} (hc : Inv c) {s t : Int} (op : Call) (k f : Bytes)
    (hw : op.writesField k f = false) (hst : s ≤ t) :
    hview (exec c s op).1 t k f = hview c t k f := by
  have nw : op.writes k = false → hview (exec c s op).1 t k f = hview c t k f := fun h =>
    hview_congr (liveVal_exec_of_not_writes c op k h hst) f
  cases op with
  | hSet j g v =>
    by_cases e : j = k
    · subst e
      simp [Call.writesField] at hw
      simp only [exec, hSet]
      exact hview_withHash hst (fun h => hfind_set_other (fun e => hw e.symm))
    · exact nw (by simp [Call.writes, e])
  | hSetNX j g v =>
    by_cases e : j = k
    · subst e
      simp [Call.writesField] at hw
      simp only [exec, hSetNX]
      refine hview_withHash hst (fun h => ?_)
      split
      · rfl
      · simp [hfind_hput, show f ≠ g from fun e => hw e.symm]
    · exact nw (by simp [Call.writes, e])
  | hIncrBy j g v =>
    by_cases e : j = k
    · subst e
      simp [Call.writesField] at hw
      simp only [exec, hIncrBy]
      refine hview_withHash hst (fun h => ?_)
      split
      · exact hfind_set_other (fun e => hw e.symm)
      · split
        · exact hfind_set_other (fun e => hw e.symm)
        · rfl
    · exact nw (by simp [Call.writes, e])
  | hIncrByFloat j g v =>
    by_cases e : j = k
    · subst e
      simp [Call.writesField] at hw
      simp only [exec, hIncrByFloat]
      refine hview_withHash hst (fun h => ?_)
      split
      · exact hfind_set_other (fun e => hw e.symm)
      · split
        · exact hfind_set_other (fun e => hw e.symm)
        · rfl
    · exact nw (by simp [Call.writes, e])
  | hMSet j fv =>
    by_cases e : j = k
    · subst e
      simp [Call.writesField] at hw
      simp only [exec, hMSet]
      exact hview_withHash hst (fun h => hfind_hMSetLoop_other (by simpa using hw))
    · exact nw (by simp [Call.writes, e])
  | hExists j g =>
    by_cases e : j = k
    · subst e
      simp only [exec, hExists_fst]
      split
      · rename_i e he; exact hview_update hst he rfl
      · exact hview_congr (liveVal_load _ _ _ hst) f
    · exact nw (by simp [Call.writes, e])
  | hDel j gs =>
    by_cases e : j = k
    · subst e
      simp [Call.writesField] at hw
      simp only [exec, hDel_fst]
      split
      · rename_i e he
        refine hview_update hst he ?_
        have := hc.asHash he
        simp only [Option.getD_some] at this ⊢
        rw [hfind_hDelLoop this.nodup]; simp [hw]
      · exact hview_congr (liveVal_load _ _ _ hst) f
    · exact nw (by simp [Call.writes, e])
  | _ => exact nw hw

/-- No call of the history writes field `f` of `k`. -/
def NoFieldWrite (k f : Bytes) (h : History) : Prop := ∀ p ∈ h, p.2.writesField k f = false

theorem hview_run {c : Cache} (hc : Inv c) {t : Int} (h : History) (k f : Bytes)
    (hw : NoFieldWrite k f h) (hu : Until t h) : hview (run c h) t k f = hview c t k f := by
  induction h generalizing c with
  | nil => rfl
  | cons p h ih =>
    obtain ⟨s, op⟩ := p
    simp only [run]
    rw [ih (hc.exec s op) (fun p hp => hw p (by simp [hp])) (fun p hp => hu p (by simp [hp]))]
    exact hview_exec hc op k f (hw (s, op) (by simp)) (hu (s, op) (by simp))

/-- The key can be used as a hash: absent (or expired) or a hash. -/
def HashKey (c : Cache) (t : Int) (k : Bytes) : Prop := ∃ o, asHash (liveVal c t k) = .ok o

/-- After an update at `s` the entry is visible at `t` unless the key's deadline passed. -/
theorem hview_after_withHash {α : Type} {c : Cache} {s t : Int} {k f : Bytes}
    {g : HashEntry → HashEntry × Res α} (hk : HashKey c s k) (hd : NotPassed c t k ∨ Stale c s k) :
    ∃ o, asHash (liveVal c s k) = .ok o ∧
      hview (c.withHash s k g).1 t k f = .ok (hfind (g (o.getD HashEntry.empty)).1.fields f) ∧
      (c.withHash s k g).2 = (g (o.getD HashEntry.empty)).2 := by
  obtain ⟨o, ho⟩ := hk
  refine ⟨o, ho, ?_, by rw [withHash_snd, ho]; rfl⟩
  rw [withHash_fst, ho]
  simp only
  have : NotPassed ((c.load s k).1.store k (.hash (g (o.getD HashEntry.empty)).1)) t k := notPassed_load hd
  simp only [hview, liveVal_of_notPassed this]
  simp [store, asHash, GoRes.map, GoRes.bind]

/-! ## C30 -/

/-- C30, HSet: until the field is written again (or the key as a whole), HGet shows the canonical
text of `v`, and the answer of HSet says whether the field is new. -/
theorem C30_hSet_hGet (c : Cache) (hc : Reachable c) (k f v : Bytes) (s t : Int) (h : History)
    (hk : HashKey c s k) (hd : NotPassed c t k ∨ Stale c s k)
    (hw : NoFieldWrite k f h) (hu : Until t h) :
    hgetOut (run (exec c s (.hSet k f v)).1 h) t k f = .str (.ok (canon v)) ∧
    (exec c s (.hSet k f v)).2 = .int (.ok (if hgetOut c s k f = .str (.err .keyNil) then 1 else 0)) := by
  obtain ⟨o, ho, h1, h2⟩ := hview_after_withHash (f := f)
    (g := fun h => let (h', n) := h.set f v; (h', (.ok n : Res Int))) hk hd
  constructor
  · rw [hgetOut_eq, hview_run (hc.inv.exec s _) h k f hw hu]
    have : hview (exec c s (.hSet k f v)).1 t k f = .ok (some (tryInt64 v)) := by
      simp only [exec, hSet]; rw [h1]; simp [HashEntry.set, hfind_hput]
    rw [this]; simp [GoRes.bind, fmtScalar_tryInt64]
  · simp only [exec, hSet]
    simp only [h2, hgetNil_iff, hview, ho]
    simp only [HashEntry.set, GoRes.map, GoRes.bind]
    cases o with
    | none => simp [HashEntry.empty, hfind]
    | some e =>
      simp only [Option.bind, Option.getD_some]
      by_cases hw : hfind e.fields f = none
      · simp [hw]
      · simp [hw, Option.isSome_iff_ne_none]

/-- C30 for HMSet on a Go map of pairs. -/
theorem hfind_hMSetLoop_mem {fv : List (Bytes × Bytes)} (hm : IsMap fv) {h : HashEntry} {n : Int} {f v : Bytes}
    (hf : (f, v) ∈ fv) : hfind (hMSetLoop fv h n).1.fields f = some (tryInt64 v) := by
  induction fv generalizing h n with
  | nil => simp at hf
  | cons p fv ih =>
    obtain ⟨g, w⟩ := p
    have hm' : IsMap fv := by unfold IsMap at hm ⊢; simp at hm; exact hm.2
    have hg : g ∉ fv.map (·.1) := by unfold IsMap at hm; simp at hm; simpa using hm.1
    simp only [hMSetLoop]
    rcases List.mem_cons.1 hf with e | hf
    · cases e
      rw [hfind_hMSetLoop_other hg]; simp [HashEntry.set, hfind_hput]
    · exact ih hm' hf

theorem C30_hMSet_hGet (c : Cache) (hc : Reachable c) (k f v : Bytes) (fv : List (Bytes × Bytes)) (s t : Int)
    (h : History) (hm : IsMap fv) (hf : (f, v) ∈ fv) (hk : HashKey c s k)
    (hd : NotPassed c t k ∨ Stale c s k) (hw : NoFieldWrite k f h) (hu : Until t h) :
    hgetOut (run (exec c s (.hMSet k fv)).1 h) t k f = .str (.ok (canon v)) := by
  obtain ⟨o, ho, h1, h2⟩ := hview_after_withHash (f := f)
    (g := fun h => let (h', n) := hMSetLoop fv h 0; (h', (.ok n : Res Int))) hk hd
  rw [hgetOut_eq, hview_run (hc.inv.exec s _) h k f hw hu]
  have : hview (exec c s (.hMSet k fv)).1 t k f = .ok (some (tryInt64 v)) := by
    simp only [exec, hMSet]; rw [h1, hfind_hMSetLoop_mem hm hf]
  rw [this]; simp [GoRes.bind, fmtScalar_tryInt64]

/-- The canonical-text reading of C30 fails for HSetNX, which stores the raw text. -/
theorem C30_violated_hSetNX :
    outs Cache.new [(0, .hSetNX b!"k" b!"f" b!"007"), (1, .hGet b!"k" b!"f"), (2, .hSet b!"k" b!"f" b!"007"),
        (3, .hGet b!"k" b!"f")]
      = [.int (.ok 1), .str (.ok b!"007"), .int (.ok 0), .str (.ok b!"7")] := by
  decide +kernel

example : HashKey Cache.new 0 b!"k" ∧ HashKey (run Cache.new [(0, .hSet b!"k" b!"f" b!"v")]) 0 b!"k" ∧
    NoFieldWrite b!"k" b!"f" [(1, .hSet b!"k" b!"g" b!"x"), (2, .hDel b!"k" [b!"g"]), (3, .hExists b!"k" b!"f")] :=
  ⟨⟨none, rfl⟩, ⟨some { fields := [(b!"f", .str b!"v")], length := 1 }, by decide +kernel⟩,
    by simp [NoFieldWrite, Call.writesField]⟩

/-! ## C32 -/

/-- C32, full: HSetNX on a hash key stores exactly when HGet reports nil (then HGet shows `v`
byte for byte), and otherwise leaves everything HGet can show unchanged. -/
theorem C32_hSetNX (c : Cache) (hc : Reachable c) (k f v : Bytes) (s t : Int) (h : History)
    (hk : HashKey c s k) (hd : NotPassed c t k ∨ Stale c s k)
    (hw : NoFieldWrite k f h) (hu : Until t h) :
    (hgetOut c s k f = .str (.err .keyNil) →
      (exec c s (.hSetNX k f v)).2 = .int (.ok 1) ∧
      hgetOut (run (exec c s (.hSetNX k f v)).1 h) t k f = .str (.ok v)) ∧
    (hgetOut c s k f ≠ .str (.err .keyNil) →
      (exec c s (.hSetNX k f v)).2 = .int (.ok 0) ∧
      ∀ g, hview (exec c s (.hSetNX k f v)).1 s k g = hview c s k g) := by
  obtain ⟨o, ho, h1, h2⟩ := hview_after_withHash (f := f)
    (g := fun h => match hfind h.fields f with
      | some _ => (h, (.ok 0 : Res Int))
      | none => ({ fields := hput h.fields f (.str v), length := h.length + 1 }, .ok 1)) hk hd
  have hv : hview c s k f = .ok (hfind (o.getD HashEntry.empty).fields f) := by
    rw [hview, ho]; cases o <;> simp [GoRes.map, GoRes.bind, HashEntry.empty, hfind]
  rw [hgetOut_eq c s, hv]
  constructor
  · intro hn
    have hn' : hfind (o.getD HashEntry.empty).fields f = none := by
      revert hn; cases hfind (o.getD HashEntry.empty).fields f <;> simp [GoRes.bind]
    simp only [hn'] at h1 h2
    refine ⟨congrArg Out.int (show (c.hSetNX s k f v).2 = _ from h2), ?_⟩
    rw [hgetOut_eq, hview_run (hc.inv.exec s _) h k f hw hu]
    have : hview (exec c s (.hSetNX k f v)).1 t k f = .ok (some (.str v)) := by
      refine (show hview (exec c s (.hSetNX k f v)).1 t k f = _ from h1).trans ?_; simp [hfind_hput]
    rw [this]; simp [GoRes.bind, fmtScalar]
  · intro hn
    cases hf : hfind (o.getD HashEntry.empty).fields f with
    | none => rw [hf] at hn; exact absurd rfl hn
    | some w =>
      simp only [hf] at h1 h2
      refine ⟨congrArg Out.int (show (c.hSetNX s k f v).2 = _ from h2), fun g => ?_⟩
      simp only [exec, hSetNX]
      rw [withHash_fst, ho]
      simp only [hf]
      exact hview_update (Int.le_refl s) ho rfl

/-! ## C33 -/

/-- `HKeys` answer. -/
abbrev hkeysOut (c : Cache) (t : Int) (k : Bytes) : Out := (exec c t (.hKeys k)).2

theorem hkeysOut_eq (c : Cache) (t : Int) (k : Bytes) :
    hkeysOut c t k = .strs ((asHash (liveVal c t k)).bind (fun o => match o with
      | none => .panic
      | some h => .ok (h.fields.map (·.1)))) := by
  simp only [hkeysOut, exec, hKeys, readHash_snd]
  congr 2

theorem hdelete_count {fs : List (Bytes × Scalar)} (hn : (fs.map (·.1)).Nodup) {g : Bytes}
    (hg : hfind fs g ≠ none) (gs : List Bytes) :
    ((fs.map (·.1)).filter (· ∈ g :: gs)).length
      = ((hdelete fs g).map (·.1) |>.filter (· ∈ gs)).length + 1 := by
  induction fs with
  | nil => simp [hfind] at hg
  | cons p fs ih =>
    obtain ⟨j, w⟩ := p
    simp only [List.map_cons, List.nodup_cons] at hn
    by_cases e : j = g
    · subst e
      simp only [hdelete, if_true, List.map_cons, List.filter_cons]
      simp only [List.mem_cons, true_or, decide_true, if_true, List.length_cons]
      congr 1
      have : (fs.map (·.1)).filter (fun x => decide (x = j ∨ x ∈ gs)) = (fs.map (·.1)).filter (fun x => decide (x ∈ gs)) := by
        apply List.filter_congr
        intro x hx
        have : x ≠ j := by rintro rfl; exact hn.1 hx
        simp [this]
      rw [this]
    · have hg' : hfind fs g ≠ none := by simpa [hfind, e] using hg
      have := ih hn.2 hg'
      simp only [hdelete, if_neg e, List.map_cons, List.filter_cons]
      simp only [List.mem_cons, e, false_or] at this ⊢
      split <;> simp_all

theorem hDelLoop_count {fs : List (Bytes × Scalar)} (hn : (fs.map (·.1)).Nodup) (gs : List Bytes) (n : Int) :
    (hDelLoop gs fs n).2 = n + ((fs.map (·.1)).filter (· ∈ gs)).length := by
  induction gs generalizing fs n with
  | nil => simp only [hDelLoop]; rw [List.filter_eq_nil_iff.2 (by simp)]; simp
  | cons g gs ih =>
    simp only [hDelLoop]
    split
    · rename_i v hg
      rw [ih (hn.sublist ((hdelete_sublist fs g).map _)), hdelete_count hn (by rw [hg]; simp)]
      omega
    · rename_i hg
      rw [ih hn]
      congr 2
      have hg' := hfind_eq_none.1 hg
      rw [List.filter_congr]
      intro x hx
      have : x ≠ g := by rintro rfl; exact hg' hx
      simp [this]

/-- C33, full: on a hash, HDel answers how many of the listed fields (HKeys) were named, removes
exactly the named ones and keeps the others; on an absent key it answers 0. -/
theorem C33_hDel (c : Cache) (hc : Reachable c) (k : Bytes) (gs : List Bytes) (t : Int) :
    (∀ ks, hkeysOut c t k = .strs (.ok ks) →
      ks.Nodup ∧
      (exec c t (.hDel k gs)).2 = .int (.ok (ks.filter (· ∈ gs)).length) ∧
      (∀ f, f ∈ gs → hgetOut (exec c t (.hDel k gs)).1 t k f = .str (.err .keyNil)) ∧
      (∀ f, f ∉ gs → hgetOut (exec c t (.hDel k gs)).1 t k f = hgetOut c t k f)) ∧
    (liveVal c t k = none → (exec c t (.hDel k gs)).2 = .int (.ok 0)) := by
  constructor
  · intro ks hks
    rw [hkeysOut_eq] at hks
    cases ho : asHash (liveVal c t k) with
    | err e => rw [ho] at hks; simp [GoRes.bind] at hks
    | panic => rw [ho] at hks; simp [GoRes.bind] at hks
    | ok o =>
      cases o with
      | none => rw [ho] at hks; simp [GoRes.bind] at hks
      | some e =>
        rw [ho] at hks
        simp [GoRes.bind] at hks
        subst hks
        have hg := hc.inv.asHash ho
        simp only [Option.getD_some] at hg
        refine ⟨hg.nodup, ?_, ?_, ?_⟩
        · simp only [exec, hDel]
          rw [show c.getHash t k = ((c.getHash t k).1, (c.getHash t k).2) from rfl, getHash_snd, ho]
          simp only
          rw [hDelLoop_count hg.nodup]; simp
        · intro f hf
          rw [hgetOut_eq]
          have : hview (exec c t (.hDel k gs)).1 t k f = .ok none := by
            simp only [exec, hDel_fst, ho]
            rcases liveVal_store_load (c := c) (s := t) (t := t) (k := k)
              (v := .hash { fields := (hDelLoop gs e.fields 0).1, length := if (hDelLoop gs e.fields 0).2 ≠ 0 then e.length - (hDelLoop gs e.fields 0).2 else e.length }) (Int.le_refl t) with h1 | ⟨h1, _⟩
            · simp only [hview, h1, asHash, GoRes.map, GoRes.bind, Option.bind]
              rw [hfind_hDelLoop hg.nodup]; simp [hf]
            · exact hview_none_of_liveVal h1
          rw [this]; rfl
        · intro f hf
          rw [hgetOut_eq, hgetOut_eq, hview_exec hc.inv _ k f (by simp [Call.writesField, hf]) (Int.le_refl t)]
  · intro hn
    simp only [exec, hDel]
    rw [show c.getHash t k = ((c.getHash t k).1, (c.getHash t k).2) from rfl, getHash_snd, hn]
    rfl

example : hkeysOut (run Cache.new [(0, .hSet b!"k" b!"f" b!"v"), (0, .hSet b!"k" b!"g" b!"w")]) 1 b!"k"
    = .strs (.ok [b!"f", b!"g"]) := by decide +kernel

/-! ## C34, C35 -/

/-- C34 is false: the second HIncrBy answers 8 but the field then holds 3. -/
theorem C34_violated :
    outs Cache.new [(0, .hIncrBy b!"k" b!"f" 5), (0, .hIncrBy b!"k" b!"f" 3), (0, .hGet b!"k" b!"f")]
      = [.int (.ok 5), .int (.ok 8), .str (.ok b!"3")] := by
  decide +kernel

/-- C34, what holds: the *answer* is old + n (64-bit) for an integer field, and on an absent field
the answer and the stored value are n.  What is stored in the first case is n, not the sum. -/
theorem C34_hIncrBy_partial (c : Cache) (hc : Reachable c) (k f : Bytes) (n : Int64) (s t : Int) (h : History)
    (hk : HashKey c s k) (hd : NotPassed c t k ∨ Stale c s k)
    (hw : NoFieldWrite k f h) (hu : Until t h) :
    (∀ old : Int64, hview c s k f = .ok (some (.int old)) →
      (exec c s (.hIncrBy k f n)).2 = .int (.ok (old + n).toInt)) ∧
    (hgetOut c s k f = .str (.err .keyNil) → (exec c s (.hIncrBy k f n)).2 = .int (.ok n.toInt)) ∧
    ((hgetOut c s k f = .str (.err .keyNil) ∨ ∃ old : Int64, hview c s k f = .ok (some (.int old))) →
      hgetOut (run (exec c s (.hIncrBy k f n)).1 h) t k f = .str (.ok (itoa n))) := by
  obtain ⟨o, ho, h1, h2⟩ := hview_after_withHash (f := f)
    (g := fun h => match hfind h.fields f with
      | none => ((h.set f (itoa n)).1, (.ok n : Res Int64))
      | some v => match hIncrScalar n v with
        | .ok m => ((h.set f (itoa n)).1, .ok m)
        | r => (h, r)) hk hd
  have hv : hview c s k f = .ok (hfind (o.getD HashEntry.empty).fields f) := by
    rw [hview, ho]; cases o <;> simp [GoRes.map, GoRes.bind, HashEntry.empty, hfind]
  rw [hgetOut_eq c s, hv]
  refine ⟨?_, ?_, ?_⟩
  · intro old hold
    simp at hold
    simp only [hold, hIncrScalar] at h2
    show Out.int ((c.hIncrBy s k f n).2.map Int64.toInt) = _; rw [show (c.hIncrBy s k f n).2 = _ from h2]; rfl
  · intro hn
    have hn' : hfind (o.getD HashEntry.empty).fields f = none := by
      revert hn; cases hfind (o.getD HashEntry.empty).fields f <;> simp [GoRes.bind]
    simp only [hn'] at h2
    show Out.int ((c.hIncrBy s k f n).2.map Int64.toInt) = _; rw [show (c.hIncrBy s k f n).2 = _ from h2]; rfl
  · intro hor
    rw [hgetOut_eq, hview_run (hc.inv.exec s _) h k f hw hu]
    have : hview (exec c s (.hIncrBy k f n)).1 t k f = .ok (some (.int n)) := by
      refine (show hview (exec c s (.hIncrBy k f n)).1 t k f = _ from h1).trans ?_
      rcases hor with hn | ⟨old, hold⟩
      · have hn' : hfind (o.getD HashEntry.empty).fields f = none := by
          revert hn; cases hfind (o.getD HashEntry.empty).fields f <;> simp [GoRes.bind]
        simp [hn', HashEntry.set, hfind_hput, tryInt64, atoi_itoa]
      · simp at hold
        simp [hold, hIncrScalar, HashEntry.set, hfind_hput, tryInt64, atoi_itoa]
    rw [this]; simp [GoRes.bind, fmtScalar]

example : hview (run Cache.new [(0, .hSet b!"k" b!"f" b!"5")]) 1 b!"k" b!"f" = .ok (some (.int 5)) ∧
    hgetOut Cache.new 1 b!"k" b!"f" = .str (.err .keyNil) := by decide +kernel

/-- C35 is false: the answer is right once, but the increment is stored instead of the sum, and a
field holding a fraction is rejected. -/
theorem C35_violated :
    outs Cache.new [(0, .hSet b!"k" b!"f" b!"5"), (0, .hIncrByFloat b!"k" b!"f" (F64.ofInt 3)),
        (0, .hGet b!"k" b!"f"), (0, .hSet b!"k" b!"g" b!"1.5"), (0, .hIncrByFloat b!"k" b!"g" (F64.ofInt 1))]
      = [.int (.ok 1), .float (.ok (F64.ofInt 8)), .str (.ok b!"3"), .int (.ok 1), .float (.err .hashNotFloat)] := by
  decide +kernel

/-- C35, what holds: the answer is the float64 sum for an integer field; on an absent field the
answer is x and HGet then shows the canonical text of x's shortest text. -/
theorem C35_hIncrByFloat_partial (c : Cache) (hc : Reachable c) (k f : Bytes) (x : F64) (s t : Int) (h : History)
    (hk : HashKey c s k) (hd : NotPassed c t k ∨ Stale c s k)
    (hw : NoFieldWrite k f h) (hu : Until t h) :
    (∀ old : Int64, hview c s k f = .ok (some (.int old)) →
      (exec c s (.hIncrByFloat k f x)).2 = .float (.ok ((F64.ofInt old.toInt).add x))) ∧
    (hgetOut c s k f = .str (.err .keyNil) →
      (exec c s (.hIncrByFloat k f x)).2 = .float (.ok x) ∧
      hgetOut (run (exec c s (.hIncrByFloat k f x)).1 h) t k f = .str (.ok (canon (formatFloat x)))) := by
  obtain ⟨o, ho, h1, h2⟩ := hview_after_withHash (f := f)
    (g := fun h => match hfind h.fields f with
      | none => ((h.set f (formatFloat x)).1, (.ok x : Res F64))
      | some v => match hIncrFloatScalar x v with
        | .ok m => ((h.set f (formatFloat x)).1, .ok m)
        | r => (h, r)) hk hd
  have hv : hview c s k f = .ok (hfind (o.getD HashEntry.empty).fields f) := by
    rw [hview, ho]; cases o <;> simp [GoRes.map, GoRes.bind, HashEntry.empty, hfind]
  rw [hgetOut_eq c s, hv]
  refine ⟨?_, ?_⟩
  · intro old hold
    simp at hold
    simp only [hold, hIncrFloatScalar] at h2
    exact congrArg Out.float (show (c.hIncrByFloat s k f x).2 = _ from h2)
  · intro hn
    have hn' : hfind (o.getD HashEntry.empty).fields f = none := by
      revert hn; cases hfind (o.getD HashEntry.empty).fields f <;> simp [GoRes.bind]
    simp only [hn'] at h1 h2
    refine ⟨congrArg Out.float (show (c.hIncrByFloat s k f x).2 = _ from h2), ?_⟩
    rw [hgetOut_eq, hview_run (hc.inv.exec s _) h k f hw hu]
    have : hview (exec c s (.hIncrByFloat k f x)).1 t k f = .ok (some (tryInt64 (formatFloat x))) := by
      refine (show hview (exec c s (.hIncrByFloat k f x)).1 t k f = _ from h1).trans ?_; simp [HashEntry.set, hfind_hput]
    rw [this]; simp [GoRes.bind, fmtScalar_tryInt64]

/-! ## C36 -/


theorem hMSetLoop_count {fv : List (Bytes × Bytes)} (hm : IsMap fv) (h : HashEntry) (n : Int) :
    (hMSetLoop fv h n).2 = n + (fv.filter (fun p => (hfind h.fields p.1).isNone)).length ∧
    (hMSetLoop fv h n).1.length = h.length + (fv.filter (fun p => (hfind h.fields p.1).isNone)).length := by
  induction fv generalizing h n with
  | nil => simp [hMSetLoop]
  | cons p fv ih =>
    obtain ⟨g, w⟩ := p
    have hm' : IsMap fv := by unfold IsMap at hm ⊢; simp at hm; exact hm.2
    have hg : g ∉ fv.map (·.1) := by unfold IsMap at hm; simp at hm; simpa using hm.1
    simp only [hMSetLoop]
    obtain ⟨i1, i2⟩ := ih hm' (h.set g w).1 (n + (h.set g w).2)
    have hfil : fv.filter (fun p => (hfind (h.set g w).1.fields p.1).isNone)
        = fv.filter (fun p => (hfind h.fields p.1).isNone) := by
      apply List.filter_congr
      intro p hp
      rw [hfind_set_other]
      exact fun e => hg (List.mem_map.2 ⟨p, hp, e⟩)
    rw [i1, i2, hfil]
    simp only [HashEntry.set, List.filter_cons]
    cases hfind h.fields g <;> simp <;> omega

/-- C36, HMSet: for each named field HGet answers as after HSet of that pair, every other field is
unchanged, the answer is the number of named fields HGet reported nil for before; all of this for
every iteration order of the map. -/
theorem C36_hMSet (c : Cache) (hc : Reachable c) (k : Bytes) (fv : List (Bytes × Bytes)) (s t : Int)
    (hm : IsMap fv) (hk : HashKey c s k) (hd : NotPassed c t k ∨ Stale c s k) :
    (exec c s (.hMSet k fv)).2
      = .int (.ok (fv.filter (fun p => hgetOut c s k p.1 = .str (.err .keyNil))).length) ∧
    (s ≤ t → ∀ f v, (f, v) ∈ fv →
      hgetOut (exec c s (.hMSet k fv)).1 t k f = hgetOut (exec c s (.hSet k f v)).1 t k f) ∧
    (s ≤ t → ∀ f, f ∉ fv.map (·.1) → hgetOut (exec c s (.hMSet k fv)).1 t k f = hgetOut c t k f) := by
  refine ⟨?_, ?_, ?_⟩
  · obtain ⟨o, ho⟩ := hk
    simp only [exec, hMSet]
    rw [withHash_snd, ho]
    simp only [GoRes.bind]
    rw [(hMSetLoop_count hm _ 0).1]
    simp only [Int.zero_add]
    congr 4
    apply List.filter_congr
    intro p _
    simp only [hgetNil_iff, hview, ho]
    cases o with
    | none => simp [GoRes.map, GoRes.bind, HashEntry.empty, hfind]
    | some e =>
      simp only [GoRes.map, GoRes.bind, Option.bind, Option.getD_some]
      by_cases hw : hfind e.fields p.1 = none
      · simp [hw]
      · simp [hw, Option.isSome_iff_ne_none]
  · intro hst f v hf
    refine Eq.trans ?_ (C30_hSet_hGet c hc k f v s t [] hk hd (by simp [NoFieldWrite]) (by simp [Until])).1.symm
    exact C30_hMSet_hGet c hc k f v fv s t [] hm hf hk hd (by simp [NoFieldWrite]) (by simp [Until])
  · intro hst f hf
    rw [hgetOut_eq, hgetOut_eq, hview_exec hc.inv _ k f (by simp [Call.writesField]; simpa using hf) hst]

/-- C36: any two iteration orders give the same answer, the same HGet answers and the same HLen. -/
theorem C36_hMSet_any_order (c : Cache) (hc : Reachable c) (k : Bytes) (fv fv' : List (Bytes × Bytes)) (s t : Int)
    (hm : IsMap fv) (hp : fv.Perm fv') (hk : HashKey c s k) (hd : NotPassed c t k ∨ Stale c s k) (hst : s ≤ t) :
    (exec c s (.hMSet k fv)).2 = (exec c s (.hMSet k fv')).2 ∧
    (∀ f, hgetOut (exec c s (.hMSet k fv)).1 t k f = hgetOut (exec c s (.hMSet k fv')).1 t k f) ∧
    (exec (exec c s (.hMSet k fv)).1 t (.hLen k)).2 = (exec (exec c s (.hMSet k fv')).1 t (.hLen k)).2 := by
  have A := C36_hMSet c hc k fv s t hm hk hd
  have B := C36_hMSet c hc k fv' s t (hm.perm hp) hk hd
  refine ⟨by rw [A.1, B.1, (hp.filter _).length_eq], ?_, ?_⟩
  · intro f
    by_cases hf : f ∈ fv.map (·.1)
    · obtain ⟨⟨f', v⟩, h1, rfl⟩ := List.mem_map.1 hf
      rw [A.2.1 hst f' v h1, B.2.1 hst f' v (hp.mem_iff.1 h1)]
    · rw [A.2.2 hst f hf, B.2.2 hst f (fun h => hf ((hp.map _).mem_iff.2 h))]
  · obtain ⟨o, ho⟩ := hk
    simp only [exec, hLen, readHash_snd, hMSet, withHash_fst, ho]
    have hd1 : ∀ v, NotPassed ((c.load s k).1.store k v) t k := fun v => notPassed_load hd
    rw [liveVal_of_notPassed (hd1 _), liveVal_of_notPassed (hd1 _)]
    simp only [store, upd_same, asHash, GoRes.bind]
    rw [(hMSetLoop_count hm _ 0).2, (hMSetLoop_count (hm.perm hp) _ 0).2, (hp.filter _).length_eq]

/-- C36, HMGet: position by position what HGet answers (hash or absent key). -/
theorem C36_hMGet (c : Cache) (k : Bytes) (fs : List Bytes) (t : Int) (hk : HashKey c t k) :
    ∃ rs : List (Res Bytes), (exec c t (.hMGet k fs)).2 = .slots (.ok rs) ∧
      rs.map Out.str = fs.map (fun f => hgetOut c t k f) := by
  obtain ⟨o, ho⟩ := hk
  simp only [exec, hMGet, readHash_snd, ho, GoRes.bind]
  refine ⟨_, rfl, ?_⟩
  rw [List.map_map]
  apply List.map_congr_left
  intro f _
  rw [hgetOut_eq, hview, ho]
  cases o with
  | none => rfl
  | some e =>
    simp only [GoRes.map, GoRes.bind, Option.bind, Function.comp, HashEntry.get]
    cases hfind e.fields f <;> rfl

example : IsMap [(b!"f", b!"1"), (b!"g", b!"2")] ∧ HashKey Cache.new 0 b!"k" :=
  ⟨by unfold IsMap; decide, ⟨none, rfl⟩⟩

/-! ## C37 -/

/-- C37, HKeys (full): on a hash it lists every field HGet answers for, each exactly once. -/
theorem C37_hKeys (c : Cache) (hc : Reachable c) (k : Bytes) (t : Int) (e : HashEntry)
    (he : liveVal c t k = some (.hash e)) :
    ∃ ks, hkeysOut c t k = .strs (.ok ks) ∧ ks.Nodup ∧
      ∀ f, f ∈ ks ↔ ∃ v, hgetOut c t k f = .str (.ok v) := by
  have ho : asHash (liveVal c t k) = .ok (some e) := by rw [he]; rfl
  refine ⟨e.fields.map (·.1), by rw [hkeysOut_eq, ho]; rfl, (hc.inv.asHash ho).nodup, fun f => ?_⟩
  rw [hgetOut_eq, hview, ho]
  simp only [GoRes.map, GoRes.bind, Option.bind]
  have := hfind_eq_none (fs := e.fields) (f := f)
  cases h : hfind e.fields f with
  | none => rw [h] at this; simp at this ⊢; simpa using this
  | some v =>
    rw [h] at this
    have hm : f ∈ e.fields.map (·.1) := Classical.byContradiction (fun hh => by simp at this; simp at hh; obtain ⟨x, hx⟩ := this; exact hh x hx)
    simp only [hm, true_iff]
    exact ⟨_, rfl⟩

/-- C37 is false for HVals (numbers are dropped) and HGetAll (always empty). -/
theorem C37_violated :
    outs Cache.new [(0, .hSet b!"k" b!"f" b!"1"), (0, .hSet b!"k" b!"g" b!"x"), (1, .hKeys b!"k"),
        (1, .hVals b!"k"), (1, .hGetAll b!"k")]
      = [.int (.ok 1), .int (.ok 1), .strs (.ok [b!"f", b!"g"]), .strs (.ok [b!"x"]), .pairs (.ok [])] := by
  decide +kernel

/-- HGetAll never lists anything. -/
theorem C37_hGetAll_always_empty (c : Cache) (k : Bytes) (t : Int) (e : HashEntry)
    (he : liveVal c t k = some (.hash e)) : (exec c t (.hGetAll k)).2 = .pairs (.ok []) := by
  simp only [exec, hGetAll, readHash_snd, he, asHash, GoRes.bind]
  simp [fmtString]

/-- C37 for HVals on a hash whose fields all hold non-numeric text: one value per field, in HKeys'
order, each the HGet answer.  Missing: numeric fields, and HGetAll. -/
theorem C37_hVals_partial (c : Cache) (hc : Reachable c) (k : Bytes) (t : Int) (e : HashEntry)
    (he : liveVal c t k = some (.hash e)) (hs : ∀ p ∈ e.fields, ∃ s, p.2 = .str s) :
    ∃ ks vs, hkeysOut c t k = .strs (.ok ks) ∧ (exec c t (.hVals k)).2 = .strs (.ok vs) ∧
      vs.map (fun v => Out.str (.ok v)) = ks.map (fun f => hgetOut c t k f) := by
  have ho : asHash (liveVal c t k) = .ok (some e) := by rw [he]; rfl
  refine ⟨e.fields.map (·.1), e.fields.map (fun p => fmtScalar p.2), by rw [hkeysOut_eq, ho]; rfl, ?_, ?_⟩
  · simp only [exec, hVals, readHash_snd, ho, GoRes.bind]
    congr 2
    generalize e.fields = l at hs
    induction l with
    | nil => rfl
    | cons p l ih =>
      obtain ⟨s, h⟩ := hs p (by simp)
      rw [List.filterMap_cons, h]
      rw [List.map_cons, h, show fmtScalar (.str s) = s from rfl]
      simp only
      rw [ih (fun p hp => hs p (by simp [hp]))]
  · rw [List.map_map, List.map_map]
    apply List.map_congr_left
    intro p hp
    simp only [Function.comp]
    rw [hgetOut_eq, hview, ho]
    have hn := (hc.inv.asHash ho).nodup
    simp only [Option.getD_some] at hn
    have : hfind e.fields p.1 = some p.2 := by
      clear he ho hs hc
      revert hp hn
      generalize e.fields = l
      induction l with
      | nil => simp
      | cons q l ih =>
        intro hp hn
        simp only [List.map_cons, List.nodup_cons] at hn
        rcases List.mem_cons.1 hp with rfl | hp
        · simp [hfind]
        · have : q.1 ≠ p.1 := fun e => hn.1 (List.mem_map.2 ⟨p, hp, e.symm⟩)
          simp [hfind, this, ih hp hn.2]
    simp [GoRes.map, GoRes.bind, this]

example : ∃ e, liveVal (run Cache.new [(0, .hSet b!"k" b!"f" b!"v")]) 1 b!"k" = some (.hash e) ∧
    ∀ p ∈ e.fields, ∃ s, p.2 = .str s :=
  ⟨{ fields := [(b!"f", .str b!"v")], length := 1 }, by decide +kernel, by simp⟩

/-! ## C38 -/

/-- C38, full: HStrLen in terms of HGet at the same moment. -/
theorem C38_hStrLen (c : Cache) (k f : Bytes) (t : Int) :
    (exec c t (.hStrLen k f)).2 = match hgetOut c t k f with
      | .str (.ok s) => .int (.ok s.length)
      | .str (.err .keyNil) => .int (.ok 0)
      | .str (.err e) => .int (.err e)
      | _ => .panic := by
  rw [hgetOut_eq, hview]
  simp only [exec, hStrLen, readHash_snd]
  rcases hl : liveVal c t k with _ | (_ | e | _)
  · rfl
  · rfl
  · simp only [asHash, GoRes.map, GoRes.bind, Option.bind, HashEntry.get]
    cases hfind e.fields f <;> rfl
  · rfl

/-! ## C96 -/

/-- C96: HExists answers 1 exactly where HGet finds a value at the same moment, 0 exactly where it does
not, and fails exactly where HGet fails for another reason. -/
theorem C96_hExists (c : Cache) (k f : Bytes) (t : Int) :
    (exec c t (.hExists k f)).2 = match hgetOut c t k f with
      | .str (.ok _) => .int (.ok 1)
      | .str (.err .keyNil) => .int (.ok 0)
      | .str (.err e) => .int (.err e)
      | _ => .panic := by
  rw [hgetOut_eq, hview]
  simp only [exec, hExists, getHash]
  rw [← load_snd]
  generalize c.load t k = p
  obtain ⟨c', o⟩ := p
  rcases o with _ | (_ | e | _)
  · rfl
  · rfl
  · simp only [asHash, GoRes.map, GoRes.bind, Option.bind, HashEntry.get]
    obtain hx | ⟨s, hx⟩ : hfind e.fields f = none ∨ ∃ s, hfind e.fields f = some s := by
      cases hfind e.fields f <;> simp
    · simp [hx]
    · simp [hx]
  · rfl

example : outs Cache.new [(0, .hSet b!"k" b!"f" b!""), (1, .hExists b!"k" b!"f"), (2, .hExists b!"k" b!"g"), (3, .hExists b!"j" b!"f"),
      (4, .set b!"s" b!"x"), (5, .hExists b!"s" b!"f")]
    = [.int (.ok 1), .int (.ok 1), .int (.ok 0), .int (.ok 0), .str (.ok OK), .int (.err .wrongType)] := by
  decide +kernel

/-! ## C39 -/

/-- C39, full: a call that does not name field `f` (and does not replace the key as a whole) never
changes what HGet answers for `f`, now or later. -/
theorem C39_field_isolation (c : Cache) (hc : Reachable c) (k f : Bytes) (op : Call) (s t : Int)
    (hw : op.writesField k f = false) (hst : s ≤ t) :
    hgetOut (exec c s op).1 t k f = hgetOut c t k f := by
  rw [hgetOut_eq, hgetOut_eq, hview_exec hc.inv op k f hw hst]

example : (Call.hDel b!"k" [b!"a", b!"b"]).writesField b!"k" b!"f" = false ∧
    (Call.hMSet b!"k" [(b!"a", b!"1")]).writesField b!"k" b!"f" = false ∧
    (Call.hIncrBy b!"k" b!"a" 1).writesField b!"k" b!"f" = false := by decide

/-! ## C31 -/

/-- The stored counter of every hash is its number of fields. -/
def LenInv (c : Cache) : Prop := ∀ k e, c.data k = some (.hash e) → e.length = e.fields.length

/-- C31 is false: HExists lowers what HLen answers. -/
theorem C31_violated :
    outs Cache.new [(0, .hSet b!"k" b!"f" b!"v"), (1, .hExists b!"k" b!"f"), (2, .hLen b!"k"), (3, .hKeys b!"k")]
      = [.int (.ok 1), .int (.ok 1), .int (.ok 0), .strs (.ok [b!"f"])] := by
  decide +kernel

theorem LenInv.storeScalar {c : Cache} (h : LenInv c) (k : Bytes) (v : Scalar) : LenInv (c.store k (.scalar v)) := by
  intro j e hj
  by_cases ej : j = k
  · subst ej; simp [store] at hj
  · simp [store, ej] at hj; exact h j e hj

theorem LenInv.load {c : Cache} (h : LenInv c) (t : Int) (k : Bytes) : LenInv (c.load t k).1 := by
  rcases stale_dec c t k with hs | hs
  · rw [load_fst_of_stale hs]
    intro j e hj
    by_cases ej : j = k
    · subst ej; simp at hj
    · simp [ej] at hj; exact h j e hj
  · rw [load_fst_of_not_stale hs]; exact h

theorem LenInv.storeHash {c : Cache} (h : LenInv c) (k : Bytes) {e : HashEntry} (he : e.length = e.fields.length) :
    LenInv (c.store k (.hash e)) := by
  intro j e' hj
  by_cases ej : j = k
  · subst ej; simp [store] at hj; subst hj; exact he
  · simp [store, ej] at hj; exact h j e' hj

theorem LenInv.asHash {c : Cache} (h : LenInv c) {t : Int} {k : Bytes} {o : Option HashEntry}
    (ho : asHash (liveVal c t k) = .ok o) :
    (o.getD HashEntry.empty).length = (o.getD HashEntry.empty).fields.length := by
  cases hl : liveVal c t k with
  | none => rw [hl] at ho; simp [Verif.asHash] at ho; subst ho; rfl
  | some v =>
    rw [hl] at ho
    cases v <;> simp [Verif.asHash] at ho
    subst ho
    exact h k _ (data_of_live hl)

theorem hput_length (fs : List (Bytes × Scalar)) (f : Bytes) (v : Scalar) :
    (hput fs f v).length = fs.length + if (hfind fs f).isSome then 0 else 1 := by
  induction fs with
  | nil => simp [hput, hfind]
  | cons p fs ih =>
    obtain ⟨g, w⟩ := p
    by_cases e : g = f
    · simp [hput, hfind, e]
    · simp only [hput, hfind, if_neg e, List.length_cons, ih]; omega

theorem set_length {e : HashEntry} (he : e.length = e.fields.length) (f v : Bytes) :
    (e.set f v).1.length = (e.set f v).1.fields.length := by
  simp only [HashEntry.set, hput_length, he]
  split <;> simp

theorem hdelete_length {fs : List (Bytes × Scalar)} {f : Bytes} (h : hfind fs f ≠ none) :
    (hdelete fs f).length + 1 = fs.length := by
  induction fs with
  | nil => simp [hfind] at h
  | cons p fs ih =>
    obtain ⟨g, w⟩ := p
    by_cases e : g = f
    · simp [hdelete, e]
    · simp only [hfind, if_neg e] at h
      simp only [hdelete, if_neg e, List.length_cons, ih h]

theorem hDelLoop_length (gs : List Bytes) (fs : List (Bytes × Scalar)) (n : Int) :
    ((hDelLoop gs fs n).1.length : Int) + (hDelLoop gs fs n).2 = fs.length + n := by
  induction gs generalizing fs n with
  | nil => rfl
  | cons g gs ih =>
    simp only [hDelLoop]
    split
    · rename_i v hg
      rw [ih]; have := hdelete_length (f := g) (fs := fs) (by rw [hg]; simp); omega
    · exact ih _ _

theorem hMSetLoop_length (fv : List (Bytes × Bytes)) {e : HashEntry} (he : e.length = e.fields.length) (n : Int) :
    (hMSetLoop fv e n).1.length = (hMSetLoop fv e n).1.fields.length := by
  induction fv generalizing e n with
  | nil => exact he
  | cons p fv ih => obtain ⟨f, v⟩ := p; exact ih (set_length he f v) _

theorem LenInv.withHash {α : Type} {c : Cache} (h : LenInv c) (t : Int) (k : Bytes)
    (f : HashEntry → HashEntry × Res α)
    (hf : ∀ e : HashEntry, e.length = e.fields.length → (f e).1.length = (f e).1.fields.length) :
    LenInv (c.withHash t k f).1 := by
  rw [withHash_fst]
  split
  · rename_i o ho
    exact (h.load t k).storeHash k (hf _ (h.asHash ho))
  · exact h.load t k

theorem LenInv.exec {c : Cache} (h : LenInv c) (t : Int) (op : Call) (hx : ∀ k f, op ≠ .hExists k f) :
    LenInv (exec c t op).1 := by
  cases op with
  | hExists k f => exact absurd rfl (hx k f)
  | set k v => exact h.storeScalar k _
  | setNX k v => simp only [Verif.exec, setNX]; split <;> first | exact h | exact h.storeScalar k _
  | setEX k v n =>
    have := h.storeScalar k (tryInt64 v)
    simp only [Verif.exec, Cache.setEX, expires]; split <;> exact this
  | pSetEX k v n =>
    have := h.storeScalar k (tryInt64 v)
    simp only [Verif.exec, Cache.pSetEX, expires]; split <;> exact this
  | get j => simp only [Verif.exec, get_fst]; exact h.load t j
  | getSet j v => simp only [Verif.exec, getSet_fst]; exact (h.load t j).storeScalar j _
  | strLen j => simp only [Verif.exec, strLen_fst]; exact h.load t j
  | append j v =>
    simp only [Verif.exec, append_fst]
    split <;> (try split) <;> first | exact (h.load t j).storeScalar j _ | exact h.load t j
  | setRange j p r =>
    simp only [Verif.exec, setRange_fst]
    split
    · exact h
    · split <;> (try split) <;> (try split) <;> first | exact (h.load t j).storeScalar j _ | exact h.load t j
  | getRange j a b => simp only [Verif.exec, getRange_fst]; exact h.load t j
  | incr j =>
    simp only [Verif.exec, incr]
    rcases incrBy_fst_form c j 1 with e | ⟨v, e⟩ <;> rw [e] <;> first | exact h | exact h.storeScalar j v
  | incrBy j n =>
    simp only [Verif.exec]
    rcases incrBy_fst_form c j n with e | ⟨v, e⟩ <;> rw [e] <;> first | exact h | exact h.storeScalar j v
  | decr j =>
    simp only [Verif.exec, decr]
    rcases incrBy_fst_form c j (-1) with e | ⟨v, e⟩ <;> rw [e] <;> first | exact h | exact h.storeScalar j v
  | decrBy j n =>
    simp only [Verif.exec, decrBy]
    rcases incrBy_fst_form c j (-n) with e | ⟨v, e⟩ <;> rw [e] <;> first | exact h | exact h.storeScalar j v
  | incrByFloat j x =>
    simp only [Verif.exec]
    rcases incrByFloat_fst_form c j x with e | ⟨v, e⟩ <;> rw [e] <;> first | exact h | exact h.storeScalar j v
  | mSet kv =>
    simp only [Verif.exec, mSet]
    clear hx
    induction kv generalizing c with
    | nil => exact h
    | cons p kv ih => rw [List.foldl_cons]; exact ih (h.storeScalar p.1 _)
  | mSetNX kv =>
    simp only [Verif.exec, mSetNX]
    clear hx
    generalize (0 : Int) = n
    induction kv generalizing c n with
    | nil => exact h
    | cons p kv ih =>
      obtain ⟨j, v⟩ := p
      simp only [mSetNXLoop]
      split
      · exact ih h _
      · exact ih (h.storeScalar j _) _
  | mGet ks =>
    simp only [Verif.exec]
    clear hx
    induction ks generalizing c with
    | nil => exact h
    | cons j ks ih => rw [mGet_fst_cons]; exact ih (h.load t j)
  | exists_ ks => exact h
  | list j => exact h
  | del j =>
    have := h.load t j
    intro k e hk
    simp only [Verif.exec, del] at hk
    by_cases ek : k = j
    · subst ek; simp at hk
    · simp [ek] at hk; exact this k e hk
  | flush => intro k e hk; simp [Verif.exec, Cache.flush, Cache.new] at hk
  | type j => simp only [Verif.exec, type_fst]; exact h.load t j
  | hSet j f v => simp only [Verif.exec, hSet]; exact h.withHash t j _ (fun e he => set_length he f v)
  | hSetNX j f v =>
    simp only [Verif.exec, hSetNX]
    refine h.withHash t j _ (fun e he => ?_)
    split
    · exact he
    · rename_i hn; simp [hput_length, hn, he]
  | hIncrBy j f n =>
    simp only [Verif.exec, hIncrBy]
    refine h.withHash t j _ (fun e he => ?_)
    split
    · exact set_length he _ _
    · split
      · exact set_length he _ _
      · exact he
  | hIncrByFloat j f n =>
    simp only [Verif.exec, hIncrByFloat]
    refine h.withHash t j _ (fun e he => ?_)
    split
    · exact set_length he _ _
    · split
      · exact set_length he _ _
      · exact he
  | hMSet j fv =>
    simp only [Verif.exec, hMSet]
    exact h.withHash t j _ (fun e he => hMSetLoop_length fv he 0)
  | hDel j fs =>
    simp only [Verif.exec, hDel_fst]
    split
    · rename_i e he
      refine (h.load t j).storeHash j ?_
      have h1 := h.asHash he
      have h2 := hDelLoop_length fs e.fields 0
      simp only [Option.getD_some] at h1
      simp only
      split <;> omega
    · exact h.load t j
  | hLen j => simp only [Verif.exec, hLen, readHash_fst]; exact h.load t j
  | hStrLen j f => simp only [Verif.exec, hStrLen, readHash_fst]; exact h.load t j
  | hGet j f => simp only [Verif.exec, hGet, readHash_fst]; exact h.load t j
  | hMGet j fs => simp only [Verif.exec, hMGet, readHash_fst]; exact h.load t j
  | hKeys j => simp only [Verif.exec, hKeys, readHash_fst]; exact h.load t j
  | hVals j => simp only [Verif.exec, hVals, readHash_fst]; exact h.load t j
  | hGetAll j => simp only [Verif.exec, hGetAll, readHash_fst]; exact h.load t j
  | cronTick =>
    intro k e hk
    simp only [Verif.exec, cronTick] at hk
    cases hd : c.data k with
    | none => simp [hd] at hk
    | some w =>
      simp only [hd, cronEntry] at hk
      cases w <;> simp at hk <;> split at hk <;> simp_all
      exact h k _ hd

/-- C31 on every cache whose history contains no HExists: HLen is the number of fields HKeys
lists (and C37_hKeys says these are exactly the fields HGet answers for).
Missing: after HExists found a field the count is wrong. -/
theorem C31_hLen_partial (hist : History) (hx : ∀ p ∈ hist, ∀ k f, p.2 ≠ .hExists k f) (k : Bytes) (t : Int) :
    (∀ ks, hkeysOut (run Cache.new hist) t k = .strs (.ok ks) →
      (exec (run Cache.new hist) t (.hLen k)).2 = .int (.ok ks.length)) ∧
    (liveVal (run Cache.new hist) t k = none →
      (exec (run Cache.new hist) t (.hLen k)).2 = .int (.ok 0)) := by
  have inv : LenInv (run Cache.new hist) := by
    have : ∀ c, LenInv c → LenInv (run c hist) := by
      induction hist with
      | nil => exact fun c h => h
      | cons p hist ih =>
        obtain ⟨s, op⟩ := p
        exact fun c h => ih (fun p hp => hx p (by simp [hp])) _ (h.exec s op (hx (s, op) (by simp)))
    exact this _ (fun k e h => by simp [Cache.new] at h)
  constructor
  · intro ks hks
    rw [hkeysOut_eq] at hks
    simp only [exec, hLen, readHash_snd]
    cases ho : asHash (liveVal (run Cache.new hist) t k) with
    | err e => rw [ho] at hks; simp [GoRes.bind] at hks
    | panic => rw [ho] at hks; simp [GoRes.bind] at hks
    | ok o =>
      cases o with
      | none => rw [ho] at hks; simp [GoRes.bind] at hks
      | some e =>
        rw [ho] at hks
        simp [GoRes.bind] at hks
        subst hks
        have := inv.asHash ho
        simp only [Option.getD_some] at this
        simp [GoRes.bind, this]
  · intro hn
    simp [exec, hLen, readHash_snd, hn, asHash, GoRes.bind]

example : ∀ p ∈ [((0 : Int), Call.hSet b!"k" b!"f" b!"v"), (1, .hDel b!"k" [b!"f"])], ∀ k f, p.2 ≠ .hExists k f := by
  intro p hp k f; simp at hp; rcases hp with rfl | rfl <;> simp

end Verif

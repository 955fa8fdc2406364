import Verif.Cache.Congr
import Verif.Cache.Inv
import Verif.Cache.PropsSet
/-!
# C08–C14: SetNX, GetSet, reads, StrLen, Append, SetRange, GetRange
-/
namespace Verif
open Cache

/-- `Get` answers of a call outcome. -/
abbrev getOut (c : Cache) (t : Int) (k : Bytes) : Out := (exec c t (.get k)).2

theorem getOut_eq (c : Cache) (t : Int) (k : Bytes) : getOut c t k = .str (showVal (liveVal c t k)) := by
  simp [getOut, exec, get_snd]

theorem showVal_ne_nil_iff {o : Option Val} : showVal o = .err .keyNil ↔ o = none := by
  cases o with
  | none => simp [showVal]
  | some v => cases v <;> simp [showVal, fmtString]

/-! ## C08 -/

/-- C08 is false of the code: on a key whose deadline has passed `Get` would report nil, yet SetNX
returns 0 and stores nothing. -/
theorem C08_violated :
    ¬ ∀ c, Reachable c → ∀ (k v : Bytes) (t : Int), getOut c t k = .str (.err .keyNil) →
      (exec c t (.setNX k v)).2 = .int (.ok 1) := by
  intro h
  have := h (run Cache.new [(0, .pSetEX b!"k" b!"a" 1)]) ⟨_, rfl⟩ b!"k" b!"b" 2000000
    (by decide +kernel)
  revert this
  decide +kernel

/-- C08 on keys that are not expired-but-unswept: SetNX stores exactly when `Get` reports nil, and
then the value stays readable until the key is written; otherwise nothing changes.
Missing: keys whose deadline has passed and that no read has swept. -/
theorem C08_setNX_partial (c : Cache) (hc : Reachable c) (k v : Bytes) (t : Int)
    (hs : ¬ Stale c t k) :
    (getOut c t k = .str (.err .keyNil) →
      (exec c t (.setNX k v)).2 = .int (.ok 1) ∧
      ∀ (h : History) (t' : Int), NoWrite k h → Until t' h →
        getOut (run (exec c t (.setNX k v)).1 h) t' k = .str (.ok (canon v))) ∧
    (getOut c t k ≠ .str (.err .keyNil) →
      (exec c t (.setNX k v)).2 = .int (.ok 0) ∧ (exec c t (.setNX k v)).1 = c) := by
  rw [getOut_eq, liveVal_of_not_stale hs]
  constructor
  · intro h
    have hd : c.data k = none := showVal_ne_nil_iff.1 (by simpa using h)
    have he := hc.inv.exp_data k hd
    refine ⟨?_, ?_⟩
    · simp only [exec, setNX, hd]; decide
    · intro h t' hw hu
      rw [getOut_eq, liveVal_run_of_noWrite _ _ _ _ hw hu]
      simp [exec, setNX, hd, liveVal, store, he, showVal, fmtString, fmtScalar_tryInt64]
  · intro h
    cases hd : c.data k with
    | none => exact absurd (by simp [hd, showVal]) h
    | some w => simp only [exec, setNX, hd]; exact ⟨by decide, trivial⟩

example : ¬ Stale (run Cache.new [(0, .set b!"k" b!"v")]) 5 b!"k" ∧ ¬ Stale Cache.new 5 b!"k" := by
  constructor
  · rintro ⟨_, d, h, _⟩
    have e : (run Cache.new [(0, .set b!"k" b!"v")]).exp b!"k" = none := rfl
    rw [e] at h; cases h
  · rintro ⟨h, _⟩; exact h rfl

/-! ## C09 -/

/-- C09, first half, full: GetSet answers what Get would have answered. -/
theorem C09_getSet_returns_old (c : Cache) (k v : Bytes) (t : Int) :
    (exec c t (.getSet k v)).2 = getOut c t k := by
  simp only [getOut, exec]
  unfold Cache.getSet Cache.get
  generalize c.load t k = p
  obtain ⟨c', o⟩ := p
  cases o <;> rfl

/-- C09, second half: the new value is stored, and readable as long as the deadline in force (if
any) has not passed; on an expired key it is readable for ever. -/
theorem C09_getSet_stores (c : Cache) (k v : Bytes) (s t : Int) (h : History)
    (hd : NotPassed c t k ∨ Stale c s k) (hw : NoWrite k h) (hu : Until t h) :
    getOut (run (exec c s (.getSet k v)).1 h) t k = .str (.ok (canon v)) := by
  rw [getOut_eq, liveVal_run_of_noWrite _ _ _ _ hw hu]
  have e : (exec c s (.getSet k v)).1.data k = some (.scalar (tryInt64 v)) := data_of_assigns .getSet c s
  have : NotPassed (exec c s (.getSet k v)).1 t k := by
    simp only [exec, getSet_fst]
    by_cases hs : Stale c s k
    · rw [load_fst_of_stale hs]; intro d hd; simp [store] at hd
    · rcases hd with hd | hd
      · rw [load_fst_of_not_stale hs]; exact hd
      · exact absurd hd hs
  rw [liveVal_of_notPassed this, e]
  simp [showVal, fmtString, fmtScalar_tryInt64]

example : NotPassed Cache.new 3 b!"k" ∧ Stale (run Cache.new [(0, .pSetEX b!"k" b!"a" 1)]) 2000000 b!"k" := by
  refine ⟨by simp [NotPassed, Cache.new], by decide +kernel, 1000000, by decide +kernel, by decide⟩

/-- C09, last clause, is false: GetSet on a hash reports wrong type but has replaced the hash. -/
theorem C09_violated :
    ¬ ∀ c, Reachable c → ∀ (k v : Bytes) (t : Int), (exec c t (.getSet k v)).2 = .str (.err .wrongType) →
      ∀ h, outs (exec c t (.getSet k v)).1 h = outs c h := by
  intro h
  have := h (run Cache.new [(0, .hSet b!"k" b!"f" b!"v")]) ⟨_, rfl⟩ b!"k" b!"x" 1 (by decide +kernel)
    [(2, .get b!"k")]
  revert this
  decide +kernel

/-! ## C10 -/

/-- The read-only calls of the API. -/
def Call.reads : Call → Bool
  | .get _ | .strLen _ | .getRange _ _ _ | .mGet _ | .exists_ _ | .type _ | .hLen _
  | .hStrLen _ _ | .hGet _ _ | .hMGet _ _ | .hKeys _ | .hVals _ | .hGetAll _ => true
  | _ => false

/-- C10 is false: reading an expired key changes the result of a later SetNX, and HExists changes
the result of HLen. -/
theorem C10_violated :
    outs Cache.new [(0, .pSetEX b!"k" b!"a" 1), (2000000, .setNX b!"k" b!"b")]
      = [.str (.ok OK), .int (.ok 0)] ∧
    outs Cache.new [(0, .pSetEX b!"k" b!"a" 1), (2000000, .get b!"k"), (2000000, .setNX b!"k" b!"b")]
      = [.str (.ok OK), .str (.err .keyNil), .int (.ok 1)] ∧
    outs Cache.new [(0, .hSet b!"k" b!"f" b!"v"), (1, .hLen b!"k")] = [.int (.ok 1), .int (.ok 1)] ∧
    outs Cache.new [(0, .hSet b!"k" b!"f" b!"v"), (1, .hExists b!"k" b!"f"), (1, .hLen b!"k")]
      = [.int (.ok 1), .int (.ok 1), .int (.ok 0)] := by
  decide +kernel

theorem mGet_fst_of_not_stale {c : Cache} {t : Int} {ks : List Bytes} (h : ∀ k ∈ ks, ¬ Stale c t k) :
    (c.mGet t ks).1 = c := by
  induction ks with
  | nil => rfl
  | cons j ks ih =>
    rw [mGet_fst_cons, load_fst_of_not_stale (h j (by simp)), ih (fun k hk => h k (by simp [hk]))]

/-- C10 when no key named by the read is expired-but-unswept: the whole state, hence every later
outcome of every call, is the same.  (HExists is excluded: see `C10_violated`.) -/
theorem C10_reads_not_observable_partial (c : Cache) (t : Int) (op : Call) (hr : op.reads = true)
    (hs : ∀ ks, op.keys = some ks → ∀ k ∈ ks, ¬ Stale c t k) (h : History) :
    outs (exec c t op).1 h = outs c h := by
  have : (exec c t op).1 = c := by
    cases op with
    | mGet ks => exact mGet_fst_of_not_stale (hs ks rfl)
    | exists_ ks => rfl
    | get j => simp only [exec, get_fst]; exact load_fst_of_not_stale (hs [j] rfl j (by simp))
    | strLen j => simp only [exec, strLen_fst]; exact load_fst_of_not_stale (hs [j] rfl j (by simp))
    | getRange j a b =>
      simp only [exec, getRange_fst]; exact load_fst_of_not_stale (hs [j] rfl j (by simp))
    | type j => simp only [exec, type_fst]; exact load_fst_of_not_stale (hs [j] rfl j (by simp))
    | hLen j =>
      simp only [exec, hLen, readHash_fst]; exact load_fst_of_not_stale (hs [j] rfl j (by simp))
    | hStrLen j f =>
      simp only [exec, hStrLen, readHash_fst]; exact load_fst_of_not_stale (hs [j] rfl j (by simp))
    | hGet j f =>
      simp only [exec, hGet, readHash_fst]; exact load_fst_of_not_stale (hs [j] rfl j (by simp))
    | hMGet j fs =>
      simp only [exec, hMGet, readHash_fst]; exact load_fst_of_not_stale (hs [j] rfl j (by simp))
    | hKeys j =>
      simp only [exec, hKeys, readHash_fst]; exact load_fst_of_not_stale (hs [j] rfl j (by simp))
    | hVals j =>
      simp only [exec, hVals, readHash_fst]; exact load_fst_of_not_stale (hs [j] rfl j (by simp))
    | hGetAll j =>
      simp only [exec, hGetAll, readHash_fst]; exact load_fst_of_not_stale (hs [j] rfl j (by simp))
    | _ => simp [Call.reads] at hr
  rw [this]

/-- Outcomes of value reads depend only on what is visible. -/
theorem reads_of_liveVal {c d : Cache} {t : Int} (h : ∀ k, liveVal c t k = liveVal d t k) (op : Call)
    (hr : op.reads = true) (he : ∀ ks, op ≠ .exists_ ks) : (exec c t op).2 = (exec d t op).2 := by
  cases op with
  | exists_ ks => exact absurd rfl (he ks)
  | get j => simp only [exec, get_snd, h]
  | strLen j =>
    have := h j
    rw [← load_snd, ← load_snd] at this
    simp only [exec, strLen, loadLive]
    revert this
    generalize c.load t j = p; generalize d.load t j = q
    obtain ⟨_, o⟩ := p; obtain ⟨_, o'⟩ := q
    intro e; simp only at e; subst e; cases o <;> rfl
  | getRange j a b =>
    have := h j
    rw [← load_snd, ← load_snd] at this
    simp only [exec, getRange, loadLive]
    revert this
    generalize c.load t j = p; generalize d.load t j = q
    obtain ⟨_, o⟩ := p; obtain ⟨_, o'⟩ := q
    intro e; simp only at e; subst e; cases o <;> rfl
  | type j =>
    have := h j
    rw [← load_snd, ← load_snd] at this
    simp only [exec, Cache.type]
    revert this
    generalize c.load t j = p; generalize d.load t j = q
    obtain ⟨_, o⟩ := p; obtain ⟨_, o'⟩ := q
    intro e; simp only at e; subst e; cases o <;> rfl
  | mGet ks =>
    simp only [exec]
    have : (c.mGet t ks).2 = (d.mGet t ks).2 := by
      clear hr he
      induction ks generalizing c d with
      | nil => rfl
      | cons j ks ih =>
        simp only [mGet]
        rw [get_snd, get_snd, h j]
        congr 1
        refine ih (fun k => ?_)
        rw [get_fst, get_fst, liveVal_load _ _ _ (Int.le_refl t), liveVal_load _ _ _ (Int.le_refl t), h k]
    rw [this]
  | hLen j => simp only [exec, hLen, readHash_snd, h]
  | hStrLen j f => simp only [exec, hStrLen, readHash_snd, h]
  | hGet j f => simp only [exec, hGet, readHash_snd, h]
  | hMGet j fs => simp only [exec, hMGet, readHash_snd, h]
  | hKeys j => simp only [exec, hKeys, readHash_snd, h]
  | hVals j => simp only [exec, hVals, readHash_snd, h]
  | hGetAll j => simp only [exec, hGetAll, readHash_snd, h]
  | _ => simp [Call.reads] at hr

/-- C10 for later value reads, with no condition on deadlines: any history of read-only calls
leaves the answer of every later read (except Exists) unchanged. -/
theorem C10_reads_invisible_to_reads_partial (c : Cache) (h : History) (t : Int) (op : Call)
    (hh : ∀ p ∈ h, p.2.reads = true) (hu : Until t h) (hr : op.reads = true)
    (he : ∀ ks, op ≠ .exists_ ks) : (exec (run c h) t op).2 = (exec c t op).2 := by
  refine reads_of_liveVal (fun k => ?_) op hr he
  refine liveVal_run_of_noWrite c t h k (fun p hp => ?_) hu
  have := hh p hp
  cases hop : p.2 <;> simp [hop, Call.reads] at this <;> rfl

example : (Call.mGet [b!"a"]).reads = true ∧
    (∀ p ∈ [((1 : Int), Call.get b!"a"), (2, .hGet b!"h" b!"f")], p.2.reads = true) ∧
    Until 3 [((1 : Int), Call.get b!"a"), (2, .hGet b!"h" b!"f")] := by simp [Call.reads, Until]

/-! ## C11 -/

/-- C11, full: StrLen in terms of Get at the same moment. -/
theorem C11_strLen (c : Cache) (k : Bytes) (t : Int) :
    (exec c t (.strLen k)).2 = match getOut c t k with
      | .str (.ok s) => .int (.ok s.length)
      | .str (.err .keyNil) => .int (.ok 0)
      | .str (.err e) => .int (.err e)
      | _ => .panic := by
  rw [getOut_eq]
  simp only [exec, strLen, loadLive]
  rw [← load_snd]
  generalize c.load t k = p
  obtain ⟨c', o⟩ := p
  rcases o with _ | (_ | _ | _) <;> rfl

example : (exec (run Cache.new [(0, .set b!"k" b!"hello")]) 1 (.strLen b!"k")).2 = .int (.ok 5) := by
  decide +kernel

/-! ## C12 -/

/-- The text a string call sees: empty for an absent key. -/
def textAt (c : Cache) (t : Int) (k : Bytes) : Res Bytes :=
  match getOut c t k with
  | .str (.err .keyNil) => .ok []
  | .str r => r
  | _ => .panic

theorem textAt_eq (c : Cache) (t : Int) (k : Bytes) :
    textAt c t k = match liveVal c t k with
      | none => .ok []
      | some v => fmtString v := by
  unfold textAt
  rw [getOut_eq]
  rcases liveVal c t k with _ | (_ | _ | _) <;> rfl

/-- The deadline `k` carries after a read at `s` (a passed one is dropped). -/
theorem notPassed_load {c : Cache} {s t : Int} {k : Bytes} (h : NotPassed c t k ∨ Stale c s k) :
    NotPassed (c.load s k).1 t k := by
  by_cases hs : Stale c s k
  · rw [load_fst_of_stale hs]; intro d hd; simp at hd
  · rw [load_fst_of_not_stale hs]
    rcases h with h | h
    · exact h
    · exact absurd h hs

theorem append_data {c : Cache} {k x s : Bytes} {t0 : Int} (h : textAt c t0 k = .ok s) :
    (exec c t0 (.append k x)).1 = (c.load t0 k).1.store k (.scalar (tryInt64 (s ++ x))) ∧
    (exec c t0 (.append k x)).2 = .int (.ok (s ++ x).length) := by
  rw [textAt_eq] at h
  simp only [exec, append, loadLive]
  rw [← load_snd] at h
  revert h
  generalize c.load t0 k = p
  obtain ⟨c', o⟩ := p
  cases o with
  | none => intro h; simp at h; subst h; exact ⟨rfl, rfl⟩
  | some v => intro h; simp only at h; simp only [h]; exact ⟨trivial, trivial⟩

/-- C12: the returned length is the length of the concatenation, and Get then shows the canonical
text of the concatenation. -/
theorem C12_append_canon (c : Cache) (k x s : Bytes) (t0 t : Int) (h : History)
    (hs : textAt c t0 k = .ok s) (hd : NotPassed c t k ∨ Stale c t0 k)
    (hw : NoWrite k h) (hu : Until t h) :
    (exec c t0 (.append k x)).2 = .int (.ok (s ++ x).length) ∧
    getOut (run (exec c t0 (.append k x)).1 h) t k = .str (.ok (canon (s ++ x))) := by
  have := append_data (x := x) hs
  refine ⟨this.2, ?_⟩
  rw [getOut_eq, liveVal_run_of_noWrite _ _ _ _ hw hu, this.1,
    liveVal_of_notPassed (show NotPassed ((c.load t0 k).1.store k _) t k from notPassed_load hd)]
  simp [store, showVal, fmtString, fmtScalar_tryInt64]

/-- C12 where the concatenation is stored verbatim.  Missing: concatenations that read as
non-canonical numbers. -/
theorem C12_append_partial (c : Cache) (k x s : Bytes) (t0 t : Int) (h : History)
    (hs : textAt c t0 k = .ok s) (hd : NotPassed c t k ∨ Stale c t0 k) (hv : Verbatim (s ++ x))
    (hw : NoWrite k h) (hu : Until t h) :
    ∃ r, getOut (run (exec c t0 (.append k x)).1 h) t k = .str (.ok r) ∧ r = s ++ x ∧
      (exec c t0 (.append k x)).2 = .int (.ok r.length) := by
  have := C12_append_canon c k x s t0 t h hs hd hw hu
  exact ⟨s ++ x, by rw [this.2, canon_of_verbatim hv], rfl, this.1⟩

example : textAt (run Cache.new [(0, .set b!"k" b!"12")]) 1 b!"k" = .ok b!"12" ∧
    Verbatim (b!"12" ++ b!"3") ∧ textAt Cache.new 1 b!"k" = .ok [] :=
  ⟨by decide +kernel, .inr ⟨123, by decide +kernel⟩, by decide +kernel⟩

/-- C12 is false: appending ".0" to "1" returns 3, but Get then shows "1". -/
theorem C12_violated :
    outs Cache.new [(0, .set b!"k" b!"1"), (0, .append b!"k" b!".0"), (0, .get b!"k")]
      = [.str (.ok OK), .int (.ok 3), .str (.ok b!"1")] := by
  decide +kernel

/-! ## C13 -/

/-- `new` is `old` with `r` written at `pos`, zero-padded if `pos` is past the end. -/
structure IsOverwrite (old : Bytes) (pos : Nat) (r new : Bytes) : Prop where
  length : new.length = max old.length (pos + r.length)
  inside : ∀ i, i < r.length → new[pos + i]? = r[i]?
  before : ∀ i, i < old.length → (i < pos ∨ pos + r.length ≤ i) → new[i]? = old[i]?
  gap : ∀ i, old.length ≤ i → i < pos → new[i]? = some 0

theorem padLoop_eq (n : Nat) (s : Bytes) : padLoop n s = s ++ List.replicate n 0 := by
  induction n generalizing s with
  | zero => simp [padLoop]
  | succ n ih => simp [padLoop, ih, List.replicate_succ]

theorem writeLoop_spec (p : Nat) (r s : Bytes) (hp : p ≤ s.length) :
    (writeLoop p r s).length = max s.length (p + r.length) ∧
    (∀ i, i < r.length → (writeLoop p r s)[p + i]? = r[i]?) ∧
    (∀ i, i < s.length → (i < p ∨ p + r.length ≤ i) → (writeLoop p r s)[i]? = s[i]?) := by
  induction r generalizing p s with
  | nil => refine ⟨by simp [writeLoop]; omega, by simp, by simp [writeLoop]⟩
  | cons b r ih =>
    simp only [writeLoop]
    generalize hs' : (if p < s.length then s.set p b else s ++ [b]) = s'
    have hl : s'.length = max s.length (p + 1) := by
      subst hs'; split <;> simp <;> omega
    have hb : s'[p]? = some b := by
      subst hs'; split
      · simp [*]
      · have : p = s.length := by omega
        subst this; simp
    have ho : ∀ i, i < s.length → i ≠ p → s'[i]? = s[i]? := by
      intro i hi hne
      subst hs'; split
      · rw [List.getElem?_set_ne (by omega)]
      · rw [List.getElem?_append_left hi]
    obtain ⟨h1, h2, h3⟩ := ih (p + 1) s' (by omega)
    refine ⟨by rw [h1, hl]; simp; omega, ?_, ?_⟩
    · intro i hi
      cases i with
      | zero =>
        have e := h3 p (by omega) (by omega)
        rw [hb] at e; simpa using e
      | succ i =>
        have := h2 i (by simp at hi; omega)
        rw [show p + (i + 1) = p + 1 + i by omega, this]; simp
    · intro i hi hor
      simp at hor
      rw [h3 i (by omega) (by omega), ho i hi (by omega)]

theorem setRange_isOverwrite (p : Nat) (old r : Bytes) :
    IsOverwrite old p r (writeLoop p r (padLoop (p - old.length) old)) := by
  have hl : (padLoop (p - old.length) old).length = max old.length p := by
    rw [padLoop_eq]; simp; omega
  obtain ⟨h1, h2, h3⟩ := writeLoop_spec p r (padLoop (p - old.length) old) (by omega)
  refine ⟨by rw [h1, hl]; omega, h2, ?_, ?_⟩
  · intro i hi hor
    rw [h3 i (by omega) hor, padLoop_eq, List.getElem?_append_left hi]
  · intro i hi hip
    rw [h3 i (by omega) (.inl hip), padLoop_eq, List.getElem?_append_right hi, List.getElem?_replicate,
      if_pos (by omega)]

theorem replicate_isOverwrite (p : Nat) (r : Bytes) :
    IsOverwrite [] p r (List.replicate p 0 ++ r) := by
  refine ⟨by simp, ?_, by simp, ?_⟩
  · intro i hi; rw [List.getElem?_append_right (by simp)]; simp
  · intro i _ hip; rw [List.getElem?_append_left (by simpa using hip)]; simp [hip]

/-- C13: the new content is the overwritten text (in canonical form), the returned number is its
length. -/
theorem C13_setRange_canon (c : Cache) (k r s : Bytes) (pos : Int64) (t0 t : Int) (h : History)
    (hp : 0 ≤ pos.toInt) (hm : pos.toInt ≤ maxAlloc) (hs : textAt c t0 k = .ok s) (hd : NotPassed c t k ∨ Stale c t0 k)
    (hw : NoWrite k h) (hu : Until t h) :
    ∃ new, IsOverwrite s pos.toInt.toNat r new ∧
      (exec c t0 (.setRange k pos r)).2 = .int (.ok new.length) ∧
      getOut (run (exec c t0 (.setRange k pos r)).1 h) t k = .str (.ok (canon new)) := by
  have key : ∃ new, IsOverwrite s pos.toInt.toNat r new ∧
      exec c t0 (.setRange k pos r) =
        ((c.load t0 k).1.store k (.scalar (tryInt64 new)), .int (.ok new.length)) := by
    rw [textAt_eq] at hs
    simp only [exec, setRange, loadLive, if_neg (show ¬ pos.toInt < 0 by omega),
      if_neg (show ¬ maxAlloc < pos.toInt by omega)]
    rw [← load_snd] at hs
    revert hs
    generalize c.load t0 k = p
    obtain ⟨c', o⟩ := p
    cases o with
    | none => intro hs; simp at hs; subst hs; exact ⟨_, replicate_isOverwrite _ _, rfl⟩
    | some v =>
      intro hs; simp only at hs; simp only [hs]
      exact ⟨_, setRange_isOverwrite _ _ _, rfl⟩
  obtain ⟨new, h1, h2⟩ := key
  refine ⟨new, h1, by rw [h2], ?_⟩
  rw [getOut_eq, liveVal_run_of_noWrite _ _ _ _ hw hu, h2,
    liveVal_of_notPassed (show NotPassed ((c.load t0 k).1.store k _) t k from notPassed_load hd)]
  simp [store, showVal, fmtString, fmtScalar_tryInt64]

/-- An overwrite is determined by its specification. -/
theorem IsOverwrite.unique {old r a b : Bytes} {p : Nat} (ha : IsOverwrite old p r a)
    (hb : IsOverwrite old p r b) : a = b := by
  apply List.ext_getElem?
  intro i
  by_cases h1 : p ≤ i ∧ i < p + r.length
  · have e : i = p + (i - p) := by omega
    rw [e, ha.inside _ (by omega), hb.inside _ (by omega)]
  · by_cases h2 : i < old.length
    · rw [ha.before i h2 (by omega), hb.before i h2 (by omega)]
    · by_cases h3 : i < p
      · rw [ha.gap i (by omega) h3, hb.gap i (by omega) h3]
      · rw [List.getElem?_eq_none (by rw [ha.length]; omega), List.getElem?_eq_none (by rw [hb.length]; omega)]

/-- C13 where the result is stored verbatim.  Missing: results that read as non-canonical numbers, and
positions no slice can reach. -/
theorem C13_setRange_partial (c : Cache) (k r s new : Bytes) (pos : Int64) (t0 t : Int) (h : History)
    (hp : 0 ≤ pos.toInt) (hm : pos.toInt ≤ maxAlloc) (hs : textAt c t0 k = .ok s) (hd : NotPassed c t k ∨ Stale c t0 k)
    (hn : IsOverwrite s pos.toInt.toNat r new) (hv : Verbatim new)
    (hw : NoWrite k h) (hu : Until t h) :
    (exec c t0 (.setRange k pos r)).2 = .int (.ok new.length) ∧
      getOut (run (exec c t0 (.setRange k pos r)).1 h) t k = .str (.ok new) := by
  obtain ⟨new', h1, h2, h3⟩ := C13_setRange_canon c k r s pos t0 t h hp hm hs hd hw hu
  have := h1.unique hn
  subst this
  exact ⟨h2, by rw [h3, canon_of_verbatim hv]⟩

example : IsOverwrite b!"hello" 7 b!"ab" (b!"hello" ++ [0, 0] ++ b!"ab") ∧
    Verbatim (b!"hello" ++ [0, 0] ++ b!"ab") ∧
    textAt (run Cache.new [(0, .set b!"k" b!"hello")]) 1 b!"k" = .ok b!"hello" :=
  ⟨setRange_isOverwrite 7 b!"hello" b!"ab", .inl ⟨by decide +kernel, by decide +kernel⟩, by decide +kernel⟩

/-- C13: a negative position is rejected without effect. -/
theorem C13_setRange_negative (c : Cache) (k r : Bytes) (pos : Int64) (t : Int) (hp : pos.toInt < 0) :
    (exec c t (.setRange k pos r)).2 = .int (.err .offsetOutOfRange) ∧
      (exec c t (.setRange k pos r)).1 = c := by
  simp [exec, setRange, hp]

example : (-1 : Int64).toInt < 0 := by decide

/-- C13 is false as stated: writing "0" over the first byte of "17" returns 2 but leaves "7". -/
theorem C13_violated :
    outs Cache.new [(0, .set b!"k" b!"17"), (0, .setRange b!"k" 0 b!"0"), (0, .get b!"k")]
      = [.str (.ok OK), .int (.ok 2), .str (.ok b!"7")] := by
  decide +kernel

/-- C13 is false for every position beyond the largest slice: the call panics, whatever the string held. -/
theorem C13_violated_huge (c : Cache) (k r s : Bytes) (pos : Int64) (t : Int) (hm : maxAlloc < pos.toInt)
    (hs : textAt c t k = .ok s) :
    (exec c t (.setRange k pos r)).2 = .int .panic ∧ ∀ j, getOut (exec c t (.setRange k pos r)).1 t j = getOut c t j := by
  have hp : ¬ pos.toInt < 0 := by simp only [maxAlloc] at hm; omega
  have key : exec c t (.setRange k pos r) = ((c.load t k).1, .int .panic) := by
    rw [textAt_eq] at hs
    simp only [exec, setRange, loadLive, if_neg hp, if_pos hm]
    rw [← load_snd] at hs
    revert hs
    generalize c.load t k = p
    obtain ⟨c', o⟩ := p
    cases o with
    | none => intro _; rfl
    | some v => intro hs; simp only at hs; simp only [hs]
  rw [key]
  refine ⟨rfl, fun j => ?_⟩
  rw [getOut_eq, getOut_eq, liveVal_load _ _ _ (Int.le_refl t)]

example : maxAlloc < (2 ^ 60 : Int64).toInt ∧ textAt Cache.new 0 b!"k" = .ok [] := ⟨by decide +kernel, by decide +kernel⟩

/-! ## C14 -/

/-- The specification: bytes at the indexes `i` with `a ≤ i ≤ b`, in order. -/
def bytesBetween (s : Bytes) (a b : Int) : Bytes :=
  ((List.range s.length).filter (fun i : Nat => a ≤ (i : Int) ∧ (i : Int) ≤ b)).filterMap (fun i => s[i]?)

/-- Negative indexes count from the end. -/
def fromEnd (n : Nat) (i : Int) : Int := if i < 0 then n + i else i

theorem rangeLoop_eq (s : Bytes) (n : Nat) (a : Int) :
    rangeLoop s n a = (s.drop a.toNat).take (n - (if a < 0 then a.natAbs else 0)) := by
  induction n generalizing a with
  | zero => simp [rangeLoop]
  | succ n ih =>
    simp only [rangeLoop]
    split
    · rename_i h
      rw [ih]
      have e1 : a.toNat = 0 := by omega
      have e2 : (a + 1).toNat = 0 := by omega
      rw [e1, e2]
      congr 1
      split <;> omega
    · rename_i h
      split
      · rename_i h2
        rw [ih, if_neg (by omega), List.drop_eq_getElem_cons h2]
        have : (a + 1).toNat = a.toNat + 1 := by omega
        rw [this]; rfl
      · rename_i h2
        rw [List.drop_of_length_le (by omega)]; simp

theorem bytesBetween_eq (s : Bytes) (a b : Int) :
    bytesBetween s a b = (s.drop a.toNat).take (b + 1 - max a 0).toNat := by
  unfold bytesBetween
  induction s generalizing a b with
  | nil => simp
  | cons x s ih =>
    rw [List.length_cons, List.range_succ_eq_map, List.filter_cons]
    have shift : (List.filterMap (fun i : Nat => (x :: s)[i]?)
        ((List.map Nat.succ (List.range s.length)).filter (fun i : Nat => decide (a ≤ (i : Int) ∧ (i : Int) ≤ b)))) =
        (s.drop (a - 1).toNat).take (b - 1 + 1 - max (a - 1) 0).toNat := by
      rw [← ih (a - 1) (b - 1), List.filter_map, List.filterMap_map]
      have e : ((fun i : Nat => decide (a ≤ (i : Int) ∧ (i : Int) ≤ b)) ∘ Nat.succ)
          = fun i : Nat => decide (a - 1 ≤ (i : Int) ∧ (i : Int) ≤ b - 1) := by
        funext i; simp only [Function.comp]; congr 1
        apply propext; constructor <;> intro h <;> omega
      rw [e]
      congr 1
    by_cases h0 : a ≤ 0 ∧ 0 ≤ b
    · rw [if_pos (by simpa using h0), List.filterMap_cons]
      simp only [List.getElem?_cons_zero]
      rw [shift]
      have e1 : (a - 1).toNat = 0 := by omega
      have e2 : a.toNat = 0 := by omega
      have e3 : (b + 1 - max a 0).toNat = (b - 1 + 1 - max (a - 1) 0).toNat + 1 := by omega
      rw [e1, e2, e3]; simp
    · rw [if_neg (by simpa using h0), shift]
      by_cases ha : a ≤ 0
      · have e3 : (b + 1 - max a 0).toNat = 0 := by omega
        have e4 : (b - 1 + 1 - max (a - 1) 0).toNat = 0 := by omega
        rw [e3, e4]; simp
      · have e1 : a.toNat = (a - 1).toNat + 1 := by omega
        have e2 : (b + 1 - max a 0).toNat = (b - 1 + 1 - max (a - 1) 0).toNat := by omega
        rw [e1, e2]; rfl

theorem subRange_spec (s : Bytes) (a b : Int64) :
    subRange s a b = bytesBetween s (fromEnd s.length a.toInt) (fromEnd s.length b.toInt) := by
  unfold subRange
  simp only [fromEnd]
  generalize (if a.toInt < 0 then (s.length : Int) + a.toInt else a.toInt) = x
  generalize (if b.toInt < 0 then (s.length : Int) + b.toInt else b.toInt) = y
  rw [rangeLoop_eq, bytesBetween_eq]
  congr 1
  split <;> omega

/-- C14, full: GetRange returns exactly the bytes between the two (end-relative when negative)
indexes of what Get shows; nothing for an absent key; wrong type exactly when Get says so. -/
theorem C14_getRange (c : Cache) (k : Bytes) (a b : Int64) (t : Int) :
    (exec c t (.getRange k a b)).2 = match textAt c t k with
      | .ok s => .str (.ok (bytesBetween s (fromEnd s.length a.toInt) (fromEnd s.length b.toInt)))
      | .err e => .str (.err e)
      | .panic => .panic := by
  rw [textAt_eq, ← load_snd]
  simp only [exec, getRange, loadLive]
  generalize c.load t k = p
  obtain ⟨c', o⟩ := p
  rcases o with _ | (_ | _ | _)
  · simp [bytesBetween]
  · simp [fmtString, GoRes.map, GoRes.bind, subRange_spec]
  · rfl
  · rfl

example : (exec (run Cache.new [(0, .set b!"k" b!"hello")]) 1 (.getRange b!"k" (-4) (-2))).2
    = .str (.ok b!"ell") ∧ bytesBetween b!"hello" (fromEnd 5 (-4)) (fromEnd 5 (-2)) = b!"ell" := by
  decide +kernel

end Verif

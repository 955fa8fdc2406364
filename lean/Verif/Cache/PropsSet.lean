import Verif.Cache.Congr
/-!
# C01, C03–C07: Set/Get, last write wins, isolation, deadlines

Statements use `exec`/`run`/`outs` (API calls and their observable outcomes) and the vocabulary
of `Spec.lean`.
-/
namespace Verif
open Cache

/-! ## C01 -/

/-- C01 is false of the code: numeric text is re-rendered, and a left-over deadline survives. -/
theorem C01_violated :
    ¬ ∀ c, Reachable c → ∀ (k v : Bytes) (t : Int),
      (exec (exec c t (.set k v)).1 t (.get k)).2 = .str (.ok v) := by
  intro h
  have := h Cache.new ⟨[], rfl⟩ b!"k" b!"007" 0
  revert this
  decide +kernel

/-- C01 also fails for plain text on a key whose deadline has passed: `Set` reports OK and the
next `Get` reports nil. -/
theorem C01_violated_by_stale_deadline :
    outs Cache.new [(0, .pSetEX b!"k" b!"a" 1), (2000000, .set b!"k" b!"b"), (2000000, .get b!"k")]
      = [.str (.ok OK), .str (.ok OK), .str (.err .keyNil)] := by
  decide +kernel

/-- C01 on the region where it holds.  Missing for the full claim: numeric literals that are not
canonical integers, and keys with a passed deadline. -/
theorem C01_get_set_partial (c : Cache) (k v : Bytes) (s t : Int) (h : History)
    (hv : Verbatim v) (hd : NotPassed c t k) (hw : NoWrite k h) (hu : Until t h) :
    (exec (run (exec c s (.set k v)).1 h) t (.get k)).2 = .str (.ok v) := by
  simp only [exec, get_snd]
  rw [liveVal_run_of_noWrite _ _ _ _ hw hu,
    liveVal_of_notPassed (show NotPassed (c.set k v).1 t k from hd)]
  simp [Cache.set, store, showVal, fmtString, fmtScalar_tryInt64, canon_of_verbatim hv]

example : Verbatim b!"hello" ∧ Verbatim b!"-12" ∧ NotPassed Cache.new 5 b!"k" ∧
    NoWrite b!"k" [(1, .get b!"k"), (2, .set b!"j" b!"x"), (3, .mGet [b!"k", b!"j"])] ∧
    Until 5 [(1, .get b!"k"), (2, .set b!"j" b!"x"), (3, .mGet [b!"k", b!"j"])] :=
  ⟨.inl ⟨by decide +kernel, by decide +kernel⟩, .inr ⟨-12, by decide +kernel⟩,
    by simp [NotPassed, Cache.new], by simp [NoWrite, Call.writes], by simp [Until]⟩

/-! ## C02 (first half; idempotence is in `PropsCanon`) -/

/-- For *every* `v`: what `Get` shows after `Set` is the canonical text of `v`, on any key whose
deadline (if it has one) has not passed. -/
theorem C02_get_set_canon (c : Cache) (k v : Bytes) (s t : Int) (h : History)
    (hd : NotPassed c t k) (hw : NoWrite k h) (hu : Until t h) :
    (exec (run (exec c s (.set k v)).1 h) t (.get k)).2 = .str (.ok (canon v)) := by
  simp only [exec, get_snd]
  rw [liveVal_run_of_noWrite _ _ _ _ hw hu,
    liveVal_of_notPassed (show NotPassed (c.set k v).1 t k from hd)]
  simp [Cache.set, store, showVal, fmtString, fmtScalar_tryInt64]

example : canon b!"1e3" = b!"1000" ∧ canon b!"+5" = b!"5" ∧ canon b!"0x1p-2" = b!"0.25" := by
  decide +kernel

/-! ## C03 -/

/-- `op` assigns text `v` to `k`: the plain assignments of the API. -/
inductive Assigns (k v : Bytes) : Call → Prop
  | set : Assigns k v (.set k v)
  | setEX (n) : Assigns k v (.setEX k v n)
  | pSetEX (n) : Assigns k v (.pSetEX k v n)
  | getSet : Assigns k v (.getSet k v)
  | mSet (kv kv') : (∀ p ∈ kv', p.1 ≠ k) → Assigns k v (.mSet (kv ++ (k, v) :: kv'))

theorem data_of_assigns {k v : Bytes} {op : Call} (h : Assigns k v op) (c : Cache) (s : Int) :
    (exec c s op).1.data k = some (.scalar (tryInt64 v)) := by
  cases h with
  | set => simp [exec, Cache.set, store]
  | setEX n => simp only [exec, Cache.setEX, expires]; split <;> simp [store]
  | pSetEX n => simp only [exec, Cache.pSetEX, expires]; split <;> simp [store]
  | getSet => simp only [exec, getSet_fst]; simp [store]
  | mSet kv kv' hn =>
    have := (sameAt_mSet ((c.mSet kv).1.store k (.scalar (tryInt64 v))) kv' k
      (by simp; exact fun x hx => hn (k, x) hx rfl)).1
    simp only [exec, Cache.mSet, List.foldl_append, List.foldl_cons]
    simp only [Cache.mSet] at this
    rw [this]; simp [store]

/-- C03: after any history `h1`, an assignment of `v` to `k`, and any history `h2` that does not
write `k`, `Get(k)` shows the canonical text of `v` — provided the deadline in force after the
assignment has not passed.  Missing for the full claim: a left-over deadline (see C07). -/
theorem C03_last_write_wins_partial (c : Cache) (h1 h2 : History) (k v : Bytes) (op : Call)
    (ha : Assigns k v op) (s t : Int) (hd : NotPassed (run c (h1 ++ [(s, op)])) t k)
    (hw : NoWrite k h2) (hu : Until t h2) :
    (exec (run c (h1 ++ (s, op) :: h2)) t (.get k)).2 = .str (.ok (canon v)) := by
  have e : run c (h1 ++ (s, op) :: h2) = run (run c (h1 ++ [(s, op)])) h2 := by
    rw [← run_append]; simp
  simp only [exec, get_snd]
  rw [e, liveVal_run_of_noWrite _ _ _ _ hw hu, liveVal_of_notPassed hd, run_append]
  simp only [run]
  rw [data_of_assigns ha]
  simp [showVal, fmtString, fmtScalar_tryInt64]

/-- The history never gives `k` a time to live. -/
def NoTTL (k : Bytes) (h : History) : Prop :=
  ∀ p ∈ h, (∀ v n, p.2 ≠ .setEX k v n) ∧ (∀ v n, p.2 ≠ .pSetEX k v n)

theorem exp_incrBy (c : Cache) (k : Bytes) (n : Int64) : (c.incrBy k n).1.exp = c.exp := by
  rcases incrBy_fst_form c k n with h' | ⟨v, h'⟩ <;> rw [h'] <;> rfl

theorem exp_incrByFloat (c : Cache) (k : Bytes) (n : F64) : (c.incrByFloat k n).1.exp = c.exp := by
  rcases incrByFloat_fst_form c k n with h' | ⟨v, h'⟩ <;> rw [h'] <;> rfl

theorem exp_load {c : Cache} {t : Int} {j k : Bytes} (h : c.exp k = none) :
    (c.load t j).1.exp k = none := by
  rcases stale_dec c t j with hs | hs
  · rw [load_fst_of_stale hs]; simp [upd, h]
  · rw [load_fst_of_not_stale hs]; exact h

/-- Only SetEX and PSetEX create deadlines. -/
theorem exec_exp_none {c : Cache} {k : Bytes} (t : Int) (op : Call) (h : c.exp k = none)
    (h1 : ∀ v n, op ≠ .setEX k v n) (h2 : ∀ v n, op ≠ .pSetEX k v n) :
    (exec c t op).1.exp k = none := by
  by_cases hk : ∃ ks, op.keys = some ks ∧ k ∉ ks
  · obtain ⟨ks, e, hn⟩ := hk
    rw [(exec_frame c t op ks k e hn).2, h]
  · cases op with
    | setEX j v n =>
      by_cases e : j = k
      · subst e; exact absurd rfl (h1 v n)
      · exact absurd ⟨[j], rfl, by simp; exact fun e' => e e'.symm⟩ hk
    | pSetEX j v n =>
      by_cases e : j = k
      · subst e; exact absurd rfl (h2 v n)
      · exact absurd ⟨[j], rfl, by simp; exact fun e' => e e'.symm⟩ hk
    | set j v => exact h
    | setNX j v => simp only [exec, setNX]; split <;> exact h
    | get j => simp only [exec, get_fst]; exact exp_load h
    | getSet j v => simp only [exec, getSet_fst]; exact exp_load h
    | strLen j => simp only [exec, strLen_fst]; exact exp_load h
    | append j v => simp only [exec, append_fst]; split <;> (try split) <;> exact exp_load h
    | setRange j p r =>
      simp only [exec, setRange_fst]
      split
      · exact h
      · split <;> (try split) <;> (try split) <;> exact exp_load h
    | getRange j a b => simp only [exec, getRange_fst]; exact exp_load h
    | incr j => simp only [exec, incr, exp_incrBy]; exact h
    | incrBy j n => simp only [exec, exp_incrBy]; exact h
    | incrByFloat j x => simp only [exec, exp_incrByFloat]; exact h
    | decr j => simp only [exec, decr, exp_incrBy]; exact h
    | decrBy j n => simp only [exec, decrBy, exp_incrBy]; exact h
    | mSet kv =>
      have : (exec c t (.mSet kv)).1.exp = c.exp := by
        simp only [exec, mSet]
        clear h1 h2 hk h
        induction kv generalizing c with
        | nil => rfl
        | cons p kv ih => rw [List.foldl_cons, ih]; rfl
      rw [this, h]
    | mSetNX kv =>
      have : (exec c t (.mSetNX kv)).1.exp = c.exp := by
        simp only [exec, mSetNX]
        clear h1 h2 hk h
        generalize (0 : Int) = n
        induction kv generalizing c n with
        | nil => rfl
        | cons p kv ih =>
          obtain ⟨j, v⟩ := p
          simp only [mSetNXLoop]; split
          · exact ih _
          · exact ih (c := c.store j _) _
      rw [this, h]
    | mGet ks =>
      simp only [exec]
      clear h1 h2 hk
      induction ks generalizing c with
      | nil => exact h
      | cons j ks ih => rw [mGet_fst_cons]; exact ih (exp_load h)
    | exists_ ks => exact h
    | list j => exact h
    | del j => simp only [exec, del, upd]; split <;> (first | rfl | exact exp_load h)
    | flush => rfl
    | type j => simp only [exec, type_fst]; exact exp_load h
    | hSet j f v => simp only [exec, hSet, withHash_fst]; split <;> exact exp_load h
    | hSetNX j f v => simp only [exec, hSetNX, withHash_fst]; split <;> exact exp_load h
    | hIncrBy j f v => simp only [exec, hIncrBy, withHash_fst]; split <;> exact exp_load h
    | hIncrByFloat j f v => simp only [exec, hIncrByFloat, withHash_fst]; split <;> exact exp_load h
    | hMSet j f => simp only [exec, hMSet, withHash_fst]; split <;> exact exp_load h
    | hExists j f => simp only [exec, hExists_fst]; split <;> exact exp_load h
    | hDel j f => simp only [exec, hDel_fst]; split <;> exact exp_load h
    | hLen j => simp only [exec, hLen, readHash_fst]; exact exp_load h
    | hStrLen j => simp only [exec, hStrLen, readHash_fst]; exact exp_load h
    | hGet j => simp only [exec, hGet, readHash_fst]; exact exp_load h
    | hMGet j => simp only [exec, hMGet, readHash_fst]; exact exp_load h
    | hKeys j => simp only [exec, hKeys, readHash_fst]; exact exp_load h
    | hVals j => simp only [exec, hVals, readHash_fst]; exact exp_load h
    | hGetAll j => simp only [exec, hGetAll, readHash_fst]; exact exp_load h
    | cronTick =>
      simp only [exec, cronTick]
      split
      · exact h
      · simp only [cronEntry]; repeat' split
        all_goals simp [h]

theorem run_exp_none {c : Cache} {k : Bytes} (h : History) (hc : c.exp k = none) (hn : NoTTL k h) :
    (run c h).exp k = none := by
  induction h generalizing c with
  | nil => exact hc
  | cons p h ih =>
    obtain ⟨t, op⟩ := p
    have := hn (t, op) (by simp)
    exact ih (exec_exp_none t op hc this.1 this.2) (fun p hp => hn p (by simp [hp]))

/-- C03 in API terms only: in a cache that started empty and never gave `k` a time to live, the
last assignment to `k` is what `Get` shows, whatever else happened before and after. -/
theorem C03_last_write_wins_noTTL_partial (h1 h2 : History) (k v : Bytes) (op : Call)
    (ha : Assigns k v op) (s t : Int) (hn : NoTTL k (h1 ++ [(s, op)]))
    (hw : NoWrite k h2) (hu : Until t h2) :
    (exec (run Cache.new (h1 ++ (s, op) :: h2)) t (.get k)).2 = .str (.ok (canon v)) := by
  refine C03_last_write_wins_partial Cache.new h1 h2 k v op ha s t ?_ hw hu
  intro d hd
  rw [run_exp_none _ rfl hn] at hd
  cases hd

/-- The full claim C03 fails: a write on a key with a passed deadline is lost. -/
theorem C03_violated :
    ¬ ∀ (h1 h2 : History) (k v : Bytes) (op : Call), Assigns k v op → ∀ s t, NoWrite k h2 → Until t h2 →
      s ≤ t → (exec (run Cache.new (h1 ++ (s, op) :: h2)) t (.get k)).2 = .str (.ok (canon v)) := by
  intro h
  have := h [(0, .pSetEX b!"k" b!"a" 1)] [] b!"k" b!"b" (.set b!"k" b!"b") .set 2000000 2000000
    (by simp [NoWrite]) (by simp [Until]) (by simp)
  revert this
  decide +kernel

example : Assigns b!"k" b!"2" (.mSet [(b!"a", b!"1"), (b!"k", b!"2"), (b!"z", b!"3")]) ∧
    NoTTL b!"k" ([(0, .hSet b!"k" b!"f" b!"v"), (1, .setEX b!"j" b!"x" 5)] ++
      [(2, .mSet [(b!"a", b!"1"), (b!"k", b!"2"), (b!"z", b!"3")])]) ∧
    NoWrite b!"k" [(3, .get b!"k"), (4, .set b!"a" b!"x")] ∧
    Until 9 [(3, .get b!"k"), (4, .set b!"a" b!"x")] := by
  refine ⟨.mSet [(b!"a", b!"1")] [(b!"z", b!"3")] (by simp), ?_, ?_, ?_⟩
  · intro p hp
    simp at hp
    rcases hp with rfl | rfl | rfl <;> exact ⟨by intros; simp, by intros; simp⟩
  · simp [NoWrite, Call.writes]
  · simp [Until]

/-! ## C04 -/

/-- The call names only keys of `P` (calls that affect all keys are counted as `P`'s). -/
def Call.within (P : Bytes → Prop) (op : Call) : Prop := ∀ ks, op.keys = some ks → ∀ k ∈ ks, P k

/-- The call names no key of `P`. -/
def Call.outside (P : Bytes → Prop) (op : Call) : Prop := ∃ ks, op.keys = some ks ∧ ∀ k ∈ ks, ¬ P k

/-- Outcomes of the marked calls of a history. -/
def outsOf (mine : Call → Bool) (c : Cache) : History → List Out
  | [] => []
  | (t, op) :: h =>
    if mine op then (exec c t op).2 :: outsOf mine (exec c t op).1 h
    else outsOf mine (exec c t op).1 h

/-- C04, per call: a call that names other keys leaves everything a later history of calls on
keys of `P` can observe. -/
theorem C04_isolation_call (c : Cache) (P : Bytes → Prop) (t : Int) (op : Call) (h : History)
    (ho : op.outside P) (hh : ∀ p ∈ h, p.2.within P) :
    outs (exec c t op).1 h = outs c h := by
  obtain ⟨ks, e, hn⟩ := ho
  have base : ∀ k, P k → SameAt (exec c t op).1 c k := fun k hk =>
    exec_frame c t op ks k e (fun hm => hn k hm hk)
  generalize (exec c t op).1 = d at base
  clear e hn
  induction h generalizing c d with
  | nil => rfl
  | cons p h ih =>
    obtain ⟨s, o⟩ := p
    have := exec_congr base s o (hh (s, o) (by simp))
    simp only [outs, this.1]
    rw [ih _ (fun p hp => hh p (by simp [hp])) _ this.2]

/-- C04, whole histories: erase every call on other keys from a history; the outcomes of the
remaining calls are the same. -/
theorem C04_isolation (c d : Cache) (P : Bytes → Prop) (mine : Call → Bool) (h : History)
    (hcd : ∀ k, P k → SameAt c d k)
    (hm : ∀ p ∈ h, (mine p.2 = true ∧ p.2.within P) ∨ (mine p.2 = false ∧ p.2.outside P)) :
    outsOf mine c h = outs d (h.filter (fun p => mine p.2)) := by
  induction h generalizing c d with
  | nil => rfl
  | cons p h ih =>
    obtain ⟨t, op⟩ := p
    have ih' := fun c d hc => ih c d hc (fun p hp => hm p (by simp [hp]))
    rcases hm (t, op) (by simp) with ⟨h1, h2⟩ | ⟨h1, ks, e, hn⟩
    · have := exec_congr hcd t op h2
      simp only [outsOf, List.filter_cons]
      simp only at h1
      simp only [h1, if_true, outs, this.1]
      rw [ih' _ _ this.2]
    · simp only at h1
      simp only [outsOf, List.filter_cons, h1]
      exact ih' _ _ (fun k hk =>
        (exec_frame c t op ks k e (fun hm => hn k hm hk)).trans (hcd k hk))

example : (Call.mSet [(b!"a", b!"1"), (b!"b", b!"2")]).outside (· = b!"k") ∧
    (Call.append b!"k" b!"x").within (· = b!"k") ∧ Call.flush.within (· = b!"k") := by
  refine ⟨⟨_, rfl, by simp⟩, ?_, ?_⟩
  · intro ks h; simp [Call.keys] at h; subst h; simp
  · intro ks h; simp [Call.keys] at h

/-! ## C05, C06, C07 -/

/-- C05: SetEX with a TTL whose nanoseconds fit in 64 bits: readable exactly until `s + n` seconds. -/
theorem C05_setEX_partial (c : Cache) (k v : Bytes) (n : Int64) (s t : Int) (h : History)
    (hn : 0 < n.toInt) (hfit : 1000000000 * n.toInt < 2 ^ 63)
    (hw : NoWrite k h) (hu : Until t h) :
    (exec (run (exec c s (.setEX k v n)).1 h) t (.get k)).2 =
      if t ≤ s + 1000000000 * n.toInt then .str (.ok (canon v)) else .str (.err .keyNil) := by
  have hmul : (1000000000 * n : Int64).toInt = 1000000000 * n.toInt := by
    rw [Int64.toInt_mul]
    have : Int64.toInt 1000000000 = 1000000000 := by decide
    rw [this, Int.bmod_eq_of_le (by omega) (by omega)]
  simp only [exec, get_snd]
  rw [liveVal_run_of_noWrite _ _ _ _ hw hu]
  have e1 : (setEX c s k v n).1.data k = some (.scalar (tryInt64 v)) := data_of_assigns (.setEX n) c s
  have e2 : (setEX c s k v n).1.exp k = some (s + 1000000000 * n.toInt) := by
    simp only [Cache.setEX, expires, hmul]
    rw [if_neg (by omega)]; simp
  unfold liveVal
  simp only [e1, e2]
  by_cases ht : t ≤ s + 1000000000 * n.toInt
  · rw [if_neg (by omega), if_pos ht]; simp [showVal, fmtString, fmtScalar_tryInt64]
  · rw [if_pos (by omega), if_neg ht]; rfl

/-- C05 for PSetEX (milliseconds). -/
theorem C05_pSetEX_partial (c : Cache) (k v : Bytes) (n : Int64) (s t : Int) (h : History)
    (hn : 0 < n.toInt) (hfit : 1000000 * n.toInt < 2 ^ 63)
    (hw : NoWrite k h) (hu : Until t h) :
    (exec (run (exec c s (.pSetEX k v n)).1 h) t (.get k)).2 =
      if t ≤ s + 1000000 * n.toInt then .str (.ok (canon v)) else .str (.err .keyNil) := by
  have hmul : (1000000 * n : Int64).toInt = 1000000 * n.toInt := by
    rw [Int64.toInt_mul]
    have : Int64.toInt 1000000 = 1000000 := by decide
    rw [this, Int.bmod_eq_of_le (by omega) (by omega)]
  simp only [exec, get_snd]
  rw [liveVal_run_of_noWrite _ _ _ _ hw hu]
  have e1 : (pSetEX c s k v n).1.data k = some (.scalar (tryInt64 v)) := data_of_assigns (.pSetEX n) c s
  have e2 : (pSetEX c s k v n).1.exp k = some (s + 1000000 * n.toInt) := by
    simp only [Cache.pSetEX, expires, hmul]
    rw [if_neg (by omega)]; simp
  unfold liveVal
  simp only [e1, e2]
  by_cases ht : t ≤ s + 1000000 * n.toInt
  · rw [if_neg (by omega), if_pos ht]; simp [showVal, fmtString, fmtScalar_tryInt64]
  · rw [if_pos (by omega), if_neg ht]; rfl

example : 0 < (60 : Int64).toInt ∧ 1000000000 * (60 : Int64).toInt < 2 ^ 63 := by decide

/-- C05/C06 are false for huge TTLs: 18446744074 seconds (584 years) wraps to 0.29 seconds, so
one second later the value is gone. -/
theorem C05_violated :
    outs Cache.new [(0, .setEX b!"k" b!"v" 18446744074), (1000000000, .get b!"k")]
      = [.str (.ok OK), .str (.err .keyNil)] := by
  decide +kernel

/-- C06, first half: a TTL that is not positive (and whose nanoseconds fit) leaves no deadline:
the value is readable at every later time. -/
theorem C06_nonpositive_partial (c : Cache) (k v : Bytes) (n : Int64) (s t : Int) (h : History)
    (hn : n.toInt ≤ 0) (hfit : -(2 ^ 63) ≤ 1000000000 * n.toInt)
    (hw : NoWrite k h) (hu : Until t h) :
    (exec (run (exec c s (.setEX k v n)).1 h) t (.get k)).2 = .str (.ok (canon v)) ∧
    (exec (run (exec c s (.pSetEX k v n)).1 h) t (.get k)).2 = .str (.ok (canon v)) := by
  have hmul : (1000000000 * n : Int64).toInt = 1000000000 * n.toInt := by
    rw [Int64.toInt_mul]
    have : Int64.toInt 1000000000 = 1000000000 := by decide
    rw [this, Int.bmod_eq_of_le (by omega) (by omega)]
  have hmul2 : (1000000 * n : Int64).toInt = 1000000 * n.toInt := by
    rw [Int64.toInt_mul]
    have : Int64.toInt 1000000 = 1000000 := by decide
    rw [this, Int.bmod_eq_of_le (by omega) (by omega)]
  constructor
  · have e1 : (setEX c s k v n).1.data k = some (.scalar (tryInt64 v)) := data_of_assigns (.setEX n) c s
    have e2 : (setEX c s k v n).1.exp k = none := by
      simp only [Cache.setEX, expires, hmul]
      rw [if_pos (by omega)]; simp
    simp only [exec, get_snd]
    rw [liveVal_run_of_noWrite _ _ _ _ hw hu]
    simp [liveVal, e1, e2, showVal, fmtString, fmtScalar_tryInt64]
  · have e1 : (pSetEX c s k v n).1.data k = some (.scalar (tryInt64 v)) := data_of_assigns (.pSetEX n) c s
    have e2 : (pSetEX c s k v n).1.exp k = none := by
      simp only [Cache.pSetEX, expires, hmul2]
      rw [if_pos (by omega)]; simp
    simp only [exec, get_snd]
    rw [liveVal_run_of_noWrite _ _ _ _ hw hu]
    simp [liveVal, e1, e2, showVal, fmtString, fmtScalar_tryInt64]

example : (-5 : Int64).toInt ≤ 0 ∧ -(2 ^ 63) ≤ 1000000000 * (-5 : Int64).toInt := by decide

/-- C06, second half, on TTLs whose nanoseconds fit: whatever is readable under the shorter TTL
is readable under the longer one. -/
theorem C06_monotone_partial (c : Cache) (k v : Bytes) (m n : Int64) (s t : Int) (h : History)
    (hm : 0 < m.toInt) (hmn : m.toInt ≤ n.toInt) (hfit : 1000000000 * n.toInt < 2 ^ 63)
    (hw : NoWrite k h) (hu : Until t h)
    (hr : (exec (run (exec c s (.setEX k v m)).1 h) t (.get k)).2 = .str (.ok (canon v))) :
    (exec (run (exec c s (.setEX k v n)).1 h) t (.get k)).2 = .str (.ok (canon v)) := by
  rw [C05_setEX_partial c k v m s t h hm (by omega) hw hu] at hr
  rw [C05_setEX_partial c k v n s t h (by omega) hfit hw hu]
  split at hr
  · rw [if_pos (by omega)]
  · simp at hr

/-- C06 is false beyond that: a longer TTL expires earlier, and the most negative TTL that wraps
positive expires at all. -/
theorem C06_violated :
    outs Cache.new [(0, .setEX b!"a" b!"v" 2), (0, .setEX b!"b" b!"v" 18446744074),
        (1000000000, .get b!"a"), (1000000000, .get b!"b")]
      = [.str (.ok OK), .str (.ok OK), .str (.ok b!"v"), .str (.err .keyNil)] ∧
    outs Cache.new [(0, .setEX b!"a" b!"v" (-18446744073)), (1000000000, .get b!"a")]
      = [.str (.ok OK), .str (.err .keyNil)] := by
  decide +kernel

/-- C07 is false: the old deadline still applies to the new value. -/
theorem C07_violated :
    ¬ ∀ c, Reachable c → ∀ (k v : Bytes) (s t : Int), s ≤ t →
      (exec (exec c s (.set k v)).1 t (.get k)).2 = .str (.ok (canon v)) := by
  intro h
  have := h (run Cache.new [(0, .setEX b!"k" b!"a" 10)]) ⟨_, rfl⟩ b!"k" b!"b" 1 10000000001 (by decide)
  revert this
  decide +kernel

/-- C07 on keys that carry no deadline: the value set is readable at every later time. -/
theorem C07_set_persistent_partial (c : Cache) (k v : Bytes) (s t : Int) (h : History)
    (hd : c.exp k = none) (hw : NoWrite k h) (hu : Until t h) :
    (exec (run (exec c s (.set k v)).1 h) t (.get k)).2 = .str (.ok (canon v)) :=
  C02_get_set_canon c k v s t h (by intro d hd'; rw [hd] at hd'; cases hd') hw hu

/-- What `Set` does instead on a key with a deadline: the deadline stays. -/
theorem C07_set_keeps_deadline (c : Cache) (k v : Bytes) (s t d : Int) (h : History)
    (hd : c.exp k = some d) (hw : NoWrite k h) (hu : Until t h) :
    (exec (run (exec c s (.set k v)).1 h) t (.get k)).2 =
      if t ≤ d then .str (.ok (canon v)) else .str (.err .keyNil) := by
  simp only [exec, get_snd]
  rw [liveVal_run_of_noWrite _ _ _ _ hw hu]
  have e2 : (set c k v).1.exp k = some d := hd
  have e1 : (set c k v).1.data k = some (.scalar (tryInt64 v)) := by simp [Cache.set, store]
  unfold liveVal
  simp only [e1, e2]
  by_cases ht : t ≤ d
  · rw [if_neg (by omega), if_pos ht]; simp [showVal, fmtString, fmtScalar_tryInt64]
  · rw [if_pos (by omega), if_neg ht]; rfl

example : (run Cache.new [(0, .setEX b!"k" b!"a" 10)]).exp b!"k" = some 10000000000 ∧
    Cache.new.exp b!"k" = none := by decide +kernel

end Verif

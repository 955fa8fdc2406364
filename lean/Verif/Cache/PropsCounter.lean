import Verif.Cache.PropsString
/-!
# C15–C19: counters
-/
namespace Verif
open Cache

/-- The key holds the integer `n` (the two integer kinds a cache key can have). -/
def HoldsInt (c : Cache) (k : Bytes) (n : Int64) : Prop :=
  c.data k = some (.scalar (.int n)) ∨ c.data k = some (.scalar (.int64 n))

/-- The counter calls, with the signed 64-bit amount they add. -/
inductive Adds (k : Bytes) : Call → Int64 → Prop
  | incr : Adds k (.incr k) 1
  | incrBy (n) : Adds k (.incrBy k n) n
  | decr : Adds k (.decr k) (-1)
  | decrBy (n) : Adds k (.decrBy k n) (-n)

theorem exec_adds {k : Bytes} {op : Call} {n : Int64} (h : Adds k op n) (c : Cache) (t : Int) :
    exec c t op = ((c.incrBy k n).1, .int ((c.incrBy k n).2.map Int64.toInt)) := by
  cases h <;> rfl

theorem incrBy_holds {c : Cache} {k : Bytes} {n m : Int64} (h : HoldsInt c k n) :
    (c.incrBy k m).2 = .ok (n + m) ∧ HoldsInt (c.incrBy k m).1 k (n + m) ∧
      (c.incrBy k m).1.exp = c.exp := by
  refine ⟨?_, ?_, exp_incrBy _ _ _⟩ <;> rcases h with h | h <;>
    simp [incrBy, h, incrScalar, HoldsInt, store]

theorem incrBy_absent {c : Cache} {k : Bytes} {m : Int64} (h : c.data k = none) :
    (c.incrBy k m).2 = .ok m ∧ HoldsInt (c.incrBy k m).1 k m ∧ (c.incrBy k m).1.exp = c.exp := by
  refine ⟨?_, ?_, exp_incrBy _ _ _⟩ <;> simp [incrBy, h, HoldsInt, store]

theorem get_holds {c : Cache} {k : Bytes} {n : Int64} {t : Int} (h : HoldsInt c k n)
    (hd : NotPassed c t k) : getOut c t k = .str (.ok (itoa n)) := by
  rw [getOut_eq, liveVal_of_notPassed hd]
  rcases h with h | h <;> simp [h, showVal, fmtString, fmtScalar]

/-! ## C15 -/

/-- C15 on sums that fit: every counter call returns old + n, and Get shows it.
Missing: sums that do not fit in 64 bits are stored wrapped instead of rejected. -/
theorem C15_incrBy_partial (c : Cache) (k : Bytes) (old n : Int64) (op : Call) (s t : Int) (h : History)
    (hop : Adds k op n) (hold : HoldsInt c k old)
    (hlo : -(2 ^ 63) ≤ old.toInt + n.toInt) (hhi : old.toInt + n.toInt < 2 ^ 63)
    (hd : NotPassed c t k) (hw : NoWrite k h) (hu : Until t h) :
    (exec c s op).2 = .int (.ok (old.toInt + n.toInt)) ∧
    getOut (run (exec c s op).1 h) t k = .str (.ok (itoaInt (old.toInt + n.toInt))) := by
  have hsum : (old + n).toInt = old.toInt + n.toInt := by
    rw [Int64.toInt_add, Int.bmod_eq_of_le (by omega) (by omega)]
  obtain ⟨h1, h2, h3⟩ := incrBy_holds (m := n) hold
  rw [exec_adds hop]
  refine ⟨by simp [h1, GoRes.map, GoRes.bind, hsum], ?_⟩
  rw [getOut_eq, liveVal_run_of_noWrite _ _ _ _ hw hu, ← getOut_eq,
    get_holds h2 (by intro d hd'; rw [h3] at hd'; exact hd d hd')]
  simp [itoa, hsum]

/-- What a user sees: Set a decimal integer, then IncrBy. -/
theorem C15_set_incrBy_partial (c : Cache) (k : Bytes) (old n : Int64) (s t : Int)
    (hlo : -(2 ^ 63) ≤ old.toInt + n.toInt) (hhi : old.toInt + n.toInt < 2 ^ 63)
    (hd : NotPassed c t k) :
    (exec (exec c s (.set k (itoa old))).1 s (.incrBy k n)).2 = .int (.ok (old.toInt + n.toInt)) ∧
    getOut (exec (exec c s (.set k (itoa old))).1 s (.incrBy k n)).1 t k
      = .str (.ok (itoaInt (old.toInt + n.toInt))) := by
  have := C15_incrBy_partial (exec c s (.set k (itoa old))).1 k old n _ s t [] (.incrBy n)
    (.inl (by simp [exec, Cache.set, store, tryInt64, atoi_itoa])) hlo hhi
    (show NotPassed (c.set k _).1 t k from hd) (by simp [NoWrite]) (by simp [Until])
  exact this

example : Adds b!"k" (.decrBy b!"k" 3) (-3) ∧ HoldsInt (run Cache.new [(0, .set b!"k" b!"10")]) b!"k" 10 ∧
    -(2 ^ 63) ≤ (10 : Int64).toInt + (-3 : Int64).toInt ∧ (10 : Int64).toInt + (-3 : Int64).toInt < 2 ^ 63 :=
  ⟨.decrBy 3, .inl (by decide +kernel), by decide, by decide⟩

/-- C15 is false: an overflowing Incr wraps to the minimum and is stored. -/
theorem C15_violated :
    outs Cache.new [(0, .set b!"k" b!"9223372036854775807"), (0, .incr b!"k"), (0, .get b!"k")]
      = [.str (.ok OK), .int (.ok (-9223372036854775808)), .str (.ok b!"-9223372036854775808")] := by
  decide +kernel

/-! ## C16 -/

/-- Sum of the amounts of the counter calls on `k` in a history. -/
inductive Sums (k : Bytes) : History → List Int64 → Prop
  | nil : Sums k [] []
  | add {t op n h ns} : Adds k op n → Sums k h ns → Sums k ((t, op) :: h) (n :: ns)
  | other {t op h ns} : op.writes k = false → Sums k h ns → Sums k ((t, op) :: h) ns

theorem data_of_not_writes {c : Cache} {k : Bytes} {t : Int} {op : Call} (hw : op.writes k = false)
    (he : c.exp k = none) : (exec c t op).1.data k = c.data k ∧ (exec c t op).1.exp k = none := by
  have e := exec_exp_none t op he (by rintro v n rfl; simp [Call.writes] at hw)
    (by rintro v n rfl; simp [Call.writes] at hw)
  have := liveVal_exec_of_not_writes c op k hw (Int.le_refl t)
  rw [liveVal_of_notPassed (by intro d hd; rw [e] at hd; cases hd),
    liveVal_of_notPassed (by intro d hd; rw [he] at hd; cases hd)] at this
  exact ⟨this, e⟩

/-- What the history leaves: nothing if there was no counter call, else the 64-bit sum. -/
def holdsSum (c : Cache) (k : Bytes) : List Int64 → Prop
  | [] => c.data k = none
  | ns => HoldsInt c k ns.sum

theorem sums_from_holds {c : Cache} {k : Bytes} {h : History} {ns : List Int64} (hs : Sums k h ns)
    {n : Int64} (hn : HoldsInt c k n) (he : c.exp k = none) :
    HoldsInt (run c h) k (n + ns.sum) ∧ (run c h).exp k = none := by
  induction hs generalizing c n with
  | nil => simpa [run] using ⟨hn, he⟩
  | @add t op m h ns ha hs ih =>
    simp only [run]
    rw [exec_adds ha]
    obtain ⟨_, h2, h3⟩ := incrBy_holds (m := m) hn
    have := ih h2 (by rw [h3]; exact he)
    simp only [List.sum_cons]
    rw [← Int64.add_assoc]; exact this
  | @other t op h ns hw hs ih =>
    have := data_of_not_writes (t := t) hw he
    exact ih (by unfold HoldsInt; rw [this.1]; exact hn) this.2

theorem sums_from_absent {c : Cache} {k : Bytes} {h : History} {ns : List Int64} (hs : Sums k h ns)
    (hn : c.data k = none) (he : c.exp k = none) :
    holdsSum (run c h) k ns ∧ (run c h).exp k = none := by
  induction hs generalizing c with
  | nil => exact ⟨hn, he⟩
  | @add t op m h ns ha hs ih =>
    simp only [run]
    rw [exec_adds ha]
    obtain ⟨_, h2, h3⟩ := incrBy_absent (m := m) hn
    have := sums_from_holds hs h2 (by rw [h3]; exact he)
    simpa [holdsSum] using this
  | @other t op h ns hw hs ih =>
    have := data_of_not_writes (t := t) hw he
    exact ih (by rw [this.1]; exact hn) this.2

/-- C16, full: any history whose only writes to `k` are counter calls leaves the 64-bit sum of
their amounts, whatever other calls are interleaved. -/
theorem C16_counters_add_up (c : Cache) (k : Bytes) (h : History) (ns : List Int64) (t : Int)
    (hs : Sums k h ns) (hne : ns ≠ []) (hn : c.data k = none) (he : c.exp k = none) :
    getOut (run c h) t k = .str (.ok (itoa ns.sum)) := by
  have := sums_from_absent hs hn he
  cases ns with
  | nil => exact absurd rfl hne
  | cons n ns =>
    exact get_holds this.1 (by intro d hd; rw [this.2] at hd; cases hd)

/-- C16, order: two histories with the same amounts in different orders leave the same value. -/
theorem C16_counters_any_order (c : Cache) (k : Bytes) (h h' : History) (ns ns' : List Int64) (t : Int)
    (hs : Sums k h ns) (hs' : Sums k h' ns') (hp : ns.Perm ns') (hne : ns ≠ [])
    (hn : c.data k = none) (he : c.exp k = none) :
    getOut (run c h) t k = getOut (run c h') t k := by
  have hsum : ns.sum = ns'.sum := by
    clear hs hs' hne
    induction hp with
    | nil => rfl
    | cons x _ ih => simp [ih]
    | swap x y l => simp only [List.sum_cons]; rw [← Int64.add_assoc, Int64.add_comm y x, Int64.add_assoc]
    | trans _ _ ih1 ih2 => rw [ih1, ih2]
  rw [C16_counters_add_up c k h ns t hs hne hn he,
    C16_counters_add_up c k h' ns' t hs' (by rintro rfl; exact hne hp.eq_nil) hn he, hsum]

/-- The 64-bit sum is the exact sum, wrapped. -/
theorem sum_wraps (ns : List Int64) : ns.sum.toInt = (ns.map Int64.toInt).sum.bmod (2 ^ 64) := by
  induction ns with
  | nil => decide
  | cons n ns ih =>
    simp only [List.sum_cons, List.map_cons, Int64.toInt_add, ih]
    rw [Int.add_bmod_bmod]

theorem itoaInt_injective {a b : Int} (h : itoaInt a = itoaInt b) : a = b := by
  have hn : ∀ {m n : Nat}, natText m = natText n → m = n := fun {m n} e => by
    have := digitsVal_natText m
    rw [e, digitsVal_natText n] at this
    exact (Option.some.inj this).symm
  have hd : ∀ {m n : Nat}, (45 : UInt8) :: natText m ≠ natText n := fun {m n} e => by
    obtain ⟨c, cs, h1, h2⟩ := natText_head n
    rw [h1] at e
    rw [← (List.cons.inj e).1] at h2
    exact absurd h2 (by decide)
  unfold itoaInt at h
  split at h <;> split at h
  · have := hn (List.cons.inj h).2; omega
  · exact absurd h hd
  · exact absurd h.symm hd
  · have := hn h; omega

/-- C16, exactly: such a history leaves the sum of the amounts as an integer of any size, if and only if that sum fits into 64 bits. -/
theorem C16_exact_when_it_fits (c : Cache) (k : Bytes) (h : History) (ns : List Int64) (t : Int)
    (hs : Sums k h ns) (hne : ns ≠ []) (hn : c.data k = none) (he : c.exp k = none) :
    getOut (run c h) t k = .str (.ok (itoaInt (ns.map Int64.toInt).sum)) ↔
      -(2 ^ 63) ≤ (ns.map Int64.toInt).sum ∧ (ns.map Int64.toInt).sum < 2 ^ 63 := by
  rw [C16_counters_add_up c k h ns t hs hne hn he]
  simp only [Out.str.injEq, GoRes.ok.injEq, itoa]
  constructor
  · intro e
    have e := itoaInt_injective e
    have h1 := ns.sum.le_toInt
    have h2 := ns.sum.toInt_lt
    rw [← e]
    exact ⟨h1, h2⟩
  · rintro ⟨h1, h2⟩
    rw [sum_wraps, Int.bmod_eq_of_le (by omega) (by omega)]

/-- C16, undo: DecrBy n after IncrBy n restores the value. -/
theorem C16_decrBy_undoes (c : Cache) (k : Bytes) (old n : Int64) (s t : Int)
    (hold : HoldsInt c k old) (hd : NotPassed c t k) :
    getOut (run c [(s, .incrBy k n), (s, .decrBy k n)]) t k = getOut c t k := by
  rw [get_holds hold hd]
  obtain ⟨_, h2, h3⟩ := incrBy_holds (m := n) hold
  obtain ⟨_, h4, h5⟩ := incrBy_holds (m := -n) h2
  have e : old + n + -n = old := by
    rw [Int64.add_assoc, Int64.add_right_neg, Int64.add_zero]
  rw [e] at h4
  exact get_holds h4 (by
    intro d hd'
    refine hd d ?_
    rw [← h3, ← h5]; exact hd')

example : Sums b!"k" [(0, .incr b!"k"), (1, .get b!"k"), (2, .set b!"j" b!"x"), (3, .decrBy b!"k" 5)] [1, -5] :=
  .add .incr (.other rfl (.other (by decide) (.add (.decrBy 5) .nil)))

/-! ## C17 -/

/-- C17: a counter call that reports an error reports wrong type and changes nothing; and it does
report it on text and on hashes. -/
theorem C17_failed_incr_no_change (c : Cache) (k : Bytes) (op : Call) (n : Int64) (t : Int)
    (hop : Adds k op n) (e : Err) (he : (exec c t op).2 = .int (.err e)) :
    e = .wrongType ∧ (exec c t op).1 = c := by
  rw [exec_adds hop] at he ⊢
  revert he
  simp only [incrBy]
  split
  · simp [GoRes.map, GoRes.bind]
  · split
    · simp [GoRes.map, GoRes.bind]
    · simp [GoRes.map, GoRes.bind, eq_comm]
  · simp [GoRes.map, GoRes.bind, eq_comm]

theorem C17_failed_incrByFloat_no_change (c : Cache) (k : Bytes) (x : F64) (t : Int)
    (e : Err) (he : (exec c t (.incrByFloat k x)).2 = .float (.err e)) :
    e = .wrongType ∧ (exec c t (.incrByFloat k x)).1 = c := by
  revert he
  simp only [exec, incrByFloat]
  split
  · simp
  · simp
  · simp
  · simp [eq_comm]

/-- C17: on a key whose value is not a number (text that is no numeral, or a hash) every counter
call fails, in every reachable state. -/
theorem C17_not_a_number_fails (c : Cache) (k : Bytes) (op : Call) (n : Int64) (x : F64) (t : Int)
    (hop : Adds k op n) (hv : (∃ s, c.data k = some (.scalar (.str s))) ∨ ∃ e, c.data k = some (.hash e)) :
    (exec c t op).2 = .int (.err .wrongType) ∧ (exec c t op).1 = c ∧
    (exec c t (.incrByFloat k x)).2 = .float (.err .wrongType) ∧ (exec c t (.incrByFloat k x)).1 = c := by
  rw [exec_adds hop]
  rcases hv with ⟨s, h⟩ | ⟨e, h⟩ <;>
    simp [exec, incrBy, incrByFloat, h, incrScalar, GoRes.map, GoRes.bind]

example : ∃ s, (run Cache.new [(0, .set b!"k" b!"abc")]).data b!"k" = some (.scalar (.str s)) :=
  ⟨b!"abc", by decide +kernel⟩

/-! ## C18 -/

/-- C18 is false: on an expired, unswept key Incr continues from the dead value, IncrByFloat too,
and SetNX/MSetNX refuse. -/
theorem C18_violated :
    outs Cache.new [(0, .pSetEX b!"a" b!"41" 1), (0, .pSetEX b!"b" b!"41" 1), (0, .pSetEX b!"c" b!"x" 1),
        (2000000, .incr b!"a"), (2000000, .incrByFloat b!"b" (F64.ofInt 1)), (2000000, .setNX b!"c" b!"y"),
        (2000000, .mSetNX [(b!"c", b!"y")])]
      = [.str (.ok OK), .str (.ok OK), .str (.ok OK), .int (.ok 42), .float (.ok (F64.ofInt 42)),
         .int (.ok 0), .int (.ok 0)] ∧
    outs Cache.new [(2000000, .incr b!"a"), (2000000, .incrByFloat b!"b" (F64.ofInt 1)),
        (2000000, .setNX b!"c" b!"y"), (2000000, .mSetNX [(b!"d", b!"y")])]
      = [.int (.ok 1), .float (.ok (F64.ofInt 1)), .int (.ok 1), .int (.ok 1)] := by
  decide +kernel

/-- C18 once any read has touched the expired key: from then on the key behaves, for every history
of calls on it, exactly as in a new cache.  Missing: calls that come before the first read. -/
theorem C18_restart_partial (c : Cache) (k : Bytes) (t : Int) (op : Call) (h : History)
    (hs : Stale c t k) (hop : op = .get k ∨ op = .strLen k ∨ op = .type k ∨ op = .hLen k)
    (hh : ∀ p ∈ h, p.2.within (· = k)) :
    outs (exec c t op).1 h = outs Cache.new h := by
  have base : SameAt (exec c t op).1 Cache.new k := by
    have : (exec c t op).1 = (c.load t k).1 := by
      rcases hop with rfl | rfl | rfl | rfl
      · simp only [exec, get_fst]
      · simp only [exec, strLen_fst]
      · simp only [exec, type_fst]
      · simp only [exec, hLen, readHash_fst]
    rw [this, load_fst_of_stale hs]
    exact ⟨by simp [Cache.new], by simp [Cache.new]⟩
  generalize (exec c t op).1 = d at base
  generalize Cache.new = e at base
  clear hs hop
  induction h generalizing d e with
  | nil => rfl
  | cons p h ih =>
    obtain ⟨s, o⟩ := p
    have := exec_congr (c := d) (d := e) (P := (· = k)) (by rintro _ rfl; exact base) s o (hh (s, o) (by simp))
    simp only [outs, this.1]
    rw [ih (fun p hp => hh p (by simp [hp])) _ _ (this.2 k rfl)]

example : Stale (run Cache.new [(0, .pSetEX b!"k" b!"a" 1)]) 2000000 b!"k" ∧
    (Call.incr b!"k").within (· = b!"k") :=
  ⟨⟨by decide +kernel, 1000000, by decide +kernel, by decide⟩,
    by intro ks h; simp [Call.keys] at h; subst h; simp⟩

/-! ## C19 -/

/-- C19 is false: two keys showing the same text "5" answer differently. -/
theorem C19_violated :
    outs Cache.new [(0, .set b!"a" b!"5"), (0, .incrBy b!"b" 5), (0, .get b!"a"), (0, .get b!"b"),
        (0, .incrByFloat b!"a" (F64.ofInt 1)), (0, .incrByFloat b!"b" (F64.ofInt 1))]
      = [.str (.ok OK), .int (.ok 5), .str (.ok b!"5"), .str (.ok b!"5"),
         .float (.ok (F64.ofInt 6)), .float (.err .wrongType)] := by
  decide +kernel

/-- C19 on values that came from Set/IncrByFloat (kinds `int` and `float64`): the stored and
returned number is the float64 sum.  Missing: counters created by Incr*/Decr* (kind `int64`). -/
theorem C19_incrByFloat_partial (c : Cache) (k : Bytes) (x v : F64) (s t : Int) (h : History)
    (hv : c.data k = some (.scalar (.float v)) ∨ ∃ n : Int64, c.data k = some (.scalar (.int n)) ∧ v = F64.ofInt n.toInt)
    (hd : NotPassed c t k) (hw : NoWrite k h) (hu : Until t h) :
    (exec c s (.incrByFloat k x)).2 = .float (.ok (v.add x)) ∧
    getOut (run (exec c s (.incrByFloat k x)).1 h) t k = .str (.ok (formatFloat (v.add x))) := by
  have key : exec c s (.incrByFloat k x) = (c.store k (.scalar (.float (v.add x))), .float (.ok (v.add x))) := by
    rcases hv with hv | ⟨n, hv, rfl⟩ <;> simp [exec, incrByFloat, hv]
  rw [key]
  refine ⟨rfl, ?_⟩
  rw [getOut_eq, liveVal_run_of_noWrite _ _ _ _ hw hu,
    liveVal_of_notPassed (show NotPassed (c.store k _) t k from hd)]
  simp [store, showVal, fmtString, fmtScalar]

/-- In API terms: Set an integer or float literal, then IncrByFloat. -/
theorem C19_set_incrByFloat_partial (c : Cache) (k u : Bytes) (x v : F64) (s t : Int)
    (hv : (∃ n, atoi u = some n ∧ v = F64.ofInt n.toInt) ∨ (atoi u = none ∧ parseFloat u = some v))
    (hd : NotPassed c t k) :
    (exec (exec c s (.set k u)).1 s (.incrByFloat k x)).2 = .float (.ok (v.add x)) ∧
    getOut (exec (exec c s (.set k u)).1 s (.incrByFloat k x)).1 t k = .str (.ok (formatFloat (v.add x))) := by
  refine C19_incrByFloat_partial (exec c s (.set k u)).1 k x v s t [] ?_ hd (by simp [NoWrite]) (by simp [Until])
  rcases hv with ⟨n, h1, h2⟩ | ⟨h1, h2⟩
  · exact .inr ⟨n, by simp [exec, Cache.set, store, tryInt64, h1], h2⟩
  · exact .inl (by simp [exec, Cache.set, store, tryInt64, h1, h2])

example : (atoi b!"2.1" = none ∧ ∃ v, parseFloat b!"2.1" = some v) := by
  refine ⟨by decide +kernel, ?_⟩
  have : (parseFloat b!"2.1").isSome = true := by decide +kernel
  exact Option.isSome_iff_exists.1 this

end Verif

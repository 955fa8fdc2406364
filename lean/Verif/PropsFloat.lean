import Verif.FloatTextLemmas
import Verif.Cache.PropsHash
/-!
# C80, C81, C82, and the parts of C02 and C17 that need them
-/
namespace Verif
open Cache F64

/-! ## C80 -/

/-- C80: the text of any 64-bit integer parses back to it, and parsing accepts exactly an optional
sign and at least one digit whose value fits 64 bits. -/
theorem C80_atoi_itoa (n : Int64) : atoi (itoa n) = some n := atoi_itoa n

theorem C80_atoi_accepts (s : Bytes) (n : Int64) :
    atoi s = some n ↔
      ∃ sign ds : Bytes, s = sign ++ ds ∧ (sign = [] ∨ sign = b!"+" ∨ sign = b!"-") ∧
        ds ≠ [] ∧ ds.all isDigit = true ∧
        n.toInt = (if sign = b!"-" then -(decimalValue ds : Int) else (decimalValue ds : Int)) ∧
        -(2 ^ 63) ≤ n.toInt ∧ n.toInt < 2 ^ 63 := by
  rw [atoi_some_iff, atoiInt_iff]

theorem C80_atoi_rejects (s : Bytes) :
    atoi s = none ↔ ¬ ∃ sign ds : Bytes, s = sign ++ ds ∧ (sign = [] ∨ sign = b!"+" ∨ sign = b!"-") ∧
        ds ≠ [] ∧ ds.all isDigit = true ∧
        -(2 ^ 63) ≤ (if sign = b!"-" then -(decimalValue ds : Int) else (decimalValue ds : Int)) ∧
        (if sign = b!"-" then -(decimalValue ds : Int) else (decimalValue ds : Int)) < 2 ^ 63 := by
  rw [atoi_eq_none_iff]
  constructor
  · rintro h ⟨sign, ds, h1, h2, h3, h4, h5, h6⟩
    have := (atoiInt_iff s _).2 ⟨sign, ds, h1, h2, h3, h4, rfl, h5, h6⟩
    rw [h] at this; cases this
  · intro h
    cases ha : atoiInt s with
    | none => rfl
    | some v =>
      obtain ⟨sign, ds, h1, h2, h3, h4, rfl, h6⟩ := (atoiInt_iff s v).1 ha
      exact absurd ⟨sign, ds, h1, h2, h3, h4, h6⟩ h

theorem C80_itoa_injective (a b : Int64) (h : itoa a = itoa b) : a = b := itoa_inj h

/-! ## C81 -/

theorem parseFloat_formatFloat {x : F64} (h : x.isNaN = false) : parseFloat (formatFloat x) = some x := by
  unfold formatFloat
  simp only [h, Bool.false_eq_true, if_false]
  rcases not_finite_cases x with hf | hi | hn
  · have hi : x.isInf = false := by simp [isFinite, isInf] at hf ⊢; omega
    have hm : x.mag.val < infMag := by simpa [isFinite] using hf
    simp only [hi, Bool.false_eq_true, if_false]
    have hr := readFloatMag_decText _ _ (readsBack_shortest x.mag.val) hm
    have hk := mk'_of_finite hf
    obtain ⟨c, cs, hc, hd⟩ := decText_head (shortest x.mag.val)
    rw [hc] at hr ⊢
    obtain ⟨p1, p2, _⟩ := parseFloat_digit (cs := cs) hd
    cases hneg : x.neg
    · rw [if_neg (by simp), p1, hr, Option.map_some, ← hneg, hk]
    · rw [if_pos rfl, p2, hr, Option.map_some, ← hneg, hk]
  · simp only [hi, if_true]
    have : x = inf x.neg := by
      obtain ⟨n, m⟩ := x
      simp [isInf] at hi
      simp [inf, hi, Fin.ext_iff]
    rw [this]
    cases x.neg <;> decide
  · rw [h] at hn; cases hn

/-- C81, full: for every one of the 2^64 float64 values, the shortest text parses back to the same
bits, and NaN parses back to a NaN. -/
theorem C81_parse_format (x : F64) :
    (x.isNaN = false → parseFloat (formatFloat x) = some x) ∧
    (x.isNaN = true → ∃ y, parseFloat (formatFloat x) = some y ∧ y.isNaN = true) := by
  refine ⟨parseFloat_formatFloat, fun h => ⟨nan, ?_, by decide⟩⟩
  simp only [formatFloat, h, if_true]; decide

/-- The text distinguishes all values except NaNs. -/
theorem C81_format_injective (x y : F64) (hx : x.isNaN = false) (hy : y.isNaN = false)
    (h : formatFloat x = formatFloat y) : x = y := by
  have := parseFloat_formatFloat hx
  rw [h, parseFloat_formatFloat hy] at this
  exact (Option.some.inj this).symm

/-- What a plain decimal literal means: ParseFloat of digits, with or without sign and fraction,
is the float64 nearest to the exact decimal value (ties to even), or an error if that is beyond the
largest finite number.  `m` ranges over magnitudes with unbounded exponent. -/
theorem C81_parse_decimal_nearest (ip fp : Bytes) (hi : ip.all isDigit = true) (hf : fp.all isDigit = true)
    (hne : ip ≠ []) (m : Nat)
    (hm : Nearest (decVal 0 (ip ++ fp) * 2 ^ 1074) (10 ^ fp.length) m) :
    parseFloat (pointText ip fp) = (if m < infMag then some (mk' false m) else none) ∧
    parseFloat (45 :: pointText ip fp) = (if m < infMag then some (mk' true m) else none) := by
  have hu : roundMag (decVal 0 (ip ++ fp) * 2 ^ 1074) (10 ^ fp.length) = m :=
    (roundMag_nearest _ _ (ten_pow_pos _)).unique (ten_pow_pos _) hm
  have hr := readFloatMag_pointText hi hf hne
  rw [hu] at hr
  obtain ⟨c, cs, hc, hd, _⟩ := pointText_head (fp := fp) hi hne
  rw [hc] at hr ⊢
  obtain ⟨p1, p2, _⟩ := parseFloat_digit (cs := cs) hd
  rw [p1, p2, hr]
  split <;> simp

example : pointText b!"3" b!"14" = b!"3.14" ∧ b!"3".all isDigit = true ∧ b!"14".all isDigit = true ∧
    decVal 0 b!"314" = 314 ∧ parseFloat b!"3.14" = some (mk' false 4614253070214989087) := by decide +kernel

/-! ## C82 -/

/-- C82, full, for the sum of two finite float64: the sign of the exact sum with the magnitude
nearest to it (ties to even); infinity when that exceeds the finite range; zero rules of IEEE. -/
theorem C82_add_correctly_rounded (x y : F64) (hx : x.isFinite = true) (hy : y.isFinite = true) :
    (x.sunits + y.sunits ≠ 0 → ∀ m, Nearest (x.sunits + y.sunits).natAbs 1 m →
      x.add y = if h : m < infMag then ⟨decide (x.sunits + y.sunits < 0), ⟨m, by unfold infMag at h; omega⟩⟩
        else inf (decide (x.sunits + y.sunits < 0))) ∧
    (x.sunits + y.sunits = 0 → x.add y = ⟨x.neg && y.neg, ⟨0, by decide⟩⟩) := by
  have n1 : x.isNaN = false := by simp [isFinite, isNaN] at hx ⊢; omega
  have n2 : y.isNaN = false := by simp [isFinite, isNaN] at hy ⊢; omega
  have i1 : x.isInf = false := by simp [isFinite, isInf] at hx ⊢; omega
  have i2 : y.isInf = false := by simp [isFinite, isInf] at hy ⊢; omega
  constructor
  · intro hs m hm
    have hu : roundMag (x.sunits + y.sunits).natAbs 1 = m :=
      (roundMag_nearest _ _ (by omega)).unique (by omega) hm
    simp only [add, n1, n2, i1, i2, Bool.or_self, Bool.false_eq_true, if_false, hs]
    unfold ofUnits
    rw [hu]; rfl
  · intro hs
    simp only [add, n1, n2, i1, i2, Bool.or_self, Bool.false_eq_true, if_false, hs, if_true]
    cases x.neg <;> cases y.neg <;> rfl

/-- C82: the nearest magnitude exists (and is unique, `Nearest.unique`), so the theorem above pins
down the sum. -/
theorem C82_nearest_exists (n d : Nat) (hd : 0 < d) : ∃ m, Nearest n d m ∧ ∀ m', Nearest n d m' → m' = m :=
  ⟨roundMag n d, roundMag_nearest n d hd, fun _ h => h.unique hd (roundMag_nearest n d hd)⟩

/-- C82: an integer counter turned into a float is correctly rounded too. -/
theorem C82_ofInt_correctly_rounded (n : Int) (m : Nat) (hm : Nearest (n.natAbs * 2 ^ 1074) 1 m) :
    F64.ofInt n = mk' (decide (n < 0)) m := by
  have hu : roundMag (n.natAbs * 2 ^ 1074) 1 = m :=
    (roundMag_nearest _ _ (by omega)).unique (by omega) hm
  unfold F64.ofInt
  rw [hu]

/-- C82, the pairs with an infinity or NaN: the sum is NaN if and only if one of them is, or they are opposite infinities, … -/
theorem C82_nan_iff (x y : F64) :
    (x.add y).isNaN = true ↔ x.isNaN = true ∨ y.isNaN = true ∨ (x.isInf = true ∧ y.isInf = true ∧ x.neg ≠ y.neg) := by
  have hnan : nan.isNaN = true := by decide
  have hmk : ∀ b m, (mk' b m).isNaN = false := by
    intro b m
    unfold mk' isNaN
    split <;> simp <;> omega
  have hinf : ∀ z : F64, z.isInf = true → z.isNaN = false := by
    intro z hz; simp [isInf, isNaN] at hz ⊢; omega
  unfold add
  by_cases h1 : x.isNaN = true
  · simp [h1, hnan]
  by_cases h2 : y.isNaN = true
  · simp [h2, hnan]
  simp only [Bool.not_eq_true] at h1 h2
  simp only [h1, h2, Bool.or_self, Bool.false_eq_true, if_false, false_or]
  by_cases h3 : x.isInf = true
  · simp only [h3, if_true, true_and]
    by_cases h4 : y.isInf = true
    · by_cases h5 : x.neg = y.neg <;> simp [h4, h5, hnan, h1]
    · simp [h4, h1]
  · simp only [h3, if_false, false_and, iff_false]
    by_cases h4 : y.isInf = true
    · simp [h4, h2]
    · simp only [h4]
      split
      · exact absurd ‹_› (by simp)
      · split
        · split <;> simp [isNaN, infMag, zero]
        · unfold ofUnits
          rw [hmk]; simp

/-- … and otherwise an infinity absorbs the other number. -/
theorem C82_infinite (x y : F64) (hn : (x.add y).isNaN = false) :
    (x.isInf = true → x.add y = x) ∧ (y.isInf = true → x.add y = y) := by
  have h := mt (C82_nan_iff x y).mpr (by simp [hn])
  simp only [not_or, Bool.not_eq_true, not_and] at h
  obtain ⟨h1, h2, h3⟩ := h
  constructor
  · intro hx
    by_cases h4 : y.isInf = true
    · have := h3 hx h4
      simp only [ne_eq, Decidable.not_not] at this
      simp [add, h1, h2, hx, h4, this]
    · simp [add, h1, h2, hx, h4]
  · intro hy
    by_cases h4 : x.isInf = true
    · have := h3 h4 hy
      simp only [ne_eq, Decidable.not_not] at this
      simp [add, h1, h2, h4, hy, this]
      obtain ⟨a, b⟩ := x
      obtain ⟨c, d⟩ := y
      simp only [isInf, decide_eq_true_eq] at h4 hy
      simp only at this
      rw [this]
      congr 1
      exact Fin.ext (by rw [h4, hy])
    · simp [add, h1, h2, h4, hy]

/-- Two increments by the largest float64 make the value infinite, and it stays so. -/
example : outs Cache.new [(0, .incrByFloat b!"k" (mk' false (infMag - 1))), (0, .incrByFloat b!"k" (mk' false (infMag - 1))), (0, .get b!"k"),
    (0, .incrByFloat b!"k" (F64.ofInt (-1))), (0, .incrByFloat b!"k" (inf true)), (0, .get b!"k")] =
    [.float (.ok (mk' false (infMag - 1))), .float (.ok (inf false)), .str (.ok b!"+Inf"), .float (.ok (inf false)), .float (.ok nan), .str (.ok b!"NaN")] := by
  decide +kernel

/-- C82 at the API: on a key holding the finite float64 `v`, IncrByFloat by a finite `x` with a
nonzero exact sum answers and stores the nearest float64. -/
theorem C82_incrByFloat (c : Cache) (k : Bytes) (v x : F64) (t : Int) (m : Nat)
    (hv : c.data k = some (.scalar (.float v))) (h1 : v.isFinite = true) (h2 : x.isFinite = true)
    (hs : v.sunits + x.sunits ≠ 0) (hm : Nearest (v.sunits + x.sunits).natAbs 1 m) :
    (exec c t (.incrByFloat k x)).2 = .float (.ok (mk' (decide (v.sunits + x.sunits < 0)) m)) ∧
    (exec c t (.incrByFloat k x)).1.data k = some (.scalar (.float (mk' (decide (v.sunits + x.sunits < 0)) m))) := by
  have := (C82_add_correctly_rounded v x h1 h2).1 hs m hm
  have h3 : v.add x = mk' (decide (v.sunits + x.sunits < 0)) m := by rw [this]; rfl
  simp [exec, incrByFloat, hv, store, h3]

example : ∃ v x : F64, v.isFinite = true ∧ x.isFinite = true ∧ v.sunits + x.sunits ≠ 0 ∧
    Nearest (v.sunits + x.sunits).natAbs 1 (roundMag (v.sunits + x.sunits).natAbs 1) :=
  ⟨F64.ofInt 1, F64.ofInt 2, by decide +kernel, by decide +kernel, by decide +kernel,
    roundMag_nearest _ _ (by omega)⟩

/-! ## C02, second half -/

theorem decimalValue_eq (ds : Bytes) (h : ds.all isDigit = true) : decimalValue ds = decVal 0 ds := by
  have h1 := digitsVal_eq ds 0 h
  rw [digitsVal_eq_decVal 0 ds h] at h1
  exact (Option.some.inj h1).symm

theorem all_digits_pointText {ip fp : Bytes} (h : (pointText ip fp).all isDigit = true) : fp = [] := by
  unfold pointText at h
  split at h
  · assumption
  · simp at h; exact absurd h.2.1 (by decide)

theorem atoi_decText {v : Nat} {n : Int64} (h : atoi (decText v) = some n) : itoa n = decText v := by
  obtain ⟨c, cs, hc, hd⟩ := decText_head v
  rw [atoi_some_iff, atoiInt_iff] at h
  obtain ⟨sign, ds, h1, h2, h3, h4, h5, _⟩ := h
  have hne := isDigit_ne hd
  have hs : sign = [] := by
    rcases h2 with h2 | h2 | h2
    · exact h2
    · rw [hc, h2] at h1; simp at h1; exact absurd h1.1 hne.2
    · rw [hc, h2] at h1; simp at h1; exact absurd h1.1 hne.1
  subst hs
  rw [List.nil_append] at h1
  rw [← h1] at h4
  rw [decText_eq] at h4 h1
  have hf := all_digits_pointText h4
  rw [decText_eq]
  rw [hf] at h1 ⊢
  simp only [pointText, if_true] at h1 ⊢
  simp only [if_false, reduceCtorEq] at h5
  rw [decimalValue_eq _ (by rw [← h1]; exact natText_all_digits _), ← h1, decVal_natText] at h5
  unfold itoa itoaInt
  rw [h5, if_neg (by omega)]
  congr 1

theorem atoi_neg_decText {v : Nat} {n : Int64} (h : atoi (45 :: decText v) = some n)
    (h0 : decText v ≠ b!"0") : itoa n = 45 :: decText v := by
  obtain ⟨c, cs, hc, hd⟩ := decText_head v
  rw [atoi_some_iff, atoiInt_iff] at h
  obtain ⟨sign, ds, h1, h2, h3, h4, h5, _⟩ := h
  have hs : sign = b!"-" := by
    rcases h2 with h2 | h2 | h2
    · subst h2
      rw [List.nil_append] at h1
      rw [← h1] at h4; simp at h4; exact absurd h4.1 (by decide)
    · rw [h2] at h1; simp at h1
    · exact h2
  subst hs
  simp at h1
  rw [← h1] at h4
  rw [decText_eq] at h4 h1 h0
  have hf := all_digits_pointText h4
  rw [decText_eq]
  rw [hf] at h1 h0 ⊢
  simp only [pointText, if_true] at h1 h0 ⊢
  rw [if_pos rfl, decimalValue_eq _ (by rw [← h1]; exact natText_all_digits _), ← h1, decVal_natText] at h5
  generalize v / 10 ^ 1074 = q at *
  have hq : q ≠ 0 := by rintro rfl; exact h0 (by decide)
  unfold itoa itoaInt
  rw [h5, if_pos (by omega)]
  congr 2; omega

/-- C02 idempotence, for every `v` except the spellings of the float negative zero: reading, storing
what was read, and reading again shows the same text. -/
theorem canon_canon (v : Bytes) (h0 : canon v ≠ b!"-0") : canon (canon v) = canon v := by
  cases ha : atoi v with
  | some n =>
    have : canon v = itoa n := by simp [canon, ha]
    rw [this, canon_itoa]
  | none =>
    cases hp : parseFloat v with
    | none =>
      have : canon v = v := canon_of_nonNumeric ⟨ha, hp⟩
      rw [this, this]
    | some x =>
      have hc : canon v = formatFloat x := by simp [canon, ha, hp]
      rw [hc] at h0 ⊢
      cases hn : x.isNaN with
      | true =>
        have : formatFloat x = b!"NaN" := by simp [formatFloat, hn]
        rw [this]; decide
      | false =>
        have hb := parseFloat_formatFloat hn
        unfold canon
        cases ha2 : atoi (formatFloat x) with
        | none => simp [hb]
        | some n =>
          simp only
          revert ha2 h0
          unfold formatFloat
          simp only [hn, Bool.false_eq_true, if_false]
          cases hi : x.isInf with
          | true =>
            simp only [if_true]
            cases x.neg
            · intro _ h; rw [if_neg (by decide), show atoi b!"+Inf" = none by decide] at h; cases h
            · intro _ h; rw [if_pos rfl, show atoi b!"-Inf" = none by decide] at h; cases h
          | false =>
            simp only [Bool.false_eq_true, if_false]
            cases x.neg with
            | false => intro _ h; rw [if_neg (by decide)] at h ⊢; exact atoi_decText h
            | true =>
              intro h0 h
              rw [if_pos rfl] at h0 h ⊢
              exact atoi_neg_decText h (fun e => h0 (by rw [e]))

/-- C02, second half at the API: Set v, Get → u, Set u, Get → u again.  Missing: values whose text
is "-0" (see C02_violated). -/
theorem C02_canon_stable_partial (c : Cache) (k v u : Bytes) (s1 s2 t : Int)
    (hd : NotPassed c t k) (hd2 : NotPassed c s2 k) (h0 : u ≠ b!"-0")
    (hu : (exec (exec c s1 (.set k v)).1 s2 (.get k)).2 = .str (.ok u)) :
    (exec (exec (exec c s1 (.set k v)).1 s2 (.set k u)).1 t (.get k)).2 = .str (.ok u) := by
  have h1 := C02_get_set_canon c k v s1 s2 [] hd2 (by simp [NoWrite]) (by simp [Until])
  simp only [run] at h1
  rw [h1] at hu
  simp at hu
  have h2 := C02_get_set_canon (exec c s1 (.set k v)).1 k u s2 t [] hd (by simp [NoWrite]) (by simp [Until])
  simp only [run] at h2
  rw [h2, ← hu, canon_canon v (by rw [hu]; exact h0)]

/-- C02 is false on negative zero: "-0.0" is shown as "-0", and "-0" stored again as "0". -/
theorem C02_violated :
    outs Cache.new [(0, .set b!"k" b!"-0.0"), (0, .get b!"k"), (0, .set b!"k" b!"-0"), (0, .get b!"k")]
      = [.str (.ok OK), .str (.ok b!"-0"), .str (.ok OK), .str (.ok b!"0")] := by
  decide +kernel

example : canon b!"1e400" = b!"1e400" ∧ canon b!"-1.50" = b!"-1.5" ∧ canon b!"1e20" = b!"100000000000000000000" := by
  decide +kernel

/-! ## C17 in terms of what Get shows -/

/-- C17: if Get shows text that is no integer or float literal, every counter call fails and
changes nothing, in every reachable state. -/
theorem C17_visible_text_not_a_number (c : Cache) (hc : Reachable c) (k u : Bytes) (op : Call) (n : Int64)
    (x : F64) (t : Int) (hop : Adds k op n) (hu : getOut c t k = .str (.ok u)) (hn : NonNumeric u) :
    (exec c t op).2 = .int (.err .wrongType) ∧ (exec c t op).1 = c ∧
    (exec c t (.incrByFloat k x)).2 = .float (.err .wrongType) ∧ (exec c t (.incrByFloat k x)).1 = c := by
  refine C17_not_a_number_fails c k op n x t hop (.inl ?_)
  rw [getOut_eq] at hu
  cases hl : liveVal c t k with
  | none => rw [hl] at hu; simp [showVal] at hu
  | some v =>
    have hd := data_of_live hl
    have hg := hc.inv.good k v hd
    rw [hl] at hu
    cases v with
    | scalar sc =>
      simp only [showVal, fmtString] at hu
      simp at hu
      cases sc with
      | str s => exact ⟨s, hd⟩
      | int m => simp [fmtScalar] at hu; rw [NonNumeric, ← hu, atoi_itoa] at hn; simp at hn
      | int64 m => simp [fmtScalar] at hu; rw [NonNumeric, ← hu, atoi_itoa] at hn; simp at hn
      | float y =>
        simp [fmtScalar] at hu
        rw [NonNumeric, ← hu] at hn
        exfalso
        cases hy : y.isNaN with
        | false => rw [parseFloat_formatFloat hy] at hn; simp at hn
        | true =>
          have : formatFloat y = b!"NaN" := by simp [formatFloat, hy]
          rw [this] at hn; exact absurd hn.2 (by decide)
      | _ => cases hg <;> rename_i hg <;> cases hg
    | hash e => simp [showVal, fmtString] at hu
    | _ => cases hg

example : NonNumeric b!"abc" ∧ getOut (run Cache.new [(0, .set b!"k" b!"abc")]) 1 b!"k" = .str (.ok b!"abc") :=
  ⟨⟨by decide, by decide⟩, by decide +kernel⟩

end Verif

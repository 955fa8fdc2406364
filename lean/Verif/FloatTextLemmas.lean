import Verif.FloatText
import Verif.FloatRound
import Verif.StrconvProps
/-!
# Reading decimal text back
-/
namespace Verif
open F64

theorem ten_pow_pos (n : Nat) : 0 < 10 ^ n := Nat.pow_pos (by omega)

/-- Value of a decimal digit. -/
@[irreducible] def dv (c : UInt8) : Nat := c.toNat - 48

theorem dv_eq (c : UInt8) : c.toNat - 48 = dv c := by unfold dv; exact Eq.refl _

/-- Number written by decimal digits, after `a`. -/
def decVal (a : Nat) : Bytes → Nat
  | [] => a
  | c :: ds => decVal (a * 10 + dv c) ds

theorem decVal_cons (a : Nat) (c : UInt8) (ds : Bytes) :
    decVal a (c :: ds) = decVal (a * 10 + dv c) ds := by simp only [decVal]

theorem decVal_append (a : Nat) (s t : Bytes) : decVal a (s ++ t) = decVal (decVal a s) t := by
  induction s generalizing a with
  | nil => rfl
  | cons c s ih => rw [List.cons_append, decVal_cons, decVal_cons, ih]

theorem decVal_acc (a : Nat) (ds : Bytes) : decVal a ds = a * 10 ^ ds.length + decVal 0 ds := by
  induction ds generalizing a with
  | nil => simp [decVal]
  | cons c ds ih =>
    rw [decVal_cons, decVal_cons, ih, ih (0 * 10 + _), List.length_cons, Nat.pow_succ]
    simp only [Nat.zero_mul, Nat.zero_add]
    rw [Nat.add_mul, Nat.mul_assoc, Nat.mul_comm 10]; omega

theorem digitsVal_eq_decVal (a : Nat) (ds : Bytes) (h : ds.all isDigit = true) :
    digitsVal a ds = some (decVal a ds) := by
  induction ds generalizing a with
  | nil => rfl
  | cons c ds ih =>
    simp at h
    simp only [digitsVal, h.1, if_true, dv_eq]
    rw [ih _ (by simpa using h.2), decVal_cons]

theorem decVal_natText (n : Nat) : decVal 0 (natText n) = n := by
  have := digitsVal_natText n
  rw [digitsVal_eq_decVal 0 _ (natText_all_digits n)] at this
  simpa using this

theorem isDigit_bounds {c : UInt8} (h : isDigit c = true) : 48 ≤ c.toNat ∧ c.toNat ≤ 57 := by
  simpa [isDigit] using h

theorem isDigit_ne_of {c d : UInt8} (h : isDigit c = true) (hd : isDigit d = false) : c ≠ d := by
  rintro rfl; rw [h] at hd; cases hd

theorem mantDigit_digit {hex : Bool} {c : UInt8} (h : isDigit c = true) :
    mantDigit hex c = some (dv c) := by simp only [mantDigit, h, if_true, dv_eq]

theorem scanMant_digits (st : Mant) (ds rest : Bytes) (h : ds.all isDigit = true) :
    scanMant false st (ds ++ rest) = scanMant false
      { st with val := decVal st.val ds, nfrac := if st.dot then st.nfrac + ds.length else st.nfrac,
                digits := st.digits || !ds.isEmpty } rest := by
  induction ds generalizing st with
  | nil => simp [decVal]
  | cons c ds ih =>
    simp at h
    have h1 : c ≠ 95 := isDigit_ne_of h.1 (by decide)
    have h2 : c ≠ 46 := isDigit_ne_of h.1 (by decide)
    rw [List.cons_append, scanMant.eq_2, if_neg h1, if_neg h2, mantDigit_digit h.1]
    simp only
    rw [ih _ (by simpa using h.2)]
    congr 1
    cases hd : st.dot
    · simp [decVal_cons]
    · simp [decVal_cons]; omega

/-- The text of a decimal number: integer digits, and a point and fraction digits if there are any. -/
def pointText (ip fp : Bytes) : Bytes := if fp = [] then ip else ip ++ 46 :: fp

theorem scanMant_pointText {ip fp : Bytes} (h1 : ip.all isDigit = true) (h2 : fp.all isDigit = true)
    (hne : ip ≠ []) :
    scanMant false {} (pointText ip fp)
      = ({ val := decVal 0 (ip ++ fp), nfrac := fp.length, dot := !fp.isEmpty, digits := true, us := false }, []) := by
  unfold pointText
  have hE : ip.isEmpty = false := by cases ip <;> simp_all
  split
  · rename_i he
    subst he
    have := scanMant_digits {} ip [] h1
    rw [List.append_nil] at this
    rw [this]
    simp [scanMant, hE]
  · rename_i hf
    have hF : fp.isEmpty = false := by cases fp <;> simp_all
    rw [scanMant_digits {} ip _ h1, scanMant.eq_2]
    simp only [show (46 : UInt8) ≠ 95 by decide, if_false, if_true]
    simp only [Bool.false_eq_true, if_false]
    have := scanMant_digits { val := decVal 0 ip, nfrac := 0, dot := true, digits := true, us := false } fp [] h2
    rw [List.append_nil] at this
    simp only [hE, Bool.not_false, Bool.false_or]
    rw [this]
    simp [scanMant, hF, decVal_append]

theorem pointText_head {ip fp : Bytes} (h1 : ip.all isDigit = true) (hne : ip ≠ []) :
    ∃ c cs, pointText ip fp = c :: cs ∧ isDigit c = true ∧
      (∀ x y, cs = x :: y → isDigit x = true ∨ x = 46) := by
  cases ip with
  | nil => exact absurd rfl hne
  | cons c cs =>
    simp at h1
    unfold pointText
    split
    · exact ⟨c, cs, rfl, h1.1, fun x y e => .inl (h1.2 x (by simp [e]))⟩
    · refine ⟨c, cs ++ 46 :: fp, rfl, h1.1, fun x y e => ?_⟩
      cases cs with
      | nil => simp at e; exact .inr e.1.symm
      | cons d ds => simp at e; exact .inl (h1.2 x (by simp [e.1]))

theorem lowerBit_digit {c : UInt8} (h : isDigit c = true ∨ c = 46) : lowerBit c ≠ 120 := by
  rcases h with h | h
  · have := isDigit_bounds h; intro e; rw [← UInt8.toNat_inj] at e; simp [lowerBit] at e; generalize c.toNat = x at *; have : x < 58 := by omega
    have key : ∀ x < 58, x ||| 32 ≠ 120 := by decide
    exact key x this e
  · subst h; decide

/-- Reading a plain decimal rounds its exact value. -/
theorem readFloatMag_pointText {ip fp : Bytes} (h1 : ip.all isDigit = true) (h2 : fp.all isDigit = true)
    (hne : ip ≠ []) :
    readFloatMag (pointText ip fp)
      = if roundMag (decVal 0 (ip ++ fp) * 2 ^ 1074) (10 ^ fp.length) < infMag
        then some (roundMag (decVal 0 (ip ++ fp) * 2 ^ 1074) (10 ^ fp.length)) else none := by
  have hs := scanMant_pointText h1 h2 hne
  obtain ⟨c, cs, hc, hc1, hc2⟩ := pointText_head (fp := fp) h1 hne
  unfold readFloatMag
  have hbody : splitHex (pointText ip fp) = (false, pointText ip fp) := by
    unfold splitHex
    split
    · rename_i x c' cs' he
      rw [hc] at he
      simp at he
      rw [if_neg (lowerBit_digit (hc2 x _ he.2))]
    · rfl
  rw [hbody]
  simp only [hs]
  simp only [Bool.true_eq_false, if_false, Bool.false_eq_true, ne_eq, not_true_eq_false, Bool.or_self, Bool.false_and,
    Int.zero_sub]
  have hr : roundLit false (decVal 0 (ip ++ fp)) (-(fp.length : Int))
      = roundMag (decVal 0 (ip ++ fp) * 2 ^ 1074) (10 ^ fp.length) := by
    unfold roundLit
    simp only [Bool.false_eq_true, if_false, Int.neg_neg]
    split
    · rename_i h
      have : fp.length = 0 := by omega
      rw [this, show ((-((0 : Nat) : Int)).toNat) = 0 from rfl, Nat.pow_zero, Nat.mul_one]
    · rw [show ((fp.length : Int)).toNat = fp.length from by omega]
  rw [hr]

theorem fracText_spec (w fr : Nat) (h : fr < 10 ^ w) :
    (fracText w fr).all isDigit = true ∧ (fracText w fr).length ≤ w ∧
    decVal 0 (fracText w fr) * 10 ^ (w - (fracText w fr).length) = fr := by
  induction w generalizing fr with
  | zero => simp at h; subst h; simp [fracText, decVal]
  | succ w ih =>
    unfold fracText
    split
    · rename_i h0; subst h0; simp [decVal]
    · have hp : 0 < 10 ^ w := ten_pow_pos w
      have hd : fr / 10 ^ w < 10 := by
        rw [Nat.div_lt_iff_lt_mul hp, ← Nat.pow_succ']; exact h
      obtain ⟨i1, i2, i3⟩ := ih (fr % 10 ^ w) (Nat.mod_lt _ hp)
      refine ⟨by simp only [List.all_cons, isDigit_digitByte hd, i1]; rfl, by simpa using i2, ?_⟩
      rw [decVal_cons, decVal_acc, List.length_cons, Nat.add_sub_add_right, ← dv_eq, digitByte_toNat hd, Nat.add_mul, i3]
      rw [Nat.zero_mul, Nat.zero_add, Nat.add_sub_cancel_left, Nat.mul_assoc, ← Nat.pow_add, Nat.add_sub_of_le i2]
      rw [Nat.mul_comm]; exact Nat.div_add_mod fr (10 ^ w)

theorem fracText_ne_nil {w fr : Nat} (h : fr < 10 ^ w) (h0 : fr ≠ 0) : fracText w fr ≠ [] := by
  cases w with
  | zero => simp at h; omega
  | succ w => simp [fracText, h0]

theorem decText_eq (v : Nat) :
    decText v = pointText (natText (v / 10 ^ 1074)) (fracText 1074 (v % 10 ^ 1074)) := by
  have hlt : v % 10 ^ 1074 < 10 ^ 1074 := Nat.mod_lt _ (ten_pow_pos 1074)
  unfold decText pointText
  simp only
  by_cases h0 : v % 10 ^ 1074 = 0
  · rw [if_pos h0, if_pos]
    rw [h0]; rfl
  · rw [if_neg h0, if_neg (fracText_ne_nil hlt h0)]

theorem readsBack_iff {mag v : Nat} : readsBack mag v = true ↔ roundMag (v * 2 ^ 1074) (10 ^ 1074) = mag := by
  unfold readsBack; exact decide_eq_true_iff

theorem ratio_aux {N L F I C : Nat} (f2 : L ≤ N) :
    (I * 10 ^ L + F) * C * 10 ^ N = (10 ^ N * I + F * 10 ^ (N - L)) * C * 10 ^ L := by
  have hp : 10 ^ N = 10 ^ L * 10 ^ (N - L) := by rw [← Nat.pow_add, Nat.add_sub_of_le f2]
  rw [hp]
  generalize 10 ^ L = A
  generalize 10 ^ (N - L) = B
  rw [Nat.add_mul, Nat.add_mul, Nat.add_mul, Nat.add_mul]
  congr 1 <;> ac_rfl

theorem readFloatMag_decText (v mag : Nat) (h : readsBack mag v = true) (hm : mag < infMag) :
    readFloatMag (decText v) = some mag := by
  have hlt : v % 10 ^ 1074 < 10 ^ 1074 := Nat.mod_lt _ (ten_pow_pos 1074)
  obtain ⟨f1, f2, f3⟩ := fracText_spec 1074 _ hlt
  rw [decText_eq, readFloatMag_pointText (natText_all_digits _) f1 (natText_ne_nil _)]
  have hr : roundMag (decVal 0 (natText (v / 10 ^ 1074) ++ fracText 1074 (v % 10 ^ 1074)) * 2 ^ 1074)
      (10 ^ (fracText 1074 (v % 10 ^ 1074)).length) = mag := by
    have h' : roundMag (v * 2 ^ 1074) (10 ^ 1074) = mag := readsBack_iff.1 h
    rw [← h']
    refine roundMag_ratio (ten_pow_pos _) (ten_pow_pos _) ?_
    rw [decVal_append, decVal_natText, decVal_acc]
    generalize hL : (fracText 1074 (v % 10 ^ 1074)).length = L at f2 f3 ⊢
    generalize decVal 0 (fracText 1074 (v % 10 ^ 1074)) = F at f3 ⊢
    have hdm := Nat.div_add_mod v (10 ^ 1074)
    rw [← f3] at hdm
    generalize v / 10 ^ 1074 = I at hdm ⊢
    rw [ratio_aux f2, hdm]
  rw [hr, if_pos hm]

theorem readsBack_exact (mag : Nat) : readsBack mag (units mag * 5 ^ 1074) = true := by
  rw [readsBack_iff, Nat.mul_assoc, ← Nat.mul_pow]
  exact roundMag_units mag _ (ten_pow_pos _)

theorem readsBack_shortestAux {mag D : Nat} (h : readsBack mag D = true) (j : Nat) :
    readsBack mag (shortestAux mag D j) = true := by
  induction j with
  | zero => exact h
  | succ j ih =>
    rw [shortestAux]
    generalize 10 ^ (j + 1) = p
    by_cases h1 : readsBack mag (D / p * p) = true
    · rw [if_pos h1]
      by_cases h2 : readsBack mag (D / p * p + p) = true
      · rw [if_pos h2]
        by_cases c1 : 2 * (D - D / p * p) < p
        · rw [if_pos c1]; exact h1
        · rw [if_neg c1]
          by_cases c2 : p < 2 * (D - D / p * p)
          · rw [if_pos c2]; exact h2
          · rw [if_neg c2]
            by_cases c3 : D / p % 2 = 0
            · rw [if_pos c3]; exact h1
            · rw [if_neg c3]; exact h2
      · rw [if_neg h2]; exact h1
    · rw [if_neg h1]
      by_cases h2 : readsBack mag (D / p * p + p) = true
      · rw [if_pos h2]; exact h2
      · rw [if_neg h2]; exact ih

theorem readsBack_shortest (mag : Nat) : readsBack mag (shortest mag) = true :=
  readsBack_shortestAux (readsBack_exact mag) _

theorem decText_head (v : Nat) : ∃ c cs, decText v = c :: cs ∧ isDigit c = true := by
  rw [decText_eq]
  obtain ⟨c, cs, h1, h2, _⟩ := pointText_head (fp := fracText 1074 (v % 10 ^ 1074))
    (natText_all_digits (v / 10 ^ 1074)) (natText_ne_nil _)
  exact ⟨c, cs, h1, h2⟩

theorem lowerLetter_digit {c : UInt8} (h : isDigit c = true) : lowerLetter c = c := by
  have := isDigit_bounds h
  simp [lowerLetter]; omega

theorem isInfWord_digit {c : UInt8} {cs : Bytes} (h : isDigit c = true) : isInfWord (c :: cs) = false := by
  have h1 : c ≠ 105 := isDigit_ne_of h (by decide)
  simp [isInfWord, lowerLetter_digit h]
  exact ⟨fun e => absurd e h1, fun e => absurd e h1⟩

/-- Sign and digits: `ParseFloat` of text starting with a digit, with or without a sign. -/
theorem parseFloat_digit {c : UInt8} {cs : Bytes} (h : isDigit c = true) :
    parseFloat (c :: cs) = (readFloatMag (c :: cs)).map (F64.mk' false) ∧
    parseFloat (45 :: c :: cs) = (readFloatMag (c :: cs)).map (F64.mk' true) ∧
    parseFloat (43 :: c :: cs) = (readFloatMag (c :: cs)).map (F64.mk' false) := by
  have h1 : c ≠ 110 := isDigit_ne_of h (by decide)
  have h2 := isDigit_ne h
  refine ⟨?_, ?_, ?_⟩
  · unfold parseFloat
    rw [if_neg (by simp [lowerLetter_digit h]; exact fun e => absurd e h1)]
    have : splitSign (c :: cs) = (false, c :: cs) := by
      unfold splitSign
      split
      · rename_i hh; simp at hh; exact absurd hh.1 h2.2
      · rename_i hh; simp at hh; exact absurd hh.1 h2.1
      · rfl
    rw [this]
    simp [isInfWord_digit h]
  · unfold parseFloat
    rw [if_neg (by simp [lowerLetter])]
    simp [splitSign, isInfWord_digit h]
  · unfold parseFloat
    rw [if_neg (by simp [lowerLetter])]
    simp [splitSign, isInfWord_digit h]

theorem mk'_of_finite {x : F64} (h : x.isFinite = true) : F64.mk' x.neg x.mag.val = x := by
  have : x.mag.val < infMag := by simpa [isFinite] using h
  simp [F64.mk', this]

theorem not_finite_cases (x : F64) : x.isFinite = true ∨ x.isInf = true ∨ x.isNaN = true := by
  simp only [isFinite, isInf, isNaN, decide_eq_true_eq]; omega

end Verif

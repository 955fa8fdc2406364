import Verif.Strconv
/-!
# C80: integer text round trip
-/
namespace Verif

theorem digitByte_toNat {d : Nat} (h : d < 10) : (digitByte d).toNat = 48 + d := by
  simp [digitByte, UInt8.toNat_ofNat']; omega

theorem isDigit_digitByte {d : Nat} (h : d < 10) : isDigit (digitByte d) = true := by
  simp [isDigit, digitByte_toNat h]; omega

theorem digitsVal_append (a : Nat) (s t : Bytes) :
    digitsVal a (s ++ t) = (digitsVal a s).bind (fun v => digitsVal v t) := by
  induction s generalizing a with
  | nil => simp [digitsVal]
  | cons c cs ih => simp only [List.cons_append, digitsVal]; split <;> simp [ih]

theorem digitsVal_some_iff (a : Nat) (s : Bytes) :
    (digitsVal a s).isSome = s.all isDigit := by
  induction s generalizing a with
  | nil => simp [digitsVal]
  | cons c cs ih => simp only [digitsVal, List.all_cons]; split <;> simp_all

theorem digitsVal_natTextAux (f n : Nat) (h : n < f) : digitsVal 0 (natTextAux f n) = some n := by
  induction f generalizing n with
  | zero => omega
  | succ f ih =>
    unfold natTextAux
    split
    · rename_i hn
      simp [digitsVal, isDigit_digitByte hn, digitByte_toNat hn]
    · rename_i hn
      have hm : n % 10 < 10 := Nat.mod_lt _ (by omega)
      rw [digitsVal_append, ih (n / 10) (by omega)]
      simp [digitsVal, isDigit_digitByte hm, digitByte_toNat hm]
      omega

theorem natTextAux_ne_nil (f n : Nat) (h : n < f) : natTextAux f n ≠ [] := by
  cases f with
  | zero => omega
  | succ f => unfold natTextAux; split <;> simp

theorem natText_ne_nil (n : Nat) : natText n ≠ [] := natTextAux_ne_nil _ _ (by omega)

theorem digitsVal_natText (n : Nat) : digitsVal 0 (natText n) = some n :=
  digitsVal_natTextAux _ _ (by omega)

theorem parseNat_natText (n : Nat) : parseNat (natText n) = some n := by
  simp [parseNat, natText_ne_nil, digitsVal_natText]

theorem natText_all_digits (n : Nat) : (natText n).all isDigit = true := by
  rw [← digitsVal_some_iff 0, digitsVal_natText]; rfl

theorem natText_head (n : Nat) : ∃ c cs, natText n = c :: cs ∧ isDigit c = true := by
  have h1 := natText_ne_nil n
  have h2 := natText_all_digits n
  cases h : natText n with
  | nil => exact absurd h h1
  | cons c cs => rw [h] at h2; simp at h2; exact ⟨c, cs, rfl, h2.1⟩

theorem isDigit_ne {c : UInt8} (h : isDigit c = true) : c ≠ 45 ∧ c ≠ 43 := by
  constructor <;> (intro e; subst e; revert h; decide)

/-- Parsing the decimal text of any integer that fits 64 bits gives it back. -/
theorem atoiInt_itoaInt (n : Int) (h1 : -(2 ^ 63) ≤ n) (h2 : n < 2 ^ 63) :
    atoiInt (itoaInt n) = some n := by
  unfold itoaInt
  split
  · rename_i hn
    simp only [atoiInt, parseNat_natText]
    simp; omega
  · rename_i hn
    obtain ⟨c, cs, hc, hd⟩ := natText_head n.natAbs
    obtain ⟨h45, h43⟩ := isDigit_ne hd
    have : parseNat (c :: cs) = some n.natAbs := by rw [← hc]; exact parseNat_natText _
    rw [hc]
    simp only [atoiInt, h45, h43, if_false, this]
    simp; omega

/-- **C80** Parsing the decimal text of any 64-bit integer gives it back. -/
theorem atoi_itoa (n : Int64) : atoi (itoa n) = some n := by
  unfold atoi itoa
  rw [atoiInt_itoaInt]
  · simp
  · exact Int64.le_toInt n
  · exact Int64.toInt_lt n

/-- The number a digit string denotes, most significant digit first (specification). -/
def decimalValue (ds : Bytes) : Nat := ds.foldl (fun a c => a * 10 + (c.toNat - 48)) 0

theorem digitsVal_eq (ds : Bytes) (a : Nat) (h : ds.all isDigit = true) :
    digitsVal a ds = some (ds.foldl (fun a c => a * 10 + (c.toNat - 48)) a) := by
  induction ds generalizing a with
  | nil => simp [digitsVal]
  | cons c cs ih => simp at h; simp [digitsVal, h.1, ih _ (by simpa using h.2)]

theorem digitsVal_none (ds : Bytes) (a : Nat) (h : ds.all isDigit = false) :
    digitsVal a ds = none := by
  have := digitsVal_some_iff a ds
  rw [h] at this; simpa using this

theorem parseNat_some_iff (ds : Bytes) (v : Nat) :
    parseNat ds = some v ↔ ds ≠ [] ∧ ds.all isDigit = true ∧ decimalValue ds = v := by
  unfold parseNat decimalValue
  by_cases h : ds = []
  · simp [h]
  · cases hd : ds.all isDigit
    · simp [h, digitsVal_none _ _ hd]
    · simp [h, digitsVal_eq _ _ hd]

/-- **C80** Parsing accepts exactly an optional sign followed by at least one digit and nothing
else, with a value that fits 64 bits, and yields that value. -/
theorem atoiInt_iff (s : Bytes) (n : Int) :
    atoiInt s = some n ↔
      ∃ sign ds : Bytes, s = sign ++ ds ∧ (sign = [] ∨ sign = b!"+" ∨ sign = b!"-") ∧
        ds ≠ [] ∧ ds.all isDigit = true ∧
        n = (if sign = b!"-" then -(decimalValue ds : Int) else (decimalValue ds : Int)) ∧
        -(2 ^ 63) ≤ n ∧ n < 2 ^ 63 := by
  constructor
  · intro h
    unfold atoiInt at h
    split at h
    · simp at h
    · rename_i c cs
      split at h
      · rename_i hc; subst hc
        split at h
        · simp at h
        · rename_i v hv
          split at h
          · rename_i hle
            rw [parseNat_some_iff] at hv
            simp at h
            refine ⟨b!"-", cs, rfl, by simp, hv.1, hv.2.1, ?_⟩
            simp [hv.2.2]; omega
          · simp at h
      · rename_i hc
        split at h
        · simp at h
        · rename_i v hv
          split at h
          · rename_i hlt
            simp at h
            rw [parseNat_some_iff] at hv
            by_cases hp : c = 43
            · subst hp
              simp at hv
              refine ⟨b!"+", cs, rfl, by simp, hv.1, by simpa using hv.2.1, ?_⟩
              simp [hv.2.2]; omega
            · simp only [hp, if_false] at hv
              refine ⟨[], c :: cs, rfl, by simp, hv.1, hv.2.1, ?_⟩
              simp [hv.2.2]; omega
          · simp at h
  · rintro ⟨sign, ds, rfl, hs, hne, hall, hn, hlo, hhi⟩
    have hp : parseNat ds = some (decimalValue ds) := (parseNat_some_iff _ _).2 ⟨hne, hall, rfl⟩
    rcases hs with rfl | rfl | rfl
    · obtain ⟨c, cs, rfl⟩ := List.exists_cons_of_ne_nil hne
      have hd : isDigit c = true := by simp at hall; exact hall.1
      obtain ⟨h45, h43⟩ := isDigit_ne hd
      simp only [List.nil_append, atoiInt, h45, h43, if_false, hp]
      simp at hn ⊢; omega
    · simp only [List.cons_append, List.nil_append, atoiInt]
      simp [hp]; simp at hn; omega
    · simp only [List.cons_append, List.nil_append, atoiInt]
      simp [hp]; simp at hn; omega

/-- `atoi` in terms of the unbounded version. -/
theorem atoi_some_iff (s : Bytes) (n : Int64) : atoi s = some n ↔ atoiInt s = some n.toInt := by
  unfold atoi
  constructor
  · intro h
    cases ha : atoiInt s with
    | none => simp [ha] at h
    | some v =>
      simp [ha] at h
      obtain ⟨_, _, _, _, _, _, _, hlo, hhi⟩ := (atoiInt_iff s v).1 ha
      subst h
      rw [Int64.toInt_ofInt_of_le (by simpa using hlo) (by simpa using hhi)]
  · intro h; simp [h]

theorem atoi_eq_none_iff (s : Bytes) : atoi s = none ↔ atoiInt s = none := by
  unfold atoi; simp

/-- Decimal text is injective. -/
theorem itoa_inj {a b : Int64} (h : itoa a = itoa b) : a = b := by
  have := atoi_itoa a
  rw [h, atoi_itoa b] at this
  exact (Option.some.inj this).symm

/-- The two texts the code meets most often, and the rejected neighbours of the 64-bit range. -/
example : atoi b!"-9223372036854775808" = some Int64.minValue ∧ atoi b!"9223372036854775807" = some Int64.maxValue
    ∧ atoi b!"9223372036854775808" = none ∧ atoi b!"+007" = some 7 ∧ atoi b!"" = none := by decide

end Verif

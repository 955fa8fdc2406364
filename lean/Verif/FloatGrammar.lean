import Verif.FloatShortest
/-!
# Numeric literals: specification

The literals `strconv.ParseFloat` documents (Go's syntax for floating-point literals, decimal and
hexadecimal, with underscores between digits), written down as a grammar that does not mention how
the text is scanned.  Used by cache/cachestring.go:16-26 (`tryInt64`) for every value given to Set.
-/
namespace Verif
open F64

/-- Value of a digit character: its place in "0123456789abcdef", either case. -/
def digitIndex (hex : Bool) (c : UInt8) : Option Nat :=
  let i := b!"0123456789abcdef".idxOf (lowerLetter c)
  if i < (if hex then 16 else 10) then some i else none

/-- A digit, with or without an underscore before it. -/
structure Dig where
  us : Bool
  c : UInt8
deriving DecidableEq, Repr

def Dig.text (d : Dig) : Bytes := if d.us then [95, d.c] else [d.c]

def digsText (ds : List Dig) : Bytes := ds.flatMap Dig.text

/-- Number written by digits. -/
def digsVal (hex : Bool) (ds : List Dig) : Nat :=
  ds.foldl (fun a d => a * (if hex then 16 else 10) + (digitIndex hex d.c).getD 0) 0

/-- Digits of the base, with no underscore before the first unless `lead`. -/
def DigsOk (hex lead : Bool) (ds : List Dig) : Prop :=
  (∀ d ∈ ds, (digitIndex hex d.c).isSome = true) ∧ (∀ d, ds.head? = some d → d.us = true → lead = true)

/-- A literal: sign, prefix, digits, optional point with digits, optional exponent (marker, sign,
digits). -/
structure Lit where
  sign : Bytes := []
  pre : Bytes := []
  int : List Dig := []
  frac : Option (List Dig) := none
  exp : Option (UInt8 × Bytes × List Dig) := none
deriving DecidableEq, Repr

namespace Lit

def hex (l : Lit) : Bool := l.pre ≠ []

def fracText (l : Lit) : Bytes := match l.frac with
  | none => []
  | some f => b!"." ++ digsText f

def expText (l : Lit) : Bytes := match l.exp with
  | none => []
  | some (c, s, ds) => [c] ++ s ++ digsText ds

/-- The literal without its sign. -/
def body (l : Lit) : Bytes := l.pre ++ (digsText l.int ++ (l.fracText ++ l.expText))

def text (l : Lit) : Bytes := l.sign ++ l.body

/-- All mantissa digits. -/
def mant (l : Lit) : List Dig := l.int ++ l.frac.getD []

/-- The grammar. -/
structure Valid (l : Lit) : Prop where
  sign : l.sign = [] ∨ l.sign = b!"+" ∨ l.sign = b!"-"
  pre : l.pre = [] ∨ l.pre = b!"0x" ∨ l.pre = b!"0X"
  int : DigsOk l.hex l.hex l.int
  frac : ∀ f, l.frac = some f → DigsOk l.hex false f
  some_digit : l.mant ≠ []
  exp : ∀ c s ds, l.exp = some (c, s, ds) →
    (c ∈ if l.hex then b!"pP" else b!"eE") ∧ (s = [] ∨ s = b!"+" ∨ s = b!"-") ∧ ds ≠ [] ∧
      DigsOk false false ds
  exp_hex : l.hex = true → l.exp ≠ none

/-- Exponent, split by sign. -/
def expVal (l : Lit) : Nat := match l.exp with
  | none => 0
  | some (_, _, ds) => digsVal false ds

def expNeg (l : Lit) : Bool := match l.exp with
  | none => false
  | some (_, s, _) => s = b!"-"

/-- The exact absolute value, in units of 2^-1074, as `num / den`: mantissa digits as a number,
times ten (two) to the exponent, divided by the base for every fraction digit. -/
def num (l : Lit) : Nat :=
  digsVal l.hex l.mant * (if l.hex then 2 else 10) ^ (if l.expNeg then 0 else l.expVal) * 2 ^ 1074

def den (l : Lit) : Nat :=
  (if l.hex then 16 else 10) ^ (l.frac.getD []).length *
    (if l.hex then 2 else 10) ^ (if l.expNeg then l.expVal else 0)

/-- The float64 the literal stands for: nearest, ties to even; `none` beyond the largest. -/
def Denotes (l : Lit) (r : Option F64) : Prop :=
  ∃ m, Nearest l.num l.den m ∧ r = if m < infMag then some (mk' (l.sign = b!"-") m) else none

end Lit

/-- Words for the values that are not finite, in any mixture of cases. -/
def IsNanWord (s : Bytes) : Prop := s.map lowerLetter = b!"nan"

def IsInfLit (s : Bytes) (neg : Bool) : Prop :=
  ∃ sign w, s = sign ++ w ∧ (w.map lowerLetter = b!"inf" ∨ w.map lowerLetter = b!"infinity") ∧
    (sign = [] ∧ neg = false ∨ sign = b!"+" ∧ neg = false ∨ sign = b!"-" ∧ neg = true)

/-! ## Characters -/

theorem mantDigit_eq (hex : Bool) (c : UInt8) : mantDigit hex c = digitIndex hex c := by
  have h : ∀ hex : Bool, ∀ n : Fin 256, mantDigit hex (UInt8.ofNat n) = digitIndex hex (UInt8.ofNat n) := by
    decide +kernel
  have := h hex ⟨c.toNat, c.toNat_lt⟩
  simpa using this

theorem all_bytes {P : UInt8 → Prop} (h : ∀ n : Fin 256, P (UInt8.ofNat n)) (c : UInt8) : P c := by
  have := h ⟨c.toNat, c.toNat_lt⟩
  simpa using this

theorem digitIndex_dec (c : UInt8) : digitIndex false c = if isDigit c then some (c.toNat - 48) else none :=
  all_bytes (P := fun c => digitIndex false c = if isDigit c then some (c.toNat - 48) else none)
    (by decide +kernel) c

/-- The digit test of `underscoreScan`. -/
theorem usDigit_iff (hex : Bool) (c : UInt8) :
    (isDigit c || (hex && (97 ≤ (lowerBit c).toNat && (lowerBit c).toNat ≤ 102))) =
      (digitIndex hex c).isSome := by
  cases hex
  · exact all_bytes (P := fun c => (isDigit c || (false && (97 ≤ (lowerBit c).toNat && (lowerBit c).toNat ≤ 102))) =
      (digitIndex false c).isSome) (by decide +kernel) c
  · exact all_bytes (P := fun c => (isDigit c || (true && (97 ≤ (lowerBit c).toNat && (lowerBit c).toNat ≤ 102))) =
      (digitIndex true c).isSome) (by decide +kernel) c

theorem isSome_ne {hex : Bool} {c : UInt8} (h : (digitIndex hex c).isSome = true) :
    c ≠ 95 ∧ c ≠ 46 ∧ c ≠ 43 ∧ c ≠ 45 := by
  refine ⟨?_, ?_, ?_, ?_⟩ <;> (rintro rfl; revert h; cases hex <;> decide)

theorem marker_iff (hex : Bool) (c : UInt8) :
    lowerBit c = (if hex then 112 else 101) ↔ c ∈ if hex then b!"pP" else b!"eE" := by
  cases hex
  · exact all_bytes (P := fun c => lowerBit c = (if false then 112 else 101) ↔ c ∈ if false then b!"pP" else b!"eE")
      (by decide +kernel) c
  · exact all_bytes (P := fun c => lowerBit c = (if true then 112 else 101) ↔ c ∈ if true then b!"pP" else b!"eE")
      (by decide +kernel) c

theorem lower_x (c : UInt8) : lowerBit c = 120 ↔ c = 120 ∨ c = 88 :=
  all_bytes (P := fun c => lowerBit c = 120 ↔ c = 120 ∨ c = 88) (by decide +kernel) c

theorem lower_bo (c : UInt8) : (lowerBit c = 98 ∨ lowerBit c = 111) ↔ c ∈ b!"bBoO" :=
  all_bytes (P := fun c => (lowerBit c = 98 ∨ lowerBit c = 111) ↔ c ∈ b!"bBoO") (by decide +kernel) c

end Verif

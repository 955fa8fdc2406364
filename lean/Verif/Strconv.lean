import Verif.Base
/-!
# `strconv.Itoa` and `strconv.Atoi`

Models the documented behaviour of Go's `strconv.Itoa`/`strconv.Atoi` on a 64-bit platform,
as used in cache/cachestring.go:16-26 (`tryInt64`), cache/cachestring.go:61-84 (`fmtString`),
redis/protocol.go:70-137 (`Serialize`) and redis/conn.go:125,169,190,231,241.
-/

namespace Verif

/-- ASCII digit of `d < 10`. -/
def digitByte (d : Nat) : UInt8 := UInt8.ofNat (48 + d)

/-- Decimal text of a natural number (fuel = any number larger than `n`). -/
def natTextAux : Nat → Nat → Bytes
  | 0, _ => []
  | f + 1, n => if n < 10 then [digitByte n] else natTextAux f (n / 10) ++ [digitByte (n % 10)]

/-- Decimal text of a natural number, no leading zeros. -/
def natText (n : Nat) : Bytes := natTextAux (n + 1) n

/-- `strconv.Itoa` (and `fmt.Sprintf("%d")`), on an unbounded integer. -/
def itoaInt (n : Int) : Bytes :=
  if n < 0 then 45 :: natText n.natAbs else natText n.natAbs

/-- `strconv.Itoa` on a Go `int`/`int64`. -/
def itoa (n : Int64) : Bytes := itoaInt n.toInt

/-- Value of a digit byte. -/
def isDigit (c : UInt8) : Bool := 48 ≤ c.toNat && c.toNat ≤ 57

/-- Digits to a number; `none` if some byte is not a digit. -/
def digitsVal : Nat → Bytes → Option Nat
  | acc, [] => some acc
  | acc, c :: cs => if isDigit c then digitsVal (acc * 10 + (c.toNat - 48)) cs else none

/-- Unsigned decimal number: at least one digit. -/
def parseNat (s : Bytes) : Option Nat :=
  if s = [] then none else digitsVal 0 s

/-- `strconv.Atoi` (= `ParseInt(s,10,64)`): optional sign, at least one digit, only digits,
value representable in 64 bits; otherwise an error. -/
def atoiInt (s : Bytes) : Option Int :=
  match s with
  | [] => none
  | c :: cs =>
    if c = 45 then
      match parseNat cs with
      | none => none
      | some v => if v ≤ 2 ^ 63 then some (-(v : Int)) else none
    else
      match parseNat (if c = 43 then cs else s) with
      | none => none
      | some v => if v < 2 ^ 63 then some (v : Int) else none

def atoi (s : Bytes) : Option Int64 := (atoiInt s).map Int64.ofInt

end Verif

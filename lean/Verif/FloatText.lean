import Verif.Strconv
import Verif.F64
/-!
# `strconv.ParseFloat(s, 64)` and `strconv.FormatFloat(x, 'f', -1, 64)`

Models the documented behaviour of Go's strconv (Go ≥ 1.13: decimal and hexadecimal
floating-point literals, underscores between digits, `inf`/`infinity`/`nan` in any case,
correct rounding, an error on overflow), as used in cache/cachestring.go:16-26,77-78,
cache/cachehash.go:220,246, redis/command.go:57, redis/rdb/rdb.go:204 and
redis/replication.go:385.
-/

namespace Verif

/-- ASCII lower case of letters, as `strconv.lower`: `c | 0x20`. -/
def lowerBit (c : UInt8) : UInt8 := c ||| 32

/-- Digit value in base 10, or 16 when `hex`. -/
def mantDigit (hex : Bool) (c : UInt8) : Option Nat :=
  if isDigit c then some (c.toNat - 48)
  else if hex && (97 ≤ (lowerBit c).toNat && (lowerBit c).toNat ≤ 102) then
    some ((lowerBit c).toNat - 87)
  else none

/-- State of the mantissa scan: digits read so far as a number, how many of them were after the
point, whether a point / a digit / an underscore was seen. -/
structure Mant where
  val : Nat := 0
  nfrac : Nat := 0
  dot : Bool := false
  digits : Bool := false
  us : Bool := false
deriving DecidableEq, Repr

/-- Mantissa loop of `strconv.readFloat`; returns the unread rest. -/
def scanMant (hex : Bool) : Mant → Bytes → Mant × Bytes
  | st, [] => (st, [])
  | st, c :: cs =>
    if c = 95 then scanMant hex { st with us := true } cs
    else if c = 46 then
      if st.dot then (st, c :: cs) else scanMant hex { st with dot := true } cs
    else match mantDigit hex c with
      | some d =>
        scanMant hex { st with
          val := st.val * (if hex then 16 else 10) + d
          nfrac := if st.dot then st.nfrac + 1 else st.nfrac
          digits := true } cs
      | none => (st, c :: cs)

/-- Exponent digits; the accumulated exponent stops growing at 10000 as in the library. -/
def scanExp : Nat → Bool → Bytes → Nat × Bool × Bytes
  | e, us, [] => (e, us, [])
  | e, us, c :: cs =>
    if c = 95 then scanExp e true cs
    else if isDigit c then scanExp (if e < 10000 then e * 10 + (c.toNat - 48) else e) us cs
    else (e, us, c :: cs)

/-- `strconv.underscoreOK` after sign and base prefix: `saw` is 0 for start, 1 for digit or
prefix, 2 for underscore, 3 for anything else. -/
def underscoreScan (hex : Bool) : Nat → Bytes → Bool
  | saw, [] => saw != 2
  | saw, c :: cs =>
    if isDigit c || (hex && (97 ≤ (lowerBit c).toNat && (lowerBit c).toNat ≤ 102)) then
      underscoreScan hex 1 cs
    else if c = 95 then (if saw = 1 then underscoreScan hex 2 cs else false)
    else if saw = 2 then false
    else underscoreScan hex 3 cs

/-- `strconv.underscoreOK` on the unsigned part. -/
def underscoreOK (s : Bytes) : Bool :=
  match s with
  | 48 :: x :: cs =>
    if lowerBit x = 120 then underscoreScan true 1 cs
    else if lowerBit x = 98 || lowerBit x = 111 then underscoreScan false 1 cs
    else underscoreScan false 0 s
  | _ => underscoreScan false 0 s

/-- Round `m * base^e` (base 10, or 2 when `hex`) to a magnitude field. -/
def roundLit (hex : Bool) (m : Nat) (e : Int) : Nat :=
  let b := if hex then 2 else 10
  if 0 ≤ e then F64.roundMag (m * b ^ e.toNat * 2 ^ 1074) 1
  else F64.roundMag (m * 2 ^ 1074) (b ^ (-e).toNat)

/-- Optional leading sign. -/
def splitSign (s : Bytes) : Bool × Bytes :=
  match s with
  | 43 :: t => (false, t)
  | 45 :: t => (true, t)
  | t => (false, t)

/-- Optional base prefix `0x` (it must be followed by something). -/
def splitHex (s : Bytes) : Bool × Bytes :=
  match s with
  | 48 :: x :: c :: cs => if lowerBit x = 120 then (true, c :: cs) else (false, s)
  | _ => (false, s)

/-- Signed exponent after the exponent character; at least one digit is required. -/
def readExp (s : Bytes) : Option (Int × Bool × Bytes) :=
  let (neg, ds) := splitSign s
  match ds with
  | [] => none
  | c :: _ =>
    if isDigit c then
      let (e, us, rest) := scanExp 0 false ds
      some (if neg then -(e : Int) else (e : Int), us, rest)
    else none

/-- `strconv.readFloat` + rounding on the unsigned part of the text: magnitude field, or
`none` on a syntax or range error. -/
def readFloatMag (s : Bytes) : Option Nat :=
  let (hex, body) := splitHex s
  let (m, rest) := scanMant hex {} body
  if m.digits = false then none
  else
    let expo : Option (Int × Bool × Bytes) := match rest with
      | c :: cs =>
        if lowerBit c = (if hex then 112 else 101) then readExp cs
        else if hex then none else some (0, false, rest)
      | [] => if hex then none else some (0, false, [])
    match expo with
    | none => none
    | some (e, us, rest) =>
      if rest ≠ [] then none
      else if (m.us || us) && !underscoreOK s then none
      else
        let mag := roundLit hex m.val (e - (if hex then 4 * m.nfrac else m.nfrac))
        if mag < F64.infMag then some mag else none

/-- ASCII lower case of capital letters only. -/
def lowerLetter (c : UInt8) : UInt8 := if 65 ≤ c.toNat && c.toNat ≤ 90 then c + 32 else c

def isInfWord (s : Bytes) : Bool :=
  s.map lowerLetter = b!"inf" || s.map lowerLetter = b!"infinity"

/-- `strconv.ParseFloat(s, 64)`; `none` stands for any error. -/
def parseFloat (s : Bytes) : Option F64 :=
  if s.map lowerLetter = b!"nan" then some F64.nan
  else
    let (neg, t) := splitSign s
    if isInfWord t then some (F64.inf neg)
    else (readFloatMag t).map (F64.mk' neg)

/-- Number of decimal digits of `n` (fuelled). -/
def ndigitsAux : Nat → Nat → Nat
  | 0, _ => 0
  | f + 1, n => if n < 10 then 1 else ndigitsAux f (n / 10) + 1

/-- Does `v * 10^-1074` read back as the float with magnitude field `mag`? -/
def readsBack (mag v : Nat) : Bool := F64.roundMag (v * 2 ^ 1074) (10 ^ 1074) = mag

/-- Shortest-digits search: `D * 10^-1074` is the exact value; try to keep fewer digits first
(`j` = number of low digits to drop), rounding down or up, nearest if both read back. -/
def shortestAux (mag D : Nat) : Nat → Nat
  | 0 => D
  | j + 1 =>
    let p := 10 ^ (j + 1)
    let lo := D / p * p
    let hi := lo + p
    if readsBack mag lo then
      if readsBack mag hi then
        if 2 * (D - lo) < p then lo
        else if p < 2 * (D - lo) then hi
        else if D / p % 2 = 0 then lo else hi
      else lo
    else if readsBack mag hi then hi
    else shortestAux mag D j

/-- The shortest decimal (scaled by 10^1074) that reads back as `mag`. -/
def shortest (mag : Nat) : Nat :=
  let D := F64.units mag * 5 ^ 1074
  shortestAux mag D (ndigitsAux (D + 1) D - 1)

/-- Fraction digits without trailing zeros: `fr < 10^w`. -/
def fracText : Nat → Nat → Bytes
  | 0, _ => []
  | w + 1, fr => if fr = 0 then [] else digitByte (fr / 10 ^ w) :: fracText w (fr % 10 ^ w)

/-- Plain decimal text of `v * 10^-1074`. -/
def decText (v : Nat) : Bytes :=
  let ip := natText (v / 10 ^ 1074)
  let fr := v % 10 ^ 1074
  if fr = 0 then ip else ip ++ 46 :: fracText 1074 fr

/-- `strconv.FormatFloat(x, 'f', -1, 64)`: cache/cachestring.go:78. -/
def formatFloat (x : F64) : Bytes :=
  if x.isNaN then b!"NaN"
  else if x.isInf then (if x.neg then b!"-Inf" else b!"+Inf")
  else
    let t := decText (shortest x.mag.val)
    if x.neg then 45 :: t else t

end Verif

import Verif.Base
/-!
# IEEE-754 binary64 (`float64`)

A float64 is its bit pattern: a sign bit and a 63-bit magnitude field (exponent, fraction).
The value of a finite number is `units / 2^1074`: every finite float64 is an integral
multiple of the smallest subnormal `2^-1074`.  Rounding is round-to-nearest, ties-to-even
on exact (rational) numbers, which is what Go guarantees for conversions, `+` and
`strconv.ParseFloat`.
-/

namespace Verif

structure F64 where
  neg : Bool
  mag : Fin (2 ^ 63)
deriving DecidableEq, Repr

namespace F64

/-- Magnitude field of infinity: exponent 2047, fraction 0. -/
def infMag : Nat := 2047 * 2 ^ 52

/-- Exact value of the finite number with magnitude field `mag`, in units of `2^-1074`:
exponent field 0 (subnormal): `fraction`; exponent field q ≥ 1: `(2^52 + fraction) * 2^(q-1)`. -/
def units (mag : Nat) : Nat :=
  if mag / 2 ^ 52 = 0 then mag
  else (2 ^ 52 + mag % 2 ^ 52) * 2 ^ (mag / 2 ^ 52 - 1)

def isNaN (x : F64) : Bool := infMag < x.mag.val
def isInf (x : F64) : Bool := x.mag.val = infMag
def isFinite (x : F64) : Bool := x.mag.val < infMag

/-- Round `n / d` to an integer, ties to even. -/
def divRNE (n d : Nat) : Nat :=
  let q := n / d
  let r := n % d
  if 2 * r < d then q
  else if d < 2 * r then q + 1
  else if q % 2 = 0 then q else q + 1

/-- Magnitude field nearest to `n / d` units (no overflow check; a result `≥ infMag` means
the number rounds beyond the largest finite float64). -/
def roundMag (n d : Nat) : Nat :=
  let t := n / d
  let k := if t < 2 ^ 53 then 0 else Nat.log2 t - 52
  k * 2 ^ 52 + divRNE n (d * 2 ^ k)

/-- A float from a sign and a magnitude field, saturating at infinity. -/
def mk' (neg : Bool) (mag : Nat) : F64 :=
  if h : mag < infMag then ⟨neg, ⟨mag, by unfold infMag at h; omega⟩⟩
  else ⟨neg, ⟨infMag, by decide⟩⟩

def nan : F64 := ⟨false, ⟨infMag + 2 ^ 51, by decide⟩⟩
def inf (neg : Bool) : F64 := ⟨neg, ⟨infMag, by decide⟩⟩
def zero : F64 := ⟨false, ⟨0, by decide⟩⟩

/-- Signed units of a finite number. -/
def sunits (x : F64) : Int := if x.neg then -(units x.mag.val : Int) else (units x.mag.val : Int)

/-- Nearest float64 to an integral number of units. -/
def ofUnits (u : Int) : F64 := mk' (decide (u < 0)) (roundMag u.natAbs 1)

/-- `float64(n)` for a Go integer: cache/cachestring.go:289, cache/cachehash.go:232-240. -/
def ofInt (n : Int) : F64 := mk' (decide (n < 0)) (roundMag (n.natAbs * 2 ^ 1074) 1)

/-- Go `+` on float64: cache/cachestring.go:285,289, cache/cachehash.go:232-240. -/
def add (x y : F64) : F64 :=
  if x.isNaN || y.isNaN then nan
  else if x.isInf then (if y.isInf && (x.neg != y.neg) then nan else x)
  else if y.isInf then y
  else
    let s := x.sunits + y.sunits
    if s = 0 then (if x.neg && y.neg then ⟨true, ⟨0, by decide⟩⟩ else zero)
    else ofUnits s

end F64
end Verif

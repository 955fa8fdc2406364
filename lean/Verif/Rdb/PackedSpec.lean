import Verif.Strconv

/-!
# The packed encodings of Redis (intset.c, ziplist.c, zipmap.c), as encoders

A specification: nothing here refers to the model.
-/

namespace Verif.Rdb

/-- The `n` low bytes of a number, least significant first (two's complement for negative ones). -/
def leInt (n : Nat) (v : Int) : Bytes := (List.range n).map fun i => UInt8.ofNat (v / 256 ^ i % 256).toNat

/-- The `n` low bytes of a number, most significant first. -/
def beInt (n : Nat) (v : Int) : Bytes := (leInt n v).reverse

/-- `v` is a signed `w`-byte integer. -/
def Signed (w : Nat) (v : Int) : Prop := -(2 ^ (8 * w - 1) : Nat) ≤ v ∧ v < (2 ^ (8 * w - 1) : Nat)

instance (w : Nat) (v : Int) : Decidable (Signed w v) := inferInstanceAs (Decidable (_ ∧ _))

/-- An integer set of element width `w` (2, 4 or 8). -/
def encIntset (w : Nat) (xs : List Int) : Bytes :=
  leInt 4 w ++ leInt 4 xs.length ++ xs.flatMap (leInt w)

/-- An element of a ziplist in each of its encodings. -/
inductive ZVal where
  | str6 (s : Bytes)
  | str14 (s : Bytes)
  | str32 (s : Bytes)
  | imm (n : Nat)
  | int8 (v : Int)
  | int16 (v : Int)
  | int24 (v : Int)
  | int32 (v : Int)
  | int64 (v : Int)

/-- The element fits its encoding. -/
def ZVal.Valid : ZVal → Prop
  | .str6 s => s.length < 64
  | .str14 s => s.length < 16384
  | .str32 s => s.length < 2 ^ 32
  | .imm n => n ≤ 12
  | .int8 v => Signed 1 v
  | .int16 v => Signed 2 v
  | .int24 v => Signed 3 v
  | .int32 v => Signed 4 v
  | .int64 v => Signed 8 v

/-- The element as Redis returns it. -/
def ZVal.value : ZVal → Bytes
  | .str6 s | .str14 s | .str32 s => s
  | .imm n => natText n
  | .int8 v | .int16 v | .int24 v | .int32 v | .int64 v => itoaInt v

/-- Encoding byte(s) and payload. -/
def ZVal.enc : ZVal → Bytes
  | .str6 s => UInt8.ofNat s.length :: s
  | .str14 s => UInt8.ofNat (64 + s.length / 256) :: UInt8.ofNat s.length :: s
  | .str32 s => 0x80 :: (beInt 4 s.length ++ s)
  | .imm n => [UInt8.ofNat (0xf1 + n)]
  | .int8 v => 0xfe :: leInt 1 v
  | .int16 v => 0xc0 :: leInt 2 v
  | .int24 v => 0xf0 :: leInt 3 v
  | .int32 v => 0xd0 :: leInt 4 v
  | .int64 v => 0xe0 :: leInt 8 v

/-- The field with the length of the previous element: one byte, or 254 and four bytes. -/
def PrevField (p : Bytes) : Prop :=
  (∃ b : UInt8, b.toNat < 254 ∧ p = [b]) ∨ (∃ n : Bytes, n.length = 4 ∧ p = 254 :: n)

/-- Elements with their previous-length fields. -/
def encZEnts (es : List (Bytes × ZVal)) : Bytes := es.flatMap fun e => e.1 ++ e.2.enc

/-- A ziplist with header `hdr` (total size, offset of the last element, count). -/
def encZiplist (hdr : Bytes) (es : List (Bytes × ZVal)) : Bytes := hdr ++ encZEnts es ++ [255]

/-- Well-formed ziplists. -/
def ZlValid (hdr : Bytes) (es : List (Bytes × ZVal)) : Prop :=
  hdr.length = 10 ∧ ∀ e ∈ es, PrevField e.1 ∧ e.2.Valid

/-- A length in a zipmap. -/
def encZmLen (n : Nat) : Bytes := if n < 254 then [UInt8.ofNat n] else 254 :: leInt 4 n

/-- A zipmap entry: key, value and the unused bytes behind the value. -/
def encZmEnt (e : Bytes × Bytes × Bytes) : Bytes :=
  encZmLen e.1.length ++ e.1 ++ encZmLen e.2.1.length ++ [UInt8.ofNat e.2.2.length] ++ e.2.1 ++ e.2.2

/-- A zipmap; the count is one byte (254 if it is not known). -/
def encZipmap (cnt : UInt8) (es : List (Bytes × Bytes × Bytes)) : Bytes := cnt :: (es.flatMap encZmEnt ++ [255])

/-- Well-formed zipmaps: lengths fit, keys are distinct. -/
def ZmValid (es : List (Bytes × Bytes × Bytes)) : Prop :=
  (∀ e ∈ es, e.1.length < 2 ^ 32 ∧ e.2.1.length < 2 ^ 32 ∧ e.2.2.length < 254) ∧ (es.map (·.1)).Nodup

end Verif.Rdb

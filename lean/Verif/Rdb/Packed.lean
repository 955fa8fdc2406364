import Verif.Strconv

/-!
# Packed containers: redis/intset/intset.go, redis/ziplist/ziplist.go, redis/zipmap/zipmap.go

Functions on Go strings; `none` is a run-time panic (index or slice out of range, or an explicit
`panic`).
-/

namespace Verif.Rdb

/-- Go `s[a:b]`. -/
def slice (s : Bytes) (a b : Nat) : Option Bytes :=
  if a ≤ b ∧ b ≤ s.length then some ((s.drop a).take (b - a)) else none

/-- Little-endian value of some bytes (`binary.LittleEndian.Uint16/32/64`). -/
def le : Bytes → Nat
  | [] => 0
  | b :: bs => b.toNat + 256 * le bs

/-! ## Integer sets -/

/-- The loops of intset.go:23-45: `k` elements of `w` bytes, from the `i`-th on. -/
def intsetElems (s : Bytes) (w : Nat) : Nat → Nat → Option (List Int64)
  | 0, _ => some []
  | k + 1, i => do
    let x ← slice s (8 + w * i) (8 + w * (i + 1))
    let xs ← intsetElems s w k (i + 1)
    pure (Int64.ofNat (le x) :: xs)

/-- `intset.Load`, intset.go:17-49. -/
def intsetLoad (s : Bytes) : Option (List Int64) := do
  let e ← slice s 0 4
  let l ← slice s 4 8
  if le e = 2 ∨ le e = 4 ∨ le e = 8 then intsetElems s (le e) (le l) 0 else pure []

/-! ## Packed lists -/

/-- `Iterator.prevLength`, ziplist.go:71-81: the number of bytes of the field. -/
def zlPrevSize (s : Bytes) (pos : Nat) : Option Nat := do
  let b ← s[pos]?
  if 254 ≤ b.toNat then
    let _ ← slice s (pos + 1) (pos + 5)
    pure 5
  else pure 1

/-- `Iterator.entry`, ziplist.go:86-132: size of the header, length of the value, the value.  The
shifts `<<8`, `<<16`, `<<24` are on bytes, so they give 0. -/
def zlEntry (s : Bytes) (pos : Nat) : Option (Nat × Nat × Bytes) := do
  let b ← s[pos]?
  let (size, length, imm) ←
    (if b.toNat < 0xc0 then
      if b.toNat / 64 = 0 then some (1, b.toNat % 64, [])
      else if b.toNat / 64 = 1 then do
        let b1 ← s[pos + 1]?
        pure (2, b1.toNat, [])
      else do
        let _ ← s[pos + 1]?
        let _ ← s[pos + 2]?
        let _ ← s[pos + 3]?
        let b4 ← s[pos + 4]?
        pure (5, b4.toNat, [])
    else if b.toNat = 0xfe then some (1, 1, [])
    else if b.toNat = 0xc0 then some (1, 2, [])
    else if b.toNat = 0xf0 then some (1, 3, [])
    else if b.toNat = 0xd0 then some (1, 4, [])
    else if b.toNat = 0xe0 then some (1, 5, [])
    else if 0xf1 ≤ b.toNat ∧ b.toNat ≤ 0xfd then some (1, 0, natText (b.toNat % 16 - 1))
    else none : Option (Nat × Nat × Bytes))
  if 0 < length then
    let str ← slice s (pos + 1) (pos + length + 1)
    pure (size, length, str)
  else pure (size, length, imm)

/-- The loop of `ziplist.Load` with `Iterator.Next`, ziplist.go:56-69, 147-155. -/
def zlLoop (s : Bytes) : Nat → Nat → Option (List Bytes)
  | 0, _ => none
  | fuel + 1, pos => do
    let b ← s[pos]?
    if b = 255 then pure []
    else
      let p ← zlPrevSize s pos
      let (size, length, str) ← zlEntry s (pos + p)
      let rest ← zlLoop s fuel (pos + p + (length + size))
      pure (str :: rest)

/-- `ziplist.Load`, ziplist.go:147-155. -/
def ziplistLoad (s : Bytes) : Option (List Bytes) := zlLoop s (s.length + 1) 10

/-! ## Packed maps -/

/-- Reading a length at `i`: 1 byte, or 254/255 and 4 bytes (zipmap.go:108-113, 123-128, 131-136,
163-168, 174-179, 182-187): the length and the index behind it.  `spare` is what lies between the
length and the capacity of the slice: Go lets `s[a:b]` reach into it.  It is empty for a string. -/
def zmLen (s spare : Bytes) (i : Nat) : Option (Nat × Nat) := do
  let b ← s[i]?
  if 254 ≤ b.toNat then
    let x ← slice (s ++ spare) (i + 1) (i + 5)
    pure (le x, i + 5)
  else pure (b.toNat, i + 1)

/-- `hash[key] = value` on an association list without duplicate keys. -/
def mapPut (m : List (Bytes × Bytes)) (k v : Bytes) : List (Bytes × Bytes) :=
  match m with
  | [] => [(k, v)]
  | (k', v') :: m => if k' = k then (k, v) :: m else (k', v') :: mapPut m k v

/-- The loop of `zipmap.Load`, zipmap.go:162-196; the `i++` of the loop header also runs. -/
def zmLoop (s : Bytes) : Nat → Nat → List (Bytes × Bytes) → Option (List (Bytes × Bytes))
  | 0, _, _ => none
  | fuel + 1, i, m =>
    if i + 1 < s.length then do
      let (kl, i) ← zmLen s [] i
      let key ← slice s i (i + kl)
      let i := i + kl
      let (vl, i) ← zmLen s [] i
      let (vfl, i) ← zmLen s [] i
      let value ← slice s i (i + vl)
      zmLoop s fuel (i + vl + vfl + 1) (mapPut m key value)
    else pure m

/-- `zipmap.Load`, zipmap.go:160-199: the pairs of the map. -/
def zipmapLoad (s : Bytes) : Option (List (Bytes × Bytes)) := do
  let _ ← s[0]?
  zmLoop s (s.length + 1) 1 []

/-- `zipmap.New`, zipmap.go:31-33. -/
def zmNew : Bytes := [0, 255]

/-- `zipMap.Lookup`, zipmap.go:105-145: the index and whether the key was found. -/
def zmLookupLoop (s spare key : Bytes) : Nat → Nat → Option (Nat × Bool)
  | 0, _ => none
  | fuel + 1, i =>
    match s[i]? with
    | none => some (s.length, false)
    | some b =>
      if b = 255 then some (s.length, false)
      else do
        let (kl, i) ← zmLen s spare i
        let k ← slice (s ++ spare) i (i + kl)
        if key = k then pure (i, true)
        else
          let i := i + kl
          let (vl, i) ← zmLen s spare i
          let (vfl, i) ← zmLen s spare i
          zmLookupLoop s spare key fuel (i + vl + vfl + 1)

/-- `zipMap.Lookup`, zipmap.go:105-145. -/
def zmLookup (s spare key : Bytes) : Option (Nat × Bool) := zmLookupLoop s spare key (s.length + 1) 1

/-- `n` little-endian bytes of a number. -/
def leBytes : Nat → Nat → Bytes
  | 0, _ => []
  | n + 1, v => UInt8.ofNat v :: leBytes n (v / 256)

/-- A length as `zipMap.Set` writes it, zipmap.go:44-51, 61-68. -/
def zmLenBytes (n : Nat) : Bytes := if 254 ≤ n then 254 :: leBytes 4 n else [UInt8.ofNat n]

/-- `zipMap.Set`, zipmap.go:39-87.  The buffer writes never fail. -/
def zmSet (s spare key value : Bytes) : Option Bytes := do
  let (_, ok) ← zmLookup s spare key
  if ok then pure s
  else
    match s.dropLast ++ (zmLenBytes key.length ++ key ++ (zmLenBytes value.length ++ value)) ++ [255] with
    | [] => none
    | c :: t => if c.toNat < 254 then pure ((c + 1) :: t) else pure (c :: t)

end Verif.Rdb

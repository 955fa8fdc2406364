import Verif.Cache.Model
/-!
# Model of cache/cachehash.go

The hash calls take no lock.  `sync.Map.Range` visits fields in an unspecified order; the model
lists them in insertion order and no theorem depends on that order.
-/
namespace Verif

/-- `sync.Map.Load` on an association list. -/
def hfind : List (Bytes × Scalar) → Bytes → Option Scalar
  | [], _ => none
  | (g, v) :: fs, f => if g = f then some v else hfind fs f

/-- `sync.Map.Store` on an association list: replace in place or append. -/
def hput : List (Bytes × Scalar) → Bytes → Scalar → List (Bytes × Scalar)
  | [], f, v => [(f, v)]
  | (g, w) :: fs, f, v => if g = f then (g, v) :: fs else (g, w) :: hput fs f v

/-- `sync.Map.Delete` on an association list. -/
def hdelete : List (Bytes × Scalar) → Bytes → List (Bytes × Scalar)
  | [], _ => []
  | (g, w) :: fs, f => if g = f then fs else (g, w) :: hdelete fs f

namespace HashEntry

/-- cache/cachehash.go:36-38 `newHash`. -/
def empty : HashEntry := {}

/-- cache/cachehash.go:13-22 `hashEntry.get`. -/
def get (h : HashEntry) (f : Bytes) : Option Bytes := (hfind h.fields f).map fmtScalar

/-- cache/cachehash.go:24-34 `hashEntry.set`. -/
def set (h : HashEntry) (f v : Bytes) : HashEntry × Int :=
  let n : Int := if (hfind h.fields f).isSome then 0 else 1
  ({ fields := hput h.fields f (tryInt64 v), length := h.length + n }, n)

end HashEntry

namespace Cache

/-- cache/cachehash.go:40-51 `getHashEntry`: `ok none` is the `nil, nil` result. -/
def getHash (c : Cache) (now : Int) (k : Bytes) : Cache × Res (Option HashEntry) :=
  match c.load now k with
  | (c', none) => (c', .ok none)
  | (c', some (.hash h)) => (c', .ok (some h))
  | (c', some _) => (c', .err .wrongType)

/-- The update pattern of HSet/HSetNX/HIncrBy/HIncrByFloat/HMSet (cachehash.go:54-64, 69-84, …):
fetch or create the hash, mutate it through the pointer, return a result. -/
def withHash {α : Type} (c : Cache) (now : Int) (k : Bytes)
    (body : HashEntry → HashEntry × Res α) : Cache × Res α :=
  match c.getHash now k with
  | (c', .err e) => (c', .err e)
  | (c', .panic) => (c', .panic)
  | (c', .ok o) =>
    let (h, r) := body (o.getD HashEntry.empty)
    (c'.store k (.hash h), r)

/-- cache/cachehash.go:53-65 `HSet`. -/
def hSet (c : Cache) (now : Int) (k f v : Bytes) : Cache × Res Int :=
  c.withHash now k fun h => let (h', n) := h.set f v; (h', .ok n)

/-- cache/cachehash.go:68-85 `HSetNX` (stores the raw string, not `tryInt64`). -/
def hSetNX (c : Cache) (now : Int) (k f v : Bytes) : Cache × Res Int :=
  c.withHash now k fun h =>
    match hfind h.fields f with
    | some _ => (h, .ok 0)
    | none => ({ fields := hput h.fields f (.str v), length := h.length + 1 }, .ok 1)

/-- cache/cachehash.go:88-105 `HExists` (subtracts the result from `length`). -/
def hExists (c : Cache) (now : Int) (k f : Bytes) : Cache × Res Int :=
  match c.getHash now k with
  | (c', .err e) => (c', .err e)
  | (c', .panic) => (c', .panic)
  | (c', .ok none) => (c', .ok 0)
  | (c', .ok (some h)) =>
    let n : Int := if (h.get f).isSome then 1 else 0
    (c'.store k (.hash { h with length := h.length - n }), .ok n)

/-- cache/cachehash.go:118-123, the loop of `HDel`. -/
def hDelLoop : List Bytes → List (Bytes × Scalar) → Int → List (Bytes × Scalar) × Int
  | [], fs, n => (fs, n)
  | f :: rest, fs, n =>
    match hfind fs f with
    | some _ => hDelLoop rest (hdelete fs f) (n + 1)
    | none => hDelLoop rest fs n

/-- cache/cachehash.go:108-130 `HDel`. -/
def hDel (c : Cache) (now : Int) (k : Bytes) (fields : List Bytes) : Cache × Res Int :=
  match c.getHash now k with
  | (c', .err e) => (c', .err e)
  | (c', .panic) => (c', .panic)
  | (c', .ok none) => (c', .ok 0)
  | (c', .ok (some h)) =>
    let (fs, n) := hDelLoop fields h.fields 0
    (c'.store k (.hash { fields := fs, length := if n ≠ 0 then h.length - n else h.length }), .ok n)

/-- A call that only reads the hash entry (pattern of HLen, HStrLen, HGet, HMGet, …);
`none` is the nil entry. -/
def readHash {α : Type} (c : Cache) (now : Int) (k : Bytes)
    (body : Option HashEntry → Res α) : Cache × Res α :=
  match c.getHash now k with
  | (c', .err e) => (c', .err e)
  | (c', .panic) => (c', .panic)
  | (c', .ok o) => (c', body o)

/-- cache/cachehash.go:133-144 `HLen`. -/
def hLen (c : Cache) (now : Int) (k : Bytes) : Cache × Res Int :=
  c.readHash now k fun
    | none => .ok 0
    | some h => .ok h.length

/-- cache/cachehash.go:147-158 `HStrLen`. -/
def hStrLen (c : Cache) (now : Int) (k f : Bytes) : Cache × Res Int :=
  c.readHash now k fun
    | none => .ok 0
    | some h => match h.get f with
      | some s => .ok s.length
      | none => .ok 0

/-- cache/cachehash.go:348-367 `HGet`. -/
def hGet (c : Cache) (now : Int) (k f : Bytes) : Cache × Res Bytes :=
  c.readHash now k fun
    | none => .err .keyNil
    | some h => match h.get f with
      | some s => .ok s
      | none => .err .keyNil

/-- The type switch of cache/cachehash.go:177-196. -/
def hIncrScalar (inc : Int64) : Scalar → Res Int64
  | .str s => if s = [] then .ok inc else .err .hashNotFloat
  | .int v => .ok (v + inc)
  | .int32 v => .ok (v.toInt64 + inc)
  | .int64 v => .ok (v + inc)
  | .uint32 v => .ok (v.toUInt64.toInt64 + inc)
  | .uint64 v => .ok (v.toInt64 + inc)
  | _ => .err .hashNotFloat

/-- cache/cachehash.go:160-203 `HIncrBy` (line 199 stores the increment, not the sum). -/
def hIncrBy (c : Cache) (now : Int) (k f : Bytes) (inc : Int64) : Cache × Res Int64 :=
  c.withHash now k fun h =>
    match hfind h.fields f with
    | none => ((h.set f (itoa inc)).1, .ok inc)
    | some v =>
      match hIncrScalar inc v with
      | .ok n => ((h.set f (itoa inc)).1, .ok n)
      | r => (h, r)

/-- The type switch of cache/cachehash.go:224-243 (there is no `float64` case). -/
def hIncrFloatScalar (x : F64) : Scalar → Res F64
  | .str s => if s = [] then .ok x else .err .hashNotFloat
  | .int v => .ok ((F64.ofInt v.toInt).add x)
  | .int32 v => .ok ((F64.ofInt v.toInt).add x)
  | .int64 v => .ok ((F64.ofInt v.toInt).add x)
  | .uint32 v => .ok ((F64.ofInt v.toNat).add x)
  | .uint64 v => .ok ((F64.ofInt v.toNat).add x)
  | _ => .err .hashNotFloat

/-- cache/cachehash.go:207-250 `HIncrByFloat` (line 246 stores the increment, not the sum). -/
def hIncrByFloat (c : Cache) (now : Int) (k f : Bytes) (x : F64) : Cache × Res F64 :=
  c.withHash now k fun h =>
    match hfind h.fields f with
    | none => ((h.set f (formatFloat x)).1, .ok x)
    | some v =>
      match hIncrFloatScalar x v with
      | .ok n => ((h.set f (formatFloat x)).1, .ok n)
      | r => (h, r)

/-- cache/cachehash.go:263-265, the loop of `HMSet`; `fv` = the map's pairs in iteration order. -/
def hMSetLoop : List (Bytes × Bytes) → HashEntry → Int → HashEntry × Int
  | [], h, n => (h, n)
  | (f, v) :: fv, h, n => let (h', m) := h.set f v; hMSetLoop fv h' (n + m)

/-- cache/cachehash.go:252-268 `HMSet`. -/
def hMSet (c : Cache) (now : Int) (k : Bytes) (fv : List (Bytes × Bytes)) : Cache × Res Int :=
  c.withHash now k fun h => let (h', n) := hMSetLoop fv h 0; (h', .ok n)

/-- cache/cachehash.go:271-292 `HMGet`: a slot holds a string or `ErrKeyNil`. -/
def hMGet (c : Cache) (now : Int) (k : Bytes) (fields : List Bytes) : Cache × Res (List (Res Bytes)) :=
  c.readHash now k fun o => .ok (fields.map fun f =>
    match o with
    | none => .err .keyNil
    | some h => match h.get f with
      | some s => .ok s
      | none => .err .keyNil)

/-- cache/cachehash.go:295-309 `HKeys`: on an absent key `he` is nil and `he.Range` panics. -/
def hKeys (c : Cache) (now : Int) (k : Bytes) : Cache × Res (List Bytes) :=
  c.readHash now k fun
    | none => .panic
    | some h => .ok (h.fields.map (·.1))

/-- cache/cachehash.go:312-326 `HVals`: only values of dynamic type `string` are collected. -/
def hVals (c : Cache) (now : Int) (k : Bytes) : Cache × Res (List Bytes) :=
  c.readHash now k fun
    | none => .panic
    | some h => .ok (h.fields.filterMap fun p => match p.2 with
      | .str s => some s
      | _ => none)

/-- cache/cachehash.go:329-346 `HGetAll`: `kv` stays nil, and it is written only when
`fmtString` *fails* (`err != nil`), which never happens for a hash field. -/
def hGetAll (c : Cache) (now : Int) (k : Bytes) : Cache × Res (List (Bytes × Bytes)) :=
  c.readHash now k fun
    | none => .panic
    | some h =>
      if h.fields.any (fun p => match fmtString (.scalar p.2) with | .ok _ => false | _ => true) then
        .panic
      else .ok []

end Cache
end Verif

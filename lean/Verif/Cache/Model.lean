import Verif.FloatText
/-!
# Model of package `cache`: strings, deadlines, database calls, cron

Source: cache/cache.go, cache/cachedb.go, cache/cacheutil.go, cache/cachestring.go,
cache/cachecron.go, cache/database.go.

Simplifications: a `sync.Map` is a function `key → Option value`; the mutex is dropped here
(calls are atomic; module `Conc` models the interleavings); each call reads the clock once
(`now`, nanoseconds); memory is unbounded.  A hash entry is stored by value: each `*hashEntry`
pointer is stored under one key only (cachehash.go:59-62,74-77,166-169,213-216,258-261), so
there is no aliasing between keys.
-/

namespace Verif

/-- Dynamic types a scalar stored in an `interface{}` slot may have in the type switches of
cache/cachestring.go:62-81 and 249-267. -/
inductive Scalar where
  | str (s : Bytes)
  | int (n : Int64)
  | int32 (n : Int32)
  | int64 (n : Int64)
  | uint (n : UInt64)
  | uint32 (n : UInt32)
  | uint64 (n : UInt64)
  | float (f : F64)
deriving DecidableEq, Repr

/-- cache/cachehash.go:8-11 `hashEntry`: fields (a `sync.Map`; here an association list in
insertion order) and the separately maintained `length` counter (unbounded: wrapping would
take 2^63 calls). -/
structure HashEntry where
  fields : List (Bytes × Scalar) := []
  length : Int := 0
deriving DecidableEq, Repr

/-- Values of `dataDict`.  `time` only occurs in the type assertion of cachecron.go:10. -/
inductive Val where
  | scalar (v : Scalar)
  | hash (h : HashEntry)
  | time (t : Int)
deriving DecidableEq, Repr

/-- cache/cache.go:30-32 and cache/cachehash.go:205. -/
inductive Err where
  | keyNil
  | wrongType
  | offsetOutOfRange
  | hashNotFloat
deriving DecidableEq, Repr

abbrev Res (α : Type) := GoRes Err α

/-- cache/cache.go:18-22 `Cache` (without the lock). -/
structure Cache where
  data : Bytes → Option Val
  exp : Bytes → Option Int

/-- cache/cache.go:34 -/
def OK : Bytes := b!"OK"

/-- cache/cachestring.go:16-26 `tryInt64`. -/
def tryInt64 (v : Bytes) : Scalar :=
  match atoi v with
  | some n => .int n
  | none => match parseFloat v with
    | some f => .float f
    | none => .str v

/-- cache/cachestring.go:61-84 `fmtString`, scalar cases. -/
def fmtScalar : Scalar → Bytes
  | .str s => s
  | .int n => itoa n
  | .int32 n => itoa n.toInt64
  | .int64 n => itoa n
  | .uint n => itoa n.toInt64
  | .uint32 n => itoaInt n.toNat
  | .uint64 n => itoa n.toInt64
  | .float f => formatFloat f

/-- cache/cachestring.go:61-84 `fmtString`. -/
def fmtString : Val → Res Bytes
  | .scalar v => .ok (fmtScalar v)
  | .hash _ => .err .wrongType
  | .time _ => .err .wrongType

namespace Cache

/-- cache/cache.go:9-16 `New` and cache/cachedb.go:20-21. -/
def new : Cache := { data := fun _ => none, exp := fun _ => none }

/-- cache/cacheutil.go:6-24 `expired`: a passed deadline deletes the key as a side effect.
(`expiresDict` only ever holds `time.Time` values: cacheutil.go:32.) -/
def expired (c : Cache) (now : Int) (k : Bytes) : Cache × Bool :=
  match c.exp k with
  | none => (c, false)
  | some d =>
    if d < now then ({ data := upd c.data k none, exp := upd c.exp k none }, true)
    else (c, false)

/-- cache/cacheutil.go:28-34 `expires`; `dur` is a `time.Duration` in nanoseconds. -/
def expires (c : Cache) (now : Int) (k : Bytes) (dur : Int64) : Cache :=
  if dur.toInt ≤ 0 then { c with exp := upd c.exp k none }
  else { c with exp := upd c.exp k (some (now + dur.toInt)) }

/-- cache/cacheutil.go:36-48 `get`. -/
def load (c : Cache) (now : Int) (k : Bytes) : Cache × Option Val :=
  match c.data k with
  | none => (c, none)
  | some v =>
    let (c', e) := c.expired now k
    if e then (c', none) else (c', some v)

/-- `c.dataDict.Store(k, v)`. -/
def store (c : Cache) (k : Bytes) (v : Val) : Cache := { c with data := upd c.data k (some v) }

/-- cache/cachestring.go:8-14 `Set`. -/
def set (c : Cache) (k v : Bytes) : Cache × Res Bytes :=
  (c.store k (.scalar (tryInt64 v)), .ok OK)

/-- cache/cachestring.go:29-38 `SetNX` (`LoadOrStore`; the deadline is not consulted). -/
def setNX (c : Cache) (k v : Bytes) : Cache × Res Int64 :=
  match c.data k with
  | some _ => (c, .ok 0)
  | none => (c.store k (.scalar (tryInt64 v)), .ok 1)

/-- cache/cachestring.go:41-49 `SetEX`; `time.Second*time.Duration(expires)` wraps. -/
def setEX (c : Cache) (now : Int) (k v : Bytes) (secs : Int64) : Cache × Res Bytes :=
  ((c.store k (.scalar (tryInt64 v))).expires now k (1000000000 * secs), .ok OK)

/-- cache/cachestring.go:51-59 `PSetEX`. -/
def pSetEX (c : Cache) (now : Int) (k v : Bytes) (ms : Int64) : Cache × Res Bytes :=
  ((c.store k (.scalar (tryInt64 v))).expires now k (1000000 * ms), .ok OK)

/-- cache/cachestring.go:88-98 `Get`. -/
def get (c : Cache) (now : Int) (k : Bytes) : Cache × Res Bytes :=
  match c.load now k with
  | (c', none) => (c', .err .keyNil)
  | (c', some v) => (c', fmtString v)

/-- cache/cachestring.go:100-113 `GetSet`. -/
def getSet (c : Cache) (now : Int) (k v : Bytes) : Cache × Res Bytes :=
  match c.load now k with
  | (c', none) => (c'.store k (.scalar (tryInt64 v)), .err .keyNil)
  | (c', some old) => (c'.store k (.scalar (tryInt64 v)), fmtString old)

/-- `v, ok := c.dataDict.Load(key); if !ok || c.expired(key)`: the pattern of
cachestring.go:119-120, 135-136, 160-161, 199-200; same effect as `get`. -/
def loadLive (c : Cache) (now : Int) (k : Bytes) : Cache × Option Val := c.load now k

/-- cache/cachestring.go:115-129 `StrLen`. -/
def strLen (c : Cache) (now : Int) (k : Bytes) : Cache × Res Int :=
  match c.loadLive now k with
  | (c', none) => (c', .ok 0)
  | (c', some v) => (c', (fmtString v).map (fun s => (s.length : Int)))

/-- cache/cachestring.go:131-149 `Append`. -/
def append (c : Cache) (now : Int) (k v : Bytes) : Cache × Res Int :=
  match c.loadLive now k with
  | (c', none) => (c'.store k (.scalar (tryInt64 v)), .ok v.length)
  | (c', some old) =>
    match fmtString old with
    | .ok s => (c'.store k (.scalar (tryInt64 (s ++ v))), .ok (s ++ v).length)
    | .err e => (c', .err e)
    | .panic => (c', .panic)

/-- cache/cachestring.go:178-180: `for i := len(str); i < pos; i++ { append 0 }`. -/
def padLoop : Nat → Bytes → Bytes
  | 0, s => s
  | n + 1, s => padLoop n (s ++ [0])

/-- cache/cachestring.go:182-189: write `replace[i]` at `pos+i`, appending past the end. -/
def writeLoop : Nat → Bytes → Bytes → Bytes
  | _, [], s => s
  | p, r :: rs, s => writeLoop (p + 1) rs (if p < s.length then s.set p r else s ++ [r])

/-- cache/cachestring.go:151-193 `SetRange`.  Beyond `maxAlloc` the `make` of line 162 panics; so does, on an existing
value, the `append` of line 179 once the slice has grown that far. -/
def setRange (c : Cache) (now : Int) (k : Bytes) (pos : Int64) (r : Bytes) : Cache × Res Int :=
  if pos.toInt < 0 then (c, .err .offsetOutOfRange)
  else
    let p := pos.toInt.toNat
    match c.loadLive now k with
    | (c', none) =>
      if maxAlloc < pos.toInt then (c', .panic)
      else
        let s := List.replicate p 0 ++ r
        (c'.store k (.scalar (tryInt64 s)), .ok s.length)
    | (c', some old) =>
      match fmtString old with
      | .ok o =>
        if maxAlloc < pos.toInt then (c', .panic)
        else
          let s := writeLoop p r (padLoop (p - o.length) o)
          (c'.store k (.scalar (tryInt64 s)), .ok s.length)
      | .err e => (c', .err e)
      | .panic => (c', .panic)

/-- cache/cachestring.go:216-226: `for i := start; i <= end; i++`, first argument = number of
iterations left. -/
def rangeLoop (s : Bytes) : Nat → Int → Bytes
  | 0, _ => []
  | f + 1, i =>
    if i < 0 then rangeLoop s f (i + 1)
    else if h : i.toNat < s.length then s[i.toNat] :: rangeLoop s f (i + 1)
    else []

/-- cache/cachestring.go:208-227, the index arithmetic of `GetRange`. -/
def subRange (s : Bytes) (start stop : Int64) : Bytes :=
  let a := if start.toInt < 0 then (s.length : Int) + start.toInt else start.toInt
  let b := if stop.toInt < 0 then (s.length : Int) + stop.toInt else stop.toInt
  rangeLoop s (b - a + 1).toNat a

/-- cache/cachestring.go:195-228 `GetRange`. -/
def getRange (c : Cache) (now : Int) (k : Bytes) (start stop : Int64) : Cache × Res Bytes :=
  match c.loadLive now k with
  | (c', none) => (c', .ok [])
  | (c', some v) => (c', (fmtString v).map (fun s => subRange s start stop))

/-- The arithmetic of cache/cachestring.go:249-267: new value and returned `int`. -/
def incrScalar (inc : Int64) : Scalar → Option (Scalar × Int64)
  | .uint64 t => some (.uint64 (t + inc.toUInt64), (t + inc.toUInt64).toInt64)
  | .uint32 t => some (.uint32 (t + inc.toUInt64.toUInt32), (t + inc.toUInt64.toUInt32).toUInt64.toInt64)
  | .int64 t => some (.int64 (t + inc), t + inc)
  | .int32 t => some (.int32 (t + inc.toInt32), (t + inc.toInt32).toInt64)
  | .int t => some (.int (t + inc), t + inc)
  | _ => none

/-- cache/cachestring.go:241-272 `incrBy` (`LoadOrStore` of an `int64`; deadline not consulted). -/
def incrBy (c : Cache) (k : Bytes) (inc : Int64) : Cache × Res Int64 :=
  match c.data k with
  | none => (c.store k (.scalar (.int64 inc)), .ok inc)
  | some (.scalar v) =>
    match incrScalar inc v with
    | some (w, n) => (c.store k (.scalar w), .ok n)
    | none => (c, .err .wrongType)
  | some _ => (c, .err .wrongType)

/-- cache/cachestring.go:230-232 `Incr`. -/
def incr (c : Cache) (k : Bytes) : Cache × Res Int64 := c.incrBy k 1

/-- cache/cachestring.go:297-302 `Decr`. -/
def decr (c : Cache) (k : Bytes) : Cache × Res Int64 := c.incrBy k (-1)

/-- cache/cachestring.go:304-310 `DecrBy` (the negation wraps at the minimum). -/
def decrBy (c : Cache) (k : Bytes) (dec : Int64) : Cache × Res Int64 := c.incrBy k (-dec)

/-- cache/cachestring.go:274-295 `IncrByFloat`: only `float64` and `int` values are accepted. -/
def incrByFloat (c : Cache) (k : Bytes) (x : F64) : Cache × Res F64 :=
  match c.data k with
  | none => (c.store k (.scalar (.float x)), .ok x)
  | some (.scalar (.float v)) => (c.store k (.scalar (.float (v.add x))), .ok (v.add x))
  | some (.scalar (.int n)) =>
    let f := (F64.ofInt n.toInt).add x
    (c.store k (.scalar (.float f)), .ok f)
  | some _ => (c, .err .wrongType)

/-- cache/cachestring.go:312-321 `MSet`; `kv` = the map's pairs in iteration order. -/
def mSet (c : Cache) (kv : List (Bytes × Bytes)) : Cache × Res Bytes :=
  (kv.foldl (fun c p => c.store p.1 (.scalar (tryInt64 p.2))) c, .ok OK)

/-- cache/cachestring.go:329-333, the loop of `MSetNX`. -/
def mSetNXLoop (c : Cache) : List (Bytes × Bytes) → Int → Cache × Int
  | [], n => (c, n)
  | (k, v) :: kv, n =>
    match c.data k with
    | some _ => mSetNXLoop c kv n
    | none => mSetNXLoop (c.store k (.scalar (tryInt64 v))) kv (n + 1)

/-- cache/cachestring.go:323-336 `MSetNX`. -/
def mSetNX (c : Cache) (kv : List (Bytes × Bytes)) : Cache × Res Int :=
  let (c', n) := mSetNXLoop c kv 0
  (c', .ok n)

/-- cache/cachestring.go:338-356 `MGet`: a slot holds a string or an error. -/
def mGet (c : Cache) (now : Int) : List Bytes → Cache × List (Res Bytes)
  | [] => (c, [])
  | k :: ks =>
    let (c1, r) := c.get now k
    let (c2, rs) := mGet c1 now ks
    (c2, r :: rs)

/-- cache/cachedb.go:3-15 `Del`. -/
def del (c : Cache) (now : Int) (k : Bytes) : Cache × Int :=
  let (c', v) := c.load now k
  ({ data := upd c'.data k none, exp := upd c'.exp k none }, if v.isSome then 1 else 0)

/-- cache/cachedb.go:17-22 `Flush`. -/
def flush (_ : Cache) : Cache := new

/-- cache/cachedb.go:24-32 `Exists` (no deadline check). -/
def «exists» (c : Cache) (ks : List Bytes) : Int :=
  ks.foldl (fun n k => if (c.data k).isSome then n + 1 else n) 0

/-- cache/cachedb.go:34-46 `Type`: the switch tests for `hashEntry`, but what is stored is a
`*hashEntry` (cachehash.go:37,61), so the `hash` case never matches. -/
def type (c : Cache) (now : Int) (k : Bytes) : Cache × Bytes :=
  match c.load now k with
  | (c', none) => (c', b!"none")
  | (c', some _) => (c', b!"string")

/-- The zero `time.Time` (year 1), in nanoseconds relative to the Unix epoch. -/
def zeroTime : Int := -62135596800000000000

/-- cache/cachecron.go:9-21, one iteration for the entry `(k, v)` of `dataDict`. -/
def cronEntry (now : Int) (c : Cache) (k : Bytes) (v : Val) : Cache :=
  let (expire, ok) := match v with
    | .time t => (t, true)
    | _ => (zeroTime, false)
  let c := if ok then c else { c with exp := upd c.exp k none }
  if expire < now then { data := upd c.data k none, exp := upd c.exp k none } else c

/-- cache/cachecron.go:8-23, one tick of the sweep: each entry of `dataDict` once (entries are
independent, so the order of `Range` does not matter and all are treated at once). -/
def cronTick (c : Cache) (now : Int) : Cache :=
  { data := fun k => match c.data k with
      | none => none
      | some v => (cronEntry now c k v).data k
    exp := fun k => match c.data k with
      | none => c.exp k
      | some v => (cronEntry now c k v).exp k }

end Cache
end Verif

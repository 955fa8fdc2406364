import Verif.Conc.Order
import Verif.Cache.Spec
import Verif.Cache.Congr
import Verif.Cache.Inv
/-!
# Every call of the cache as a program of atomic steps, on memory with pointers

Source: cache/cachestring.go, cache/cachedb.go, cache/cacheutil.go, cache/cachehash.go,
cache/cachecron.go.  Unlike `CacheProg` and `HashProg` this machine has all calls at once: strings,
deadlines, hashes behind pointers, and the sweep.  One step per `sync.Map` method call, per
`time.Now()`, and per read or write of `hashEntry.length`.

Simplifications: `newHash()` and the `Store` that publishes the entry are one step (nobody else can
see an entry before that).  `Range` on a hash reads the names of the fields in one step and then
loads each field.  The sweep of cachecron.go is one step: it holds the lock, and it looks at every
key.  `Flush` replaces the two maps in two steps.
-/
namespace Verif.Conc.Full
open Verif Verif.Conc

/-- A slot of `dataDict`. -/
inductive Cell where
  | scalar (v : Scalar)
  | ref (p : Nat)
  | time (t : Int)
deriving DecidableEq

/-- Shared memory: the two maps, the hash entries by address, the next free address, the clock. -/
structure Mem where
  data : Bytes → Option Cell
  exp : Bytes → Option Int
  heap : Nat → HashEntry
  next : Nat
  now : Int

abbrev MP (α : Type) := Prog Mem α

/-- One step with the result `r` and the effect `u`. -/
def prim {α : Type} (u : Mem → Mem) (r : Mem → α) : MP α := .act u (fun w => .ret (r w))

/-- `c.dataDict.Load(k)` -/
def loadData (k : Bytes) : MP (Option Cell) := prim id (fun w => w.data k)
/-- `c.dataDict.Store(k, v)` for a scalar -/
def storeData (k : Bytes) (v : Scalar) : MP Unit :=
  prim (fun w => { w with data := upd w.data k (some (.scalar v)) }) (fun _ => ())
/-- `c.dataDict.LoadOrStore(k, v)`: the old value, if any -/
def loadOrStore (k : Bytes) (v : Scalar) : MP (Option Cell) :=
  prim (fun w => match w.data k with
    | some _ => w
    | none => { w with data := upd w.data k (some (.scalar v)) }) (fun w => w.data k)
/-- `c.dataDict.Delete(k)` -/
def delData (k : Bytes) : MP Unit := prim (fun w => { w with data := upd w.data k none }) (fun _ => ())
/-- `c.expiresDict.Load(k)` -/
def loadExp (k : Bytes) : MP (Option Int) := prim id (fun w => w.exp k)
/-- `c.expiresDict.Store(k, d)` -/
def storeExp (k : Bytes) (d : Int) : MP Unit := prim (fun w => { w with exp := upd w.exp k (some d) }) (fun _ => ())
/-- `c.expiresDict.Delete(k)` -/
def delExp (k : Bytes) : MP Unit := prim (fun w => { w with exp := upd w.exp k none }) (fun _ => ())
/-- `time.Now()` -/
def clock : MP Int := prim id (fun w => w.now)
/-- `he = newHash(); c.dataDict.Store(key, he)` (cachehash.go:59-62 and alike) -/
def publish (k : Bytes) : MP Nat :=
  prim (fun w => { w with
      data := upd w.data k (some (.ref w.next))
      heap := fun q => if q = w.next then HashEntry.empty else w.heap q
      next := w.next + 1 })
    (fun w => w.next)
/-- A step on the entry at address `p`. -/
def entry {α : Type} (p : Nat) (u : HashEntry → HashEntry) (r : HashEntry → α) : MP α :=
  prim (fun w => { w with heap := fun q => if q = p then u (w.heap p) else w.heap q }) (fun w => r (w.heap p))
/-- `he.Load(f)` -/
def fLoad (p : Nat) (f : Bytes) : MP (Option Scalar) := entry p id (fun e => hfind e.fields f)
/-- `he.Store(f, v)` -/
def fStore (p : Nat) (f : Bytes) (v : Scalar) : MP Unit :=
  entry p (fun e => { e with fields := hput e.fields f v }) (fun _ => ())
/-- `he.LoadOrStore(f, v)`: whether the field was there -/
def fLoadOrStore (p : Nat) (f : Bytes) (v : Scalar) : MP Bool :=
  entry p (fun e => if (hfind e.fields f).isSome then e else { e with fields := hput e.fields f v })
    (fun e => (hfind e.fields f).isSome)
/-- `he.Delete(f)` -/
def fDelete (p : Nat) (f : Bytes) : MP Unit := entry p (fun e => { e with fields := hdelete e.fields f }) (fun _ => ())
/-- the fields that `he.Range` will visit -/
def fNames (p : Nat) : MP (List Bytes) := entry p id (fun e => e.fields.map (·.1))
/-- reading `he.length` -/
def lenLoad (p : Nat) : MP Int := entry p id (fun e => e.length)
/-- writing `he.length` -/
def lenStore (p : Nat) (n : Int) : MP Unit := entry p (fun e => { e with length := n }) (fun _ => ())

/-- `he.length += n` -/
def lenAdd (p : Nat) (n : Int) : MP Unit := do
  let l ← lenLoad p
  lenStore p (l + n)

/-- cache/cacheutil.go:6-24 `expired`. -/
def expiredP (k : Bytes) : MP Bool := do
  match ← loadExp k with
  | none => pure false
  | some d =>
    let n ← clock
    if d < n then do delData k; delExp k; pure true else pure false

/-- cache/cacheutil.go:28-34 `expires`. -/
def expiresP (k : Bytes) (dur : Int64) : MP Unit :=
  if dur.toInt ≤ 0 then delExp k
  else do
    let n ← clock
    storeExp k (n + dur.toInt)

/-- cache/cacheutil.go:36-48 `get`; also `Load` followed by `expired` (cachestring.go:119,135,160,199). -/
def getP (k : Bytes) : MP (Option Cell) := do
  match ← loadData k with
  | none => pure none
  | some v => if ← expiredP k then pure none else pure (some v)

/-- cache/cachestring.go:61-84 `fmtString` on a slot. -/
def fmtCell : Cell → Res Bytes
  | .scalar v => .ok (fmtScalar v)
  | .ref _ => .err .wrongType
  | .time _ => .err .wrongType

/-- cache/cachestring.go:241-272 `incrBy`. -/
def incrByP (k : Bytes) (n : Int64) : MP (Res Int64) := do
  match ← loadOrStore k (.int64 n) with
  | none => pure (.ok n)
  | some (.scalar v) =>
    match Cache.incrScalar n v with
    | some (w, m) => do storeData k w; pure (.ok m)
    | none => pure (.err .wrongType)
  | some _ => pure (.err .wrongType)

/-- cache/cachestring.go:316-318, the loop of `MSet`. -/
def mSetP : List (Bytes × Bytes) → MP Unit
  | [] => pure ()
  | (k, v) :: kv => do storeData k (tryInt64 v); mSetP kv

/-- cache/cachestring.go:329-333, the loop of `MSetNX`. -/
def mSetNXP : List (Bytes × Bytes) → Int → MP Int
  | [], n => pure n
  | (k, v) :: kv, n => do
    match ← loadOrStore k (tryInt64 v) with
    | some _ => mSetNXP kv n
    | none => mSetNXP kv (n + 1)

/-- cache/cachestring.go:343-354, the loop of `MGet`. -/
def mGetP : List Bytes → MP (List (Res Bytes))
  | [] => pure []
  | k :: ks => do
    let v ← getP k
    let rs ← mGetP ks
    pure ((match v with | none => .err .keyNil | some v => fmtCell v) :: rs)

/-- cache/cachedb.go:25-29, the loop of `Exists`. -/
def existsP : List Bytes → Int → MP Int
  | [], n => pure n
  | k :: ks, n => do
    match ← loadData k with
    | some _ => existsP ks (n + 1)
    | none => existsP ks n

/-- cachehash.go:24-34 `hashEntry.set`. -/
def setP (p : Nat) (f v : Bytes) : MP Int := do
  if ← fLoadOrStore p f (tryInt64 v) then
    fStore p f (tryInt64 v)
    lenAdd p 0
    pure 0
  else
    lenAdd p 1
    pure 1

/-- cachehash.go:53-62 and alike: fetch the entry or create and publish one. -/
def fetchP {α : Type} (k : Bytes) (body : Nat → MP (Res α)) : MP (Res α) := do
  match ← getP k with
  | some (.ref p) => body p
  | some _ => pure (.err .wrongType)
  | none => do
    let p ← publish k
    body p

/-- Calls of the read pattern: `none` is the nil entry. -/
def readP {α : Type} (k : Bytes) (body : Option Nat → MP (Res α)) : MP (Res α) := do
  match ← getP k with
  | some (.ref p) => body (some p)
  | some _ => pure (.err .wrongType)
  | none => body none

/-- cachehash.go:263-265, the loop of `HMSet`. -/
def hMSetP (p : Nat) : List (Bytes × Bytes) → Int → MP (Res Int)
  | [], n => pure (.ok n)
  | (f, v) :: fv, n => do
    let m ← setP p f v
    hMSetP p fv (n + m)

/-- cachehash.go:118-129, the loop of `HDel` and the length update. -/
def hDelP (p : Nat) : List Bytes → Int → MP (Res Int)
  | [], n => if n = 0 then pure (.ok n) else do lenAdd p (-n); pure (.ok n)
  | f :: fs, n => do
    match ← fLoad p f with
    | some _ => do fDelete p f; hDelP p fs (n + 1)
    | none => hDelP p fs n

/-- cachehash.go:278-289, the loop of `HMGet`. -/
def hMGetP (o : Option Nat) : List Bytes → MP (List (Res Bytes))
  | [] => pure []
  | f :: fs =>
    match o with
    | none => do
      let rs ← hMGetP o fs
      pure (.err .keyNil :: rs)
    | some p => do
      let v ← fLoad p f
      let rs ← hMGetP o fs
      pure ((match v with | some v => .ok (fmtScalar v) | none => .err .keyNil) :: rs)

/-- cachehash.go:301-306, the loop of `HKeys`: a field that is gone is not visited. -/
def hKeysP (p : Nat) : List Bytes → MP (List Bytes)
  | [] => pure []
  | f :: fs => do
    let v ← fLoad p f
    let rs ← hKeysP p fs
    pure (if v.isSome then f :: rs else rs)

/-- cachehash.go:318-323, the loop of `HVals`. -/
def hValsP (p : Nat) : List Bytes → MP (List Bytes)
  | [] => pure []
  | f :: fs => do
    let v ← fLoad p f
    let rs ← hValsP p fs
    pure (match v with | some (.str s) => s :: rs | _ => rs)

/-- cachehash.go:335-343, the loop of `HGetAll`: the nil map is written when `fmtString` fails. -/
def hGetAllP (p : Nat) : List Bytes → MP (Res (List (Bytes × Bytes)))
  | [] => pure (.ok [])
  | f :: fs => do
    match ← fLoad p f with
    | none => hGetAllP p fs
    | some v =>
      match fmtCell (.scalar v) with
      | .ok _ => hGetAllP p fs
      | _ => pure .panic

/-- cache/cachecron.go:9-21 for the entry at `k`. -/
def cronCell (now : Int) (d : Option Cell) (e : Option Int) : Option Cell × Option Int :=
  match d with
  | none => (none, e)
  | some v =>
    let (expire, ok) := match v with
      | .time t => (t, true)
      | _ => (Cache.zeroTime, false)
    let e := if ok then e else none
    if expire < now then (none, none) else (some v, e)

/-- The body of each call between lock and unlock. -/
def prog : Call → MP Out
  | .set k v => do storeData k (tryInt64 v); pure (.str (.ok OK))
  | .setNX k v => do
    match ← loadOrStore k (tryInt64 v) with
    | some _ => pure (.int (.ok 0))
    | none => pure (.int (.ok 1))
  | .setEX k v n => do
    storeData k (tryInt64 v); expiresP k (1000000000 * n); pure (.str (.ok OK))
  | .pSetEX k v n => do
    storeData k (tryInt64 v); expiresP k (1000000 * n); pure (.str (.ok OK))
  | .get k => do
    match ← getP k with
    | none => pure (.str (.err .keyNil))
    | some v => pure (.str (fmtCell v))
  | .getSet k v => do
    let old ← getP k
    storeData k (tryInt64 v)
    match old with
    | none => pure (.str (.err .keyNil))
    | some o => pure (.str (fmtCell o))
  | .strLen k => do
    match ← getP k with
    | none => pure (.int (.ok 0))
    | some v => pure (.int ((fmtCell v).map (fun s => (s.length : Int))))
  | .append k v => do
    match ← getP k with
    | none => do storeData k (tryInt64 v); pure (.int (.ok v.length))
    | some old =>
      match fmtCell old with
      | .ok s => do storeData k (tryInt64 (s ++ v)); pure (.int (.ok (s ++ v).length))
      | .err e => pure (.int (.err e))
      | .panic => pure (.int .panic)
  | .setRange k pos r =>
    if pos.toInt < 0 then pure (.int (.err .offsetOutOfRange))
    else do
      let p := pos.toInt.toNat
      match ← getP k with
      | none => if maxAlloc < pos.toInt then pure (.int .panic) else do
        storeData k (tryInt64 (List.replicate p 0 ++ r))
        pure (.int (.ok (List.replicate p 0 ++ r).length))
      | some old =>
        match fmtCell old with
        | .ok o => if maxAlloc < pos.toInt then pure (.int .panic) else do
          storeData k (tryInt64 (Cache.writeLoop p r (Cache.padLoop (p - o.length) o)))
          pure (.int (.ok (Cache.writeLoop p r (Cache.padLoop (p - o.length) o)).length))
        | .err e => pure (.int (.err e))
        | .panic => pure (.int .panic)
  | .getRange k a b => do
    match ← getP k with
    | none => pure (.str (.ok []))
    | some v => pure (.str ((fmtCell v).map (fun s => Cache.subRange s a b)))
  | .incr k => do let r ← incrByP k 1; pure (.int (r.map Int64.toInt))
  | .incrBy k n => do let r ← incrByP k n; pure (.int (r.map Int64.toInt))
  | .decr k => do let r ← incrByP k (-1); pure (.int (r.map Int64.toInt))
  | .decrBy k n => do let r ← incrByP k (-n); pure (.int (r.map Int64.toInt))
  | .incrByFloat k x => do
    match ← loadOrStore k (.float x) with
    | none => pure (.float (.ok x))
    | some (.scalar (.float v)) => do storeData k (.float (v.add x)); pure (.float (.ok (v.add x)))
    | some (.scalar (.int n)) => do
      storeData k (.float ((F64.ofInt n.toInt).add x))
      pure (.float (.ok ((F64.ofInt n.toInt).add x)))
    | some _ => pure (.float (.err .wrongType))
  | .mSet kv => do mSetP kv; pure (.str (.ok OK))
  | .mSetNX kv => do let n ← mSetNXP kv 0; pure (.int (.ok n))
  | .mGet ks => do let rs ← mGetP ks; pure (.slots (.ok rs))
  | .del k => do
    let v ← getP k
    delData k
    delExp k
    pure (.int (.ok (if v.isSome then 1 else 0)))
  | .flush => do
    prim (fun w => { w with data := fun _ => none }) (fun _ => ())
    prim (fun w => { w with exp := fun _ => none }) (fun _ => ())
    pure .unit
  | .exists_ ks => do let n ← existsP ks 0; pure (.int (.ok n))
  | .type k => do
    match ← getP k with
    | none => pure (.str (.ok b!"none"))
    | some _ => pure (.str (.ok b!"string"))
  | .hSet k f v => do
    let r ← fetchP k (fun p => do let n ← setP p f v; pure (.ok n))
    pure (.int r)
  | .hSetNX k f v => do
    let r ← fetchP k (fun p => do
      if ← fLoadOrStore p f (.str v) then pure (.ok 0)
      else do lenAdd p 1; pure (.ok 1))
    pure (.int r)
  | .hExists k f => do
    let r ← readP k (fun
      | none => pure (.ok 0)
      | some p => do
        let v ← fLoad p f
        let n : Int := if v.isSome then 1 else 0
        lenAdd p (-n)
        pure (.ok n))
    pure (.int r)
  | .hDel k fs => do
    let r ← readP k (fun
      | none => pure (.ok 0)
      | some p => hDelP p fs 0)
    pure (.int r)
  | .hLen k => do
    let r ← readP k (fun
      | none => pure (.ok 0)
      | some p => do let n ← lenLoad p; pure (.ok n))
    pure (.int r)
  | .hStrLen k f => do
    let r ← readP k (fun
      | none => pure (.ok 0)
      | some p => do
        match ← fLoad p f with
        | some v => pure (.ok ((fmtScalar v).length : Int))
        | none => pure (.ok 0))
    pure (.int r)
  | .hGet k f => do
    let r ← readP k (fun
      | none => pure (.err .keyNil)
      | some p => do
        match ← fLoad p f with
        | some v => pure (.ok (fmtScalar v))
        | none => pure (.err .keyNil))
    pure (.str r)
  | .hIncrBy k f n => do
    let r ← fetchP k (fun p => do
      match ← fLoad p f with
      | none => do let _ ← setP p f (itoa n); pure (.ok n)
      | some v =>
        match Cache.hIncrScalar n v with
        | .ok m => do let _ ← setP p f (itoa n); pure (.ok m)
        | r => pure r)
    pure (.int (r.map Int64.toInt))
  | .hIncrByFloat k f x => do
    let r ← fetchP k (fun p => do
      match ← fLoad p f with
      | none => do let _ ← setP p f (formatFloat x); pure (.ok x)
      | some v =>
        match Cache.hIncrFloatScalar x v with
        | .ok m => do let _ ← setP p f (formatFloat x); pure (.ok m)
        | r => pure r)
    pure (.float r)
  | .hMSet k fv => do
    let r ← fetchP k (fun p => hMSetP p fv 0)
    pure (.int r)
  | .hMGet k fs => do
    let r ← readP k (fun o => do let rs ← hMGetP o fs; pure (.ok rs))
    pure (.slots r)
  | .hKeys k => do
    let r ← readP k (fun
      | none => pure .panic
      | some p => do let ns ← fNames p; let rs ← hKeysP p ns; pure (.ok rs))
    pure (.strs r)
  | .hVals k => do
    let r ← readP k (fun
      | none => pure .panic
      | some p => do let ns ← fNames p; let rs ← hValsP p ns; pure (.ok rs))
    pure (.strs r)
  | .hGetAll k => do
    let r ← readP k (fun
      | none => pure .panic
      | some p => do let ns ← fNames p; hGetAllP p ns)
    pure (.pairs r)
  | .list _ => pure .panic
  | .cronTick => do
    prim (fun w => { w with
        data := fun k => (cronCell w.now (w.data k) (w.exp k)).1
        exp := fun k => (cronCell w.now (w.data k) (w.exp k)).2 }) (fun _ => ())
    pure .unit

/-- Lock use of each call: the first lines of each method in cachestring.go and cachedb.go,
cachecron.go:8; the hash calls and the list calls take no lock. -/
def mode : Call → Mode
  | .set .. | .setNX .. | .setEX .. | .pSetEX .. | .getSet .. | .append .. | .setRange .. | .incr .. | .incrBy ..
  | .incrByFloat .. | .decr .. | .decrBy .. | .del .. | .flush | .cronTick => .write
  | .get .. | .strLen .. | .getRange .. => .read
  | _ => .unlocked

theorem exclusive_mode {op : Call} (h : op.exclusive = true ∨ op = .cronTick) : mode op = .write := by
  rcases h with h | rfl
  · cases op <;> first | rfl | cases h
  · rfl

theorem look_mode {op : Call} (h : op.look = true) : mode op = .read := by
  cases op <;> first | rfl | cases h

/-- The machine: the clock never runs backwards. -/
def spec : Spec Mem Call Out :=
  { prog := prog, mode := mode, tick := fun s s' => ∃ n, s.now ≤ n ∧ s' = { s with now := n } }

abbrev Cfg := Config Mem Call Out

/-- The cache a memory denotes: every pointer replaced by what it points to. -/
def Cell.val (h : Nat → HashEntry) : Cell → Val
  | .scalar v => .scalar v
  | .ref p => .hash (h p)
  | .time t => .time t

def Mem.abs (w : Mem) : Cache := { data := fun k => (w.data k).map (Cell.val w.heap), exp := w.exp }

/-- A hash lists each field once. -/
def Distinct (e : HashEntry) : Prop := (e.fields.map (·.1)).Nodup

/-- Addresses in use are allocated, no two keys share one, and each entry lists a field once. -/
structure Mem.WF (w : Mem) : Prop where
  alloc : ∀ k p, w.data k = some (.ref p) → p < w.next
  inj : ∀ k k' p, w.data k = some (.ref p) → w.data k' = some (.ref p) → k = k'
  names : ∀ p, Distinct (w.heap p)

/-- An empty memory. -/
def Mem.empty (t : Int) : Mem := ⟨fun _ => none, fun _ => none, fun _ => HashEntry.empty, 0, t⟩

theorem Mem.empty_wf (t : Int) : (Mem.empty t).WF := ⟨by simp [empty], by simp [empty], fun _ => by simp [empty, Distinct, HashEntry.empty]⟩

end Verif.Conc.Full

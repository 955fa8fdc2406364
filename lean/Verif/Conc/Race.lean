import Verif.Conc.FullProg
import Verif.Conc.Locks
/-!
# The machine of all calls, with a record of the ordinary variables each step touches

Source: as `Conc/Full`.  A `sync.Map` and an RWMutex may be used by many goroutines at once; ordinary
variables may not.  The ordinary variables of the cache are

* the fields `dataDict` and `expiresDict` of `Cache` (cache/cache.go:18-22), which every map
  operation reads to find the map, and which `Flush` assigns (cache/cachedb.go:17-22);
* the field `length` of each `hashEntry` (cache/cachehash.go:8-11), an `int`.

The programs below are those of `Conc/Full` with a list of such accesses at every step
(`sim_prog`: without the lists they are the same programs).  The assignment of `length` inside
`newHash` is not listed: the entry is not visible to others before the `Store` of the same step, and
the `Load` that finds it comes after that `Store` (sync.Map).
-/
namespace Verif.Conc.Race
open Verif
open Verif.Conc.Full (Cell Mem fmtCell cronCell)

/-- An ordinary variable. -/
inductive Loc where
  | dataDict
  | expiresDict
  | length (p : Nat)
deriving DecidableEq

/-- A read (`write = false`) or a write of an ordinary variable. -/
structure Access where
  loc : Loc
  write : Bool
deriving DecidableEq

/-- The memory, and what the last step of a program touched. -/
structure G where
  mem : Mem
  acc : List Access

abbrev GP (α : Type) := Prog G α

/-- One step that touches `a`, with the result `r` and the effect `u`. -/
def prim {α : Type} (a : List Access) (u : Mem → Mem) (r : Mem → α) : GP α :=
  .act (fun g => ⟨u g.mem, a⟩) (fun g => .ret (r g.mem))

/-- `c.dataDict.Load(k)` -/
def loadData (k : Bytes) : GP (Option Cell) := prim [⟨.dataDict, false⟩] id (fun w => w.data k)
/-- `c.dataDict.Store(k, v)` for a scalar -/
def storeData (k : Bytes) (v : Scalar) : GP Unit :=
  prim [⟨.dataDict, false⟩] (fun w => { w with data := upd w.data k (some (.scalar v)) }) (fun _ => ())
/-- `c.dataDict.LoadOrStore(k, v)`: the old value, if any -/
def loadOrStore (k : Bytes) (v : Scalar) : GP (Option Cell) :=
  prim [⟨.dataDict, false⟩] (fun w => match w.data k with
    | some _ => w
    | none => { w with data := upd w.data k (some (.scalar v)) }) (fun w => w.data k)
/-- `c.dataDict.Delete(k)` -/
def delData (k : Bytes) : GP Unit :=
  prim [⟨.dataDict, false⟩] (fun w => { w with data := upd w.data k none }) (fun _ => ())
/-- `c.expiresDict.Load(k)` -/
def loadExp (k : Bytes) : GP (Option Int) := prim [⟨.expiresDict, false⟩] id (fun w => w.exp k)
/-- `c.expiresDict.Store(k, d)` -/
def storeExp (k : Bytes) (d : Int) : GP Unit :=
  prim [⟨.expiresDict, false⟩] (fun w => { w with exp := upd w.exp k (some d) }) (fun _ => ())
/-- `c.expiresDict.Delete(k)` -/
def delExp (k : Bytes) : GP Unit :=
  prim [⟨.expiresDict, false⟩] (fun w => { w with exp := upd w.exp k none }) (fun _ => ())
/-- `time.Now()` -/
def clock : GP Int := prim [] id (fun w => w.now)
/-- `he = newHash(); c.dataDict.Store(key, he)` (cachehash.go:59-62 and alike) -/
def publish (k : Bytes) : GP Nat :=
  prim [⟨.dataDict, false⟩] (fun w => { w with
      data := upd w.data k (some (.ref w.next))
      heap := fun q => if q = w.next then HashEntry.empty else w.heap q
      next := w.next + 1 })
    (fun w => w.next)
/-- A step on the entry at address `p`. -/
def entry {α : Type} (a : List Access) (p : Nat) (u : HashEntry → HashEntry) (r : HashEntry → α) : GP α :=
  prim a (fun w => { w with heap := fun q => if q = p then u (w.heap p) else w.heap q }) (fun w => r (w.heap p))
/-- `he.Load(f)`: the entry embeds its map, no variable is read to find it (cachehash.go:8-11) -/
def fLoad (p : Nat) (f : Bytes) : GP (Option Scalar) := entry [] p id (fun e => hfind e.fields f)
/-- `he.Store(f, v)` -/
def fStore (p : Nat) (f : Bytes) (v : Scalar) : GP Unit :=
  entry [] p (fun e => { e with fields := hput e.fields f v }) (fun _ => ())
/-- `he.LoadOrStore(f, v)`: whether the field was there -/
def fLoadOrStore (p : Nat) (f : Bytes) (v : Scalar) : GP Bool :=
  entry [] p (fun e => if (hfind e.fields f).isSome then e else { e with fields := hput e.fields f v })
    (fun e => (hfind e.fields f).isSome)
/-- `he.Delete(f)` -/
def fDelete (p : Nat) (f : Bytes) : GP Unit := entry [] p (fun e => { e with fields := hdelete e.fields f }) (fun _ => ())
/-- the fields that `he.Range` will visit -/
def fNames (p : Nat) : GP (List Bytes) := entry [] p id (fun e => e.fields.map (·.1))
/-- reading `he.length` -/
def lenLoad (p : Nat) : GP Int := entry [⟨.length p, false⟩] p id (fun e => e.length)
/-- writing `he.length` -/
def lenStore (p : Nat) (n : Int) : GP Unit :=
  entry [⟨.length p, true⟩] p (fun e => { e with length := n }) (fun _ => ())

/-- `he.length += n` -/
def lenAdd (p : Nat) (n : Int) : GP Unit := do
  let l ← lenLoad p
  lenStore p (l + n)

/-- cache/cacheutil.go:6-24 `expired`. -/
def expiredP (k : Bytes) : GP Bool := do
  match ← loadExp k with
  | none => pure false
  | some d =>
    let n ← clock
    if d < n then do delData k; delExp k; pure true else pure false

/-- cache/cacheutil.go:28-34 `expires`. -/
def expiresP (k : Bytes) (dur : Int64) : GP Unit :=
  if dur.toInt ≤ 0 then delExp k
  else do
    let n ← clock
    storeExp k (n + dur.toInt)

/-- cache/cacheutil.go:36-48 `get`; also `Load` followed by `expired` (cachestring.go:119,135,160,199). -/
def getP (k : Bytes) : GP (Option Cell) := do
  match ← loadData k with
  | none => pure none
  | some v => if ← expiredP k then pure none else pure (some v)

/-- cache/cachestring.go:241-272 `incrBy`. -/
def incrByP (k : Bytes) (n : Int64) : GP (Res Int64) := do
  match ← loadOrStore k (.int64 n) with
  | none => pure (.ok n)
  | some (.scalar v) =>
    match Cache.incrScalar n v with
    | some (w, m) => do storeData k w; pure (.ok m)
    | none => pure (.err .wrongType)
  | some _ => pure (.err .wrongType)

/-- cache/cachestring.go:316-318, the loop of `MSet`. -/
def mSetP : List (Bytes × Bytes) → GP Unit
  | [] => pure ()
  | (k, v) :: kv => do storeData k (tryInt64 v); mSetP kv

/-- cache/cachestring.go:329-333, the loop of `MSetNX`. -/
def mSetNXP : List (Bytes × Bytes) → Int → GP Int
  | [], n => pure n
  | (k, v) :: kv, n => do
    match ← loadOrStore k (tryInt64 v) with
    | some _ => mSetNXP kv n
    | none => mSetNXP kv (n + 1)

/-- cache/cachestring.go:343-354, the loop of `MGet`. -/
def mGetP : List Bytes → GP (List (Res Bytes))
  | [] => pure []
  | k :: ks => do
    let v ← getP k
    let rs ← mGetP ks
    pure ((match v with | none => .err .keyNil | some v => fmtCell v) :: rs)

/-- cache/cachedb.go:25-29, the loop of `Exists`. -/
def existsP : List Bytes → Int → GP Int
  | [], n => pure n
  | k :: ks, n => do
    match ← loadData k with
    | some _ => existsP ks (n + 1)
    | none => existsP ks n

/-- cachehash.go:24-34 `hashEntry.set`. -/
def setP (p : Nat) (f v : Bytes) : GP Int := do
  if ← fLoadOrStore p f (tryInt64 v) then
    fStore p f (tryInt64 v)
    lenAdd p 0
    pure 0
  else
    lenAdd p 1
    pure 1

/-- cachehash.go:53-62 and alike: fetch the entry or create and publish one. -/
def fetchP {α : Type} (k : Bytes) (body : Nat → GP (Res α)) : GP (Res α) := do
  match ← getP k with
  | some (.ref p) => body p
  | some _ => pure (.err .wrongType)
  | none => do
    let p ← publish k
    body p

/-- Calls of the read pattern: `none` is the nil entry. -/
def readP {α : Type} (k : Bytes) (body : Option Nat → GP (Res α)) : GP (Res α) := do
  match ← getP k with
  | some (.ref p) => body (some p)
  | some _ => pure (.err .wrongType)
  | none => body none

/-- cachehash.go:263-265, the loop of `HMSet`. -/
def hMSetP (p : Nat) : List (Bytes × Bytes) → Int → GP (Res Int)
  | [], n => pure (.ok n)
  | (f, v) :: fv, n => do
    let m ← setP p f v
    hMSetP p fv (n + m)

/-- cachehash.go:118-129, the loop of `HDel` and the length update. -/
def hDelP (p : Nat) : List Bytes → Int → GP (Res Int)
  | [], n => if n = 0 then pure (.ok n) else do lenAdd p (-n); pure (.ok n)
  | f :: fs, n => do
    match ← fLoad p f with
    | some _ => do fDelete p f; hDelP p fs (n + 1)
    | none => hDelP p fs n

/-- cachehash.go:278-289, the loop of `HMGet`. -/
def hMGetP (o : Option Nat) : List Bytes → GP (List (Res Bytes))
  | [] => pure []
  | f :: fs =>
    match o with
    | none => do
      let rs ← hMGetP o fs
      pure (.err .keyNil :: rs)
    | some p => do
      let v ← fLoad p f
      let rs ← hMGetP o fs
      pure ((match v with | some v => .ok (fmtScalar v) | none => .err .keyNil) :: rs)

/-- cachehash.go:301-306, the loop of `HKeys`: a field that is gone is not visited. -/
def hKeysP (p : Nat) : List Bytes → GP (List Bytes)
  | [] => pure []
  | f :: fs => do
    let v ← fLoad p f
    let rs ← hKeysP p fs
    pure (if v.isSome then f :: rs else rs)

/-- cachehash.go:318-323, the loop of `HVals`. -/
def hValsP (p : Nat) : List Bytes → GP (List Bytes)
  | [] => pure []
  | f :: fs => do
    let v ← fLoad p f
    let rs ← hValsP p fs
    pure (match v with | some (.str s) => s :: rs | _ => rs)

/-- cachehash.go:335-343, the loop of `HGetAll`: the nil map is written when `fmtString` fails. -/
def hGetAllP (p : Nat) : List Bytes → GP (Res (List (Bytes × Bytes)))
  | [] => pure (.ok [])
  | f :: fs => do
    match ← fLoad p f with
    | none => hGetAllP p fs
    | some v =>
      match fmtCell (.scalar v) with
      | .ok _ => hGetAllP p fs
      | _ => pure .panic

/-- The body of each call between lock and unlock. -/
def prog : Call → GP Out
  | .set k v => do storeData k (tryInt64 v); pure (.str (.ok OK))
  | .setNX k v => do
    match ← loadOrStore k (tryInt64 v) with
    | some _ => pure (.int (.ok 0))
    | none => pure (.int (.ok 1))
  | .setEX k v n => do
    storeData k (tryInt64 v); expiresP k (1000000000 * n); pure (.str (.ok OK))
  | .pSetEX k v n => do
    storeData k (tryInt64 v); expiresP k (1000000 * n); pure (.str (.ok OK))
  | .get k => do
    match ← getP k with
    | none => pure (.str (.err .keyNil))
    | some v => pure (.str (fmtCell v))
  | .getSet k v => do
    let old ← getP k
    storeData k (tryInt64 v)
    match old with
    | none => pure (.str (.err .keyNil))
    | some o => pure (.str (fmtCell o))
  | .strLen k => do
    match ← getP k with
    | none => pure (.int (.ok 0))
    | some v => pure (.int ((fmtCell v).map (fun s => (s.length : Int))))
  | .append k v => do
    match ← getP k with
    | none => do storeData k (tryInt64 v); pure (.int (.ok v.length))
    | some old =>
      match fmtCell old with
      | .ok s => do storeData k (tryInt64 (s ++ v)); pure (.int (.ok (s ++ v).length))
      | .err e => pure (.int (.err e))
      | .panic => pure (.int .panic)
  | .setRange k pos r =>
    if pos.toInt < 0 then pure (.int (.err .offsetOutOfRange))
    else do
      let p := pos.toInt.toNat
      match ← getP k with
      | none => if maxAlloc < pos.toInt then pure (.int .panic) else do
        storeData k (tryInt64 (List.replicate p 0 ++ r))
        pure (.int (.ok (List.replicate p 0 ++ r).length))
      | some old =>
        match fmtCell old with
        | .ok o => if maxAlloc < pos.toInt then pure (.int .panic) else do
          storeData k (tryInt64 (Cache.writeLoop p r (Cache.padLoop (p - o.length) o)))
          pure (.int (.ok (Cache.writeLoop p r (Cache.padLoop (p - o.length) o)).length))
        | .err e => pure (.int (.err e))
        | .panic => pure (.int .panic)
  | .getRange k a b => do
    match ← getP k with
    | none => pure (.str (.ok []))
    | some v => pure (.str ((fmtCell v).map (fun s => Cache.subRange s a b)))
  | .incr k => do let r ← incrByP k 1; pure (.int (r.map Int64.toInt))
  | .incrBy k n => do let r ← incrByP k n; pure (.int (r.map Int64.toInt))
  | .decr k => do let r ← incrByP k (-1); pure (.int (r.map Int64.toInt))
  | .decrBy k n => do let r ← incrByP k (-n); pure (.int (r.map Int64.toInt))
  | .incrByFloat k x => do
    match ← loadOrStore k (.float x) with
    | none => pure (.float (.ok x))
    | some (.scalar (.float v)) => do storeData k (.float (v.add x)); pure (.float (.ok (v.add x)))
    | some (.scalar (.int n)) => do
      storeData k (.float ((F64.ofInt n.toInt).add x))
      pure (.float (.ok ((F64.ofInt n.toInt).add x)))
    | some _ => pure (.float (.err .wrongType))
  | .mSet kv => do mSetP kv; pure (.str (.ok OK))
  | .mSetNX kv => do let n ← mSetNXP kv 0; pure (.int (.ok n))
  | .mGet ks => do let rs ← mGetP ks; pure (.slots (.ok rs))
  | .del k => do
    let v ← getP k
    delData k
    delExp k
    pure (.int (.ok (if v.isSome then 1 else 0)))
  | .flush => do
    prim [⟨.dataDict, true⟩] (fun w => { w with data := fun _ => none }) (fun _ => ())
    prim [⟨.expiresDict, true⟩] (fun w => { w with exp := fun _ => none }) (fun _ => ())
    pure .unit
  | .exists_ ks => do let n ← existsP ks 0; pure (.int (.ok n))
  | .type k => do
    match ← getP k with
    | none => pure (.str (.ok b!"none"))
    | some _ => pure (.str (.ok b!"string"))
  | .hSet k f v => do
    let r ← fetchP k (fun p => do let n ← setP p f v; pure (.ok n))
    pure (.int r)
  | .hSetNX k f v => do
    let r ← fetchP k (fun p => do
      if ← fLoadOrStore p f (.str v) then pure (.ok 0)
      else do lenAdd p 1; pure (.ok 1))
    pure (.int r)
  | .hExists k f => do
    let r ← readP k (fun
      | none => pure (.ok 0)
      | some p => do
        let v ← fLoad p f
        let n : Int := if v.isSome then 1 else 0
        lenAdd p (-n)
        pure (.ok n))
    pure (.int r)
  | .hDel k fs => do
    let r ← readP k (fun
      | none => pure (.ok 0)
      | some p => hDelP p fs 0)
    pure (.int r)
  | .hLen k => do
    let r ← readP k (fun
      | none => pure (.ok 0)
      | some p => do let n ← lenLoad p; pure (.ok n))
    pure (.int r)
  | .hStrLen k f => do
    let r ← readP k (fun
      | none => pure (.ok 0)
      | some p => do
        match ← fLoad p f with
        | some v => pure (.ok ((fmtScalar v).length : Int))
        | none => pure (.ok 0))
    pure (.int r)
  | .hGet k f => do
    let r ← readP k (fun
      | none => pure (.err .keyNil)
      | some p => do
        match ← fLoad p f with
        | some v => pure (.ok (fmtScalar v))
        | none => pure (.err .keyNil))
    pure (.str r)
  | .hIncrBy k f n => do
    let r ← fetchP k (fun p => do
      match ← fLoad p f with
      | none => do let _ ← setP p f (itoa n); pure (.ok n)
      | some v =>
        match Cache.hIncrScalar n v with
        | .ok m => do let _ ← setP p f (itoa n); pure (.ok m)
        | r => pure r)
    pure (.int (r.map Int64.toInt))
  | .hIncrByFloat k f x => do
    let r ← fetchP k (fun p => do
      match ← fLoad p f with
      | none => do let _ ← setP p f (formatFloat x); pure (.ok x)
      | some v =>
        match Cache.hIncrFloatScalar x v with
        | .ok m => do let _ ← setP p f (formatFloat x); pure (.ok m)
        | r => pure r)
    pure (.float r)
  | .hMSet k fv => do
    let r ← fetchP k (fun p => hMSetP p fv 0)
    pure (.int r)
  | .hMGet k fs => do
    let r ← readP k (fun o => do let rs ← hMGetP o fs; pure (.ok rs))
    pure (.slots r)
  | .hKeys k => do
    let r ← readP k (fun
      | none => pure .panic
      | some p => do let ns ← fNames p; let rs ← hKeysP p ns; pure (.ok rs))
    pure (.strs r)
  | .hVals k => do
    let r ← readP k (fun
      | none => pure .panic
      | some p => do let ns ← fNames p; let rs ← hValsP p ns; pure (.ok rs))
    pure (.strs r)
  | .hGetAll k => do
    let r ← readP k (fun
      | none => pure .panic
      | some p => do let ns ← fNames p; hGetAllP p ns)
    pure (.pairs r)
  | .list _ => pure .panic
  | .cronTick => do
    prim [⟨.dataDict, false⟩, ⟨.expiresDict, false⟩] (fun w => { w with
        data := fun k => (cronCell w.now (w.data k) (w.exp k)).1
        exp := fun k => (cronCell w.now (w.data k) (w.exp k)).2 }) (fun _ => ())
    pure .unit

/-- The machine: locks and clock as in `Full.spec`. -/
def spec : Spec G Call Out :=
  { prog := prog, mode := Full.mode,
    tick := fun s s' => ∃ n, s.mem.now ≤ n ∧ s' = ⟨{ s.mem with now := n }, s.acc⟩ }

abbrev Cfg := Config G Call Out

/-- Goroutine `i` makes a step inside its call. -/
inductive Acts (i : Nat) : Cfg → Cfg → Prop
  | mk (g : Cfg) (op : Call) (todo : List Call) (u : G → G) (k : G → GP Out) (ht : g.thr i = ⟨todo, some (op, .act u k)⟩) :
      Acts i g { g with sh := u g.sh, thr := setThr g.thr i ⟨todo, some (op, k g.sh)⟩ }

/-- Two accesses that must not happen at once: to the same variable, and one of them writes. -/
def Conflict (a b : Access) : Prop := a.loc = b.loc ∧ (a.write = true ∨ b.write = true)

instance (a b : Access) : Decidable (Conflict a b) := by unfold Conflict; infer_instance

/-- A data race: in some schedule two goroutines make conflicting accesses one right after the other,
with no lock taken or released and no other step in between, so that nothing orders the two. -/
def HasRace (g0 : Cfg) : Prop :=
  ∃ g g1 g2 i j a b, Steps spec true g0 g ∧ Acts i g g1 ∧ Acts j g1 g2 ∧ i ≠ j ∧
    a ∈ g1.sh.acc ∧ b ∈ g2.sh.acc ∧ Conflict a b

/-- The start: nobody runs, thread `i` has to make the calls `calls i`. -/
def start (v : Mem) (calls : Nat → List Call) : Cfg := initial ⟨v, []⟩ calls

/-! ## Calls that get in each other's way, by their names and arguments -/

/-- The hash whose size the call looks up (`false`) or may change (`true`).  `HExists` is among the
latter (cachehash.go:102 subtracts the answer from the length). -/
def sizeUse : Call → Option (Bytes × Bool)
  | .hLen k => some (k, false)
  | .hSet k _ _ | .hSetNX k _ _ | .hExists k _ | .hIncrBy k _ _ | .hIncrByFloat k _ _ => some (k, true)
  | .hMSet k (_ :: _) | .hDel k (_ :: _) => some (k, true)
  | _ => none

/-- The call looks at the maps at all: not for an empty list of keys, and not for the list stub. -/
def mapUse : Call → Bool
  | .mSet [] | .mSetNX [] | .mGet [] | .exists_ [] | .list _ => false
  | _ => true

/-- The call takes no lock (MSet, MSetNX, MGet, Exists, Type and all hash calls). -/
def bare (op : Call) : Bool := Full.mode op == .unlocked

/-- Two calls that must not run at the same time: `Flush` and a call without lock, or two calls that
use the size of one hash of which one may change it. -/
def Clash (a b : Call) : Prop :=
  (a = .flush ∧ bare b = true ∧ mapUse b = true) ∨ (b = .flush ∧ bare a = true ∧ mapUse a = true) ∨
  ∃ k x y, sizeUse a = some (k, x) ∧ sizeUse b = some (k, y) ∧ (x = true ∨ y = true)

/-! ## Without the lists, the programs of `Full` -/

/-- The same steps on memory. -/
inductive Sim {α : Type} : GP α → Full.MP α → Prop
  | ret (a : α) : Sim (.ret a) (.ret a)
  | act {u : G → G} {k : G → GP α} {u' : Mem → Mem} {k' : Mem → Full.MP α} (hu : ∀ g, (u g).mem = u' g.mem)
      (hk : ∀ g, Sim (k g) (k' g.mem)) : Sim (.act u k) (.act u' k')

theorem sim_pure {α : Type} (a : α) : Sim (pure a) (pure a) := .ret a

theorem sim_bind {α β : Type} {p : GP α} {p' : Full.MP α} {f : α → GP β} {f' : α → Full.MP β} (hp : Sim p p')
    (hf : ∀ a, Sim (f a) (f' a)) : Sim (p >>= f) (p' >>= f') := by
  induction hp with
  | ret a => exact hf a
  | act hu hk ih => exact .act hu ih

theorem sim_prim {α : Type} (a : List Access) (u : Mem → Mem) (r : Mem → α) : Sim (prim a u r) (Full.prim u r) :=
  .act (fun _ => rfl) (fun _ => .ret _)

theorem sim_entry {α : Type} (a : List Access) (p : Nat) (u : HashEntry → HashEntry) (r : HashEntry → α) :
    Sim (entry a p u r) (Full.entry p u r) := sim_prim a _ _

/-- Step through two programs of the same shape. -/
macro "sim" : tactic =>
  `(tactic| repeat' first
    | assumption
    | exact sim_pure _
    | contradiction
    | exact sim_prim _ _ _
    | exact sim_entry _ _ _ _
    | refine sim_bind ?_ (fun _ => ?_)
    | split)

theorem sim_lenAdd (p : Nat) (n : Int) : Sim (lenAdd p n) (Full.lenAdd p n) := by
  unfold lenAdd Full.lenAdd; sim

theorem sim_expiredP (k : Bytes) : Sim (expiredP k) (Full.expiredP k) := by
  unfold expiredP Full.expiredP; sim

theorem sim_expiresP (k : Bytes) (d : Int64) : Sim (expiresP k d) (Full.expiresP k d) := by
  unfold expiresP Full.expiresP; sim

theorem sim_getP (k : Bytes) : Sim (getP k) (Full.getP k) := by
  have := sim_expiredP k
  unfold getP Full.getP; sim

theorem sim_incrByP (k : Bytes) (n : Int64) : Sim (incrByP k n) (Full.incrByP k n) := by
  refine sim_bind (sim_prim _ _ _) (fun c => ?_)
  rcases c with _ | (v | p | t)
  · exact .ret _
  · cases h : Cache.incrScalar n v with
    | none => simp only [h]; exact .ret _
    | some q => simp only [h]; exact sim_bind (sim_prim _ _ _) (fun _ => .ret _)
  · exact .ret _
  · exact .ret _

theorem sim_mSetP (kv : List (Bytes × Bytes)) : Sim (mSetP kv) (Full.mSetP kv) := by
  induction kv with
  | nil => exact .ret _
  | cons p kv ih => unfold mSetP Full.mSetP; sim

theorem sim_mSetNXP (kv : List (Bytes × Bytes)) (n : Int) : Sim (mSetNXP kv n) (Full.mSetNXP kv n) := by
  induction kv generalizing n with
  | nil => exact .ret _
  | cons p kv ih =>
    have h0 := ih n
    have h1 := ih (n + 1)
    unfold mSetNXP Full.mSetNXP; sim

theorem sim_mGetP (ks : List Bytes) : Sim (mGetP ks) (Full.mGetP ks) := by
  induction ks with
  | nil => exact .ret _
  | cons k ks ih =>
    have := sim_getP k
    unfold mGetP Full.mGetP; sim

theorem sim_existsP (ks : List Bytes) (n : Int) : Sim (existsP ks n) (Full.existsP ks n) := by
  induction ks generalizing n with
  | nil => exact .ret _
  | cons k ks ih =>
    have h0 := ih n
    have h1 := ih (n + 1)
    unfold existsP Full.existsP; sim

theorem sim_setP (p : Nat) (f v : Bytes) : Sim (setP p f v) (Full.setP p f v) := by
  have h0 := sim_lenAdd p 0
  have h1 := sim_lenAdd p 1
  unfold setP Full.setP; sim

theorem sim_fetchP {α : Type} (k : Bytes) {body : Nat → GP (Res α)} {body' : Nat → Full.MP (Res α)}
    (h : ∀ p, Sim (body p) (body' p)) : Sim (fetchP k body) (Full.fetchP k body') := by
  refine sim_bind (sim_getP k) (fun c => ?_)
  rcases c with _ | (_ | p | _)
  · exact sim_bind (sim_prim _ _ _) h
  · exact .ret _
  · exact h p
  · exact .ret _

theorem sim_readP {α : Type} (k : Bytes) {body : Option Nat → GP (Res α)} {body' : Option Nat → Full.MP (Res α)}
    (h : ∀ p, Sim (body p) (body' p)) : Sim (readP k body) (Full.readP k body') := by
  refine sim_bind (sim_getP k) (fun c => ?_)
  rcases c with _ | (_ | p | _)
  · exact h none
  · exact .ret _
  · exact h (some p)
  · exact .ret _

theorem sim_hMSetP (p : Nat) (fv : List (Bytes × Bytes)) (n : Int) : Sim (hMSetP p fv n) (Full.hMSetP p fv n) := by
  induction fv generalizing n with
  | nil => exact .ret _
  | cons q fv ih => exact sim_bind (sim_setP _ _ _) (fun _ => ih _)

theorem sim_hDelP (p : Nat) (fs : List Bytes) (n : Int) : Sim (hDelP p fs n) (Full.hDelP p fs n) := by
  induction fs generalizing n with
  | nil =>
    have := sim_lenAdd p (-n)
    unfold hDelP Full.hDelP; sim
  | cons f fs ih =>
    have h0 := ih n
    have h1 := ih (n + 1)
    unfold hDelP Full.hDelP; sim

theorem sim_hMGetP (o : Option Nat) (fs : List Bytes) : Sim (hMGetP o fs) (Full.hMGetP o fs) := by
  induction fs with
  | nil => exact .ret _
  | cons f fs ih => unfold hMGetP Full.hMGetP; sim

theorem sim_hKeysP (p : Nat) (fs : List Bytes) : Sim (hKeysP p fs) (Full.hKeysP p fs) := by
  induction fs with
  | nil => exact .ret _
  | cons f fs ih => unfold hKeysP Full.hKeysP; sim

theorem sim_hValsP (p : Nat) (fs : List Bytes) : Sim (hValsP p fs) (Full.hValsP p fs) := by
  induction fs with
  | nil => exact .ret _
  | cons f fs ih => unfold hValsP Full.hValsP; sim

theorem sim_hGetAllP (p : Nat) (fs : List Bytes) : Sim (hGetAllP p fs) (Full.hGetAllP p fs) := by
  induction fs with
  | nil => exact .ret _
  | cons f fs ih => unfold hGetAllP Full.hGetAllP; sim

/-- Every call does to memory, step by step, what it does in `Full`. -/
theorem sim_prog (op : Call) : Sim (prog op) (Full.prog op) := by
  cases op
  case hSet k f v => exact sim_bind (sim_fetchP k (fun p => sim_bind (sim_setP _ _ _) (fun _ => .ret _))) (fun _ => .ret _)
  case hSetNX k f v =>
    refine sim_bind (sim_fetchP k (fun p => ?_)) (fun _ => .ret _)
    have := sim_lenAdd p 1
    sim
  case hMSet k fv => exact sim_bind (sim_fetchP k (fun p => sim_hMSetP p fv 0)) (fun _ => .ret _)
  case hIncrBy k f n =>
    refine sim_bind (sim_fetchP k (fun p => ?_)) (fun _ => .ret _)
    refine sim_bind (sim_entry _ _ _ _) (fun c => ?_)
    cases c with
    | none => exact sim_bind (sim_setP p f _) (fun _ => .ret _)
    | some v =>
      cases h : Cache.hIncrScalar n v <;> simp only [h]
      · exact sim_bind (sim_setP p f _) (fun _ => .ret _)
      · exact .ret _
      · exact .ret _
  case hIncrByFloat k f n =>
    refine sim_bind (sim_fetchP k (fun p => ?_)) (fun _ => .ret _)
    refine sim_bind (sim_entry _ _ _ _) (fun c => ?_)
    cases c with
    | none => exact sim_bind (sim_setP p f _) (fun _ => .ret _)
    | some v =>
      cases h : Cache.hIncrFloatScalar n v <;> simp only [h]
      · exact sim_bind (sim_setP p f _) (fun _ => .ret _)
      · exact .ret _
      · exact .ret _
  case hExists k f =>
    refine sim_bind (sim_readP k (fun o => ?_)) (fun _ => .ret _)
    cases o with
    | none => exact .ret _
    | some p => exact sim_bind (sim_entry _ _ _ _) (fun v => sim_bind (sim_lenAdd p _) (fun _ => .ret _))
  case hDel k fs =>
    refine sim_bind (sim_readP k (fun o => ?_)) (fun _ => .ret _)
    cases o with
    | none => exact .ret _
    | some p => exact sim_hDelP p fs 0
  case hLen k => refine sim_bind (sim_readP k (fun o => ?_)) (fun _ => .ret _); sim
  case hStrLen k f => refine sim_bind (sim_readP k (fun o => ?_)) (fun _ => .ret _); sim
  case hGet k f => refine sim_bind (sim_readP k (fun o => ?_)) (fun _ => .ret _); sim
  case hMGet k fs =>
    exact sim_bind (sim_readP k (fun o => sim_bind (sim_hMGetP o fs) (fun _ => .ret _))) (fun _ => .ret _)
  case hKeys k =>
    refine sim_bind (sim_readP k (fun o => ?_)) (fun _ => .ret _)
    cases o with
    | none => exact .ret _
    | some p => exact sim_bind (sim_entry _ _ _ _) (fun ns => sim_bind (sim_hKeysP p ns) (fun _ => .ret _))
  case hVals k =>
    refine sim_bind (sim_readP k (fun o => ?_)) (fun _ => .ret _)
    cases o with
    | none => exact .ret _
    | some p => exact sim_bind (sim_entry _ _ _ _) (fun ns => sim_bind (sim_hValsP p ns) (fun _ => .ret _))
  case hGetAll k =>
    refine sim_bind (sim_readP k (fun o => ?_)) (fun _ => .ret _)
    cases o with
    | none => exact .ret _
    | some p => exact sim_bind (sim_entry _ _ _ _) (fun ns => sim_hGetAllP p ns)
  case mSet kv => exact sim_bind (sim_mSetP kv) (fun _ => .ret _)
  case mSetNX kv => exact sim_bind (sim_mSetNXP kv 0) (fun _ => .ret _)
  case mGet ks => exact sim_bind (sim_mGetP ks) (fun _ => .ret _)
  case exists_ ks => exact sim_bind (sim_existsP ks 0) (fun _ => .ret _)
  case incr k => exact sim_bind (sim_incrByP k _) (fun _ => .ret _)
  case incrBy k n => exact sim_bind (sim_incrByP k _) (fun _ => .ret _)
  case decr k => exact sim_bind (sim_incrByP k _) (fun _ => .ret _)
  case decrBy k n => exact sim_bind (sim_incrByP k _) (fun _ => .ret _)
  case set k v => exact sim_bind (sim_prim _ _ _) (fun _ => .ret _)
  case setNX k v => unfold prog Full.prog; sim
  case setEX k v n => exact sim_bind (sim_prim _ _ _) (fun _ => sim_bind (sim_expiresP k _) (fun _ => .ret _))
  case pSetEX k v n => exact sim_bind (sim_prim _ _ _) (fun _ => sim_bind (sim_expiresP k _) (fun _ => .ret _))
  case get k => have := sim_getP k; unfold prog Full.prog; sim
  case getSet k v => have := sim_getP k; unfold prog Full.prog; sim
  case strLen k => have := sim_getP k; unfold prog Full.prog; sim
  case append k v =>
    refine sim_bind (sim_getP k) (fun c => ?_)
    cases c with
    | none => exact sim_bind (sim_prim _ _ _) (fun _ => .ret _)
    | some x =>
      cases h : fmtCell x <;> simp only [h]
      · exact sim_bind (sim_prim _ _ _) (fun _ => .ret _)
      · exact .ret _
      · exact .ret _
  case setRange k pos r =>
    simp only [prog, Full.prog]
    by_cases hp : pos.toInt < 0
    · simp only [hp, if_true]; exact .ret _
    simp only [hp, if_false]
    refine sim_bind (sim_getP k) (fun c => ?_)
    by_cases hm : maxAlloc < pos.toInt
    · cases c with
      | none => simp only [hm, if_true]; exact .ret _
      | some x => cases h : fmtCell x <;> simp only [h, hm, if_true] <;> exact .ret _
    simp only [hm, if_false]
    cases c with
    | none => exact sim_bind (sim_prim _ _ _) (fun _ => .ret _)
    | some x =>
      cases h : fmtCell x <;> simp only [h]
      · exact sim_bind (sim_prim _ _ _) (fun _ => .ret _)
      · exact .ret _
      · exact .ret _
  case getRange k a b => have := sim_getP k; unfold prog Full.prog; sim
  case incrByFloat k x =>
    refine sim_bind (sim_prim _ _ _) (fun c => ?_)
    rcases c with _ | (v | p | t)
    · exact .ret _
    · cases v <;> first | exact .ret _ | exact sim_bind (sim_prim _ _ _) (fun _ => .ret _)
    · exact .ret _
    · exact .ret _
  case del k => have := sim_getP k; unfold prog Full.prog; sim
  case flush => unfold prog Full.prog; sim
  case type k => have := sim_getP k; unfold prog Full.prog; sim
  case list n => exact .ret _
  case cronTick => exact sim_bind (sim_prim _ _ _) (fun _ => .ret _)

end Verif.Conc.Race

import Verif.Cache.Hist
import Verif.Rdb.Model
/-!
# Replication into the local cache: xxcache.go, cache/message.go, the rest of redis/replication.go

First the sequential pieces (handling one message, connecting to the master), then the machine of
the goroutines that `New` starts.
-/
namespace Verif.Repl

open Verif.Resp

/-- A `*cache.Cache`.  `none` is the zero value `new(cache.Cache)`: its dictionaries are nil
interfaces (cache/cache.go:18-22), so that every `Set` and `Get` panics. -/
abbrev Local := Option Cache

/-- The errors of `HandleMessage`, by line. -/
inductive HErr where
  | notArray
  | empty
  | cache (e : Err)
  | rpushArgs
  | hmsetArgs
  | unknown (text : Bytes)
deriving DecidableEq

/-- `strings.ToLower` as far as a comparison with "set", "rpush" or "hmset" can tell: no letter
outside ASCII has a lower case among the letters of these words. -/
def lower (s : Bytes) : Bytes := s.map lowerLetter

/-- `cache.Set` on a possibly unusable cache (cache/cachestring.go:8-14). -/
def setIn (c : Local) (k v : Bytes) : GoRes HErr Unit × Local :=
  match c with
  | none => (.panic, none)
  | some c =>
    match c.set k v with
    | (c', .ok _) => (.ok (), some c')
    | (c', .err e) => (.err (.cache e), some c')
    | (c', .panic) => (.panic, some c')

/-- `HandleMessage` (cache/message.go:9-42).  The message `none` is a nil interface.  `RPush`
(cache/cachelist.go:25-27) panics. -/
def handle (c : Local) : Option Msg → GoRes HErr Unit × Local
  | some (.array []) => (.err .empty, c)
  | some (.array (m :: args)) =>
    if lower (str m) = b!"set" then
      match args with
      | k :: v :: _ => setIn c (str k) (str v)
      | _ => (.panic, c)
    else if lower (str m) = b!"rpush" then
      if args = [] then (.err .rpushArgs, c) else (.panic, c)
    else if lower (str m) = b!"hmset" then
      if args = [] then (.err .hmsetArgs, c) else (.ok (), c)
    else (.err (.unknown (ser (.array (m :: args)))), c)
  | _ => (.err .notArray, c)

/-- `strings.HasPrefix(strings.ToLower(message.String()), "ping")` (redis/replication.go:85).  The
two bytes C4 B0 are the letter `İ`, whose lower case is `i` in Go; no other letter outside ASCII has
a lower case in "ping". -/
def isPing (m : Msg) : Bool :=
  match str m with
  | p :: i :: n :: g :: rest =>
    lowerLetter p = 112 &&
      ((lowerLetter i = 105 && lowerLetter n = 110 && lowerLetter g = 103) ||
       (i = 196 && n = 176 && lowerLetter g = 110 &&
        (match rest with
         | x :: _ => lowerLetter x = 103
         | [] => false)))
  | _ => false

/-- What is outside: whether the calls that need the network or the file system succeed, and the
bytes the master sends. -/
structure World where
  dial : Bool
  pingSent : Bool
  syncSent : Bool
  create : Bool
  reopen : Bool
  input : Rd

/-- The errors of `SyncWithRedis`, by cause. -/
inductive SErr where
  | noFile
  | noAddr
  | dial
  | send
  | create
  | badPong (reply : Bytes)
  | read (e : RErr)
deriving DecidableEq

/-- `(*Replication).ping` (redis/replication.go:120-132). -/
def ping (w : World) (r : Rd) : GoRes SErr Unit × Rd :=
  if w.pingSent = false then (.err .send, r)
  else
    match readMessage r with
    | (.err e, r) => (.err (.read e), r)
    | (.panic, r) => (.panic, r)
    | (.ok m, r) => if str m = b!"PONG" then (.ok (), r) else (.err (.badPong (str m)), r)

/-- `(*Replication).sync` (redis/replication.go:134-155): result, content of the file, rest of the
input.  `ReadWithWriter` reports success for every kind of message. -/
def sync (w : World) (r : Rd) : GoRes SErr Unit × Option Bytes × Rd :=
  if w.syncSent = false then (.err .send, none, r)
  else if w.create = false then (.err .create, none, r)
  else
    match readWithWriter r with
    | (.ok _, f, r) => (.ok (), some f, r)
    | (.err e, f, r) => (.err (.read e), some f, r)
    | (.panic, f, r) => (.panic, some f, r)

/-- `(*Replication).SyncWithRedis` (redis/replication.go:44-74): result, content of the snapshot
file if it was opened, rest of the input. -/
def syncWithRedis (w : World) (addr rdbFile : Bytes) : GoRes SErr Unit × Option Bytes × Rd :=
  if rdbFile = [] then (.err .noFile, none, w.input)
  else if addr = [] then (.err .noAddr, none, w.input)
  else if w.dial = false then (.err .dial, none, w.input)
  else
    match ping w w.input with
    | (.ok (), r) => sync w r
    | (.err e, r) => (.err e, none, r)
    | (.panic, r) => (.panic, none, r)

/-- `Option` (xxcache.go:15-20), without the log level. -/
structure Opts where
  addr : Bytes
  rdbFile : Bytes
  database : Int64

/-- `prepareOption` (xxcache.go:82-90). -/
def prepare (o : Opts) : Opts :=
  { o with addr := if o.addr = [] then b!"127.0.0.1:6379" else o.addr
           rdbFile := if o.rdbFile = [] then b!"temp.rdb" else o.rdbFile }

/-- The errors of `New`. -/
inductive NErr where
  | sync (e : SErr)
  | open_
  | load (e : RErr)
deriving DecidableEq

/-- `Client` (xxcache.go:22-26), without the client of the master. -/
structure Client where
  option : Opts
  cache : Local

/-- A message in `repl.Messages` (`ReplicationMessage`). -/
abbrev Tagged := Int64 × Msg

/-- What `Load` puts into the channel: `NewBaseCommand(…).Serialize()` with the database. -/
def tagged (s : Rdb.Sent) : Tagged := (s.1, command s.2)

/-- The sequential part of `New` (xxcache.go:31-61): the result, the client, the messages of `Load`,
and what the master sends behind the snapshot.  The goroutines are in the machine below; that
sending may block there is not seen here. -/
def new (ord : Rdb.MapOrd) (w : World) (o : Opts) : GoRes NErr Unit × Client × List Tagged × Rd :=
  let client : Client := ⟨o, none⟩
  let o := prepare o
  match syncWithRedis w o.addr o.rdbFile with
  | (.err e, _, r) => (.err (.sync e), client, [], r)
  | (.panic, _, r) => (.panic, client, [], r)
  | (.ok (), f, r) =>
    if w.reopen = false then (.err .open_, client, [], r)
    else
      match Rdb.load ord ⟨0, 0, [], 0, []⟩ ⟨[], [f.getD []]⟩ with
      | (.ok (), s) => (.ok (), client, s.out.map tagged, r)
      | (.err e, s) => (.err (.load e), client, s.out.map tagged, r)
      | (.panic, s) => (.panic, client, s.out.map tagged, r)

/-- `(*Client).Get` (command.go:77-79) at clock reading `now`. -/
def Client.get (c : Client) (now : Int) (k : Bytes) : Res Bytes :=
  match c.cache with
  | none => .panic
  | some c => (c.get now k).2

/-! ## The goroutines -/

/-- Where the goroutine of `handleReplication` is. -/
inductive HPC where
  | loop      -- at the `select`
  | report    -- at `repl.Err <- err`
deriving DecidableEq, Repr

/-- Where `New` is: in `Load`, with the messages it will still send and whether it will succeed;
or it returned. -/
inductive MPC where
  | loading (rest : List Tagged) (good : Bool)
  | returned
  | failed

/-- Where `WaitForMessage` is.  The list is what `Recv` will still return before it fails. -/
inductive RPC where
  | off (stream : List Msg)
  | reading (rest : List Msg)
  | closing
  | done

/-- Where `Ack` is. -/
inductive APC where
  | off
  | idle
  | report
deriving DecidableEq, Repr

/-- The goroutines, the two channels and the cache.  `taken` (ghost) is what the handler has
received from the channel, in order. -/
structure State where
  msgs : List Tagged
  closed : Bool
  errs : Nat
  hand : HPC
  main : MPC
  recv : RPC
  ack : APC
  cache : Local
  crashed : Bool
  taken : List Tagged

/-- After `SyncWithRedis` and `go handleReplication`. -/
def State.init (c : Local) (snap : List Tagged) (good : Bool) (stream : List Msg) : State :=
  ⟨[], false, 0, .loop, .loading snap good, .off stream, .off, c, false, []⟩

/-- The capacities of the two channels and the database of the client. -/
structure Conf where
  cap : Nat
  capE : Nat
  db : Int64

/-- `SyncWithRedis` (redis/replication.go:39, 49-50). -/
def conf (db : Int64) : Conf := ⟨10000, 1, db⟩

/-- One step.  After a panic of a goroutine the process is gone. -/
inductive Step (cf : Conf) : State → State → Prop
  /-- xxcache.go:66-69 -/
  | skip {s : State} {d m q} : s.crashed = false → s.hand = .loop → s.msgs = (d, m) :: q → d ≠ cf.db →
      Step cf s { s with msgs := q, taken := s.taken ++ [(d, m)] }
  /-- xxcache.go:71, no error -/
  | handled {s : State} {d m q c} : s.crashed = false → s.hand = .loop → s.msgs = (d, m) :: q → d = cf.db →
      handle s.cache (some m) = (.ok (), c) →
      Step cf s { s with msgs := q, taken := s.taken ++ [(d, m)], cache := c }
  /-- xxcache.go:71, an error -/
  | failed {s : State} {d m q c e} : s.crashed = false → s.hand = .loop → s.msgs = (d, m) :: q → d = cf.db →
      handle s.cache (some m) = (.err e, c) →
      Step cf s { s with msgs := q, taken := s.taken ++ [(d, m)], cache := c, hand := .report }
  /-- xxcache.go:71, a panic -/
  | crash {s : State} {d m q c} : s.crashed = false → s.hand = .loop → s.msgs = (d, m) :: q → d = cf.db →
      handle s.cache (some m) = (.panic, c) →
      Step cf s { s with msgs := q, taken := s.taken ++ [(d, m)], cache := c, crashed := true }
  /-- xxcache.go:66-69, the channel is closed: a zero message -/
  | zeroSkip {s : State} : s.crashed = false → s.hand = .loop → s.msgs = [] → s.closed = true → (0 : Int64) ≠ cf.db → Step cf s s
  /-- xxcache.go:71, the same, with an error (a nil message is no array) -/
  | zeroFailed {s : State} {c e} : s.crashed = false → s.hand = .loop → s.msgs = [] → s.closed = true → (0 : Int64) = cf.db →
      handle s.cache none = (.err e, c) → Step cf s { s with cache := c, hand := .report }
  /-- xxcache.go:72; blocks while the channel is full -/
  | report {s : State} : s.crashed = false → s.hand = .report → s.errs < cf.capE →
      Step cf s { s with errs := s.errs + 1, hand := .loop }
  /-- xxcache.go:74-77 -/
  | drain {s : State} {n} : s.crashed = false → s.hand = .loop → s.errs = n + 1 → Step cf s { s with errs := n }
  /-- `Load` sends; blocks while the channel is full -/
  | load {s : State} {x rest good} : s.crashed = false → s.main = .loading (x :: rest) good → s.msgs.length < cf.cap →
      Step cf s { s with msgs := s.msgs ++ [x], main := .loading rest good }
  /-- xxcache.go:50-52, `Load` returned an error -/
  | loadFailed {s : State} : s.crashed = false → s.main = .loading [] false → Step cf s { s with main := .failed }
  /-- xxcache.go:54-60 -/
  | loaded {s : State} {stream} : s.crashed = false → s.main = .loading [] true → s.recv = .off stream →
      Step cf s { s with main := .returned, recv := .reading stream, ack := .idle }
  /-- redis/replication.go:85-88 -/
  | recvPing {s : State} {m rest} : s.crashed = false → s.recv = .reading (m :: rest) → isPing m = true →
      Step cf s { s with recv := .reading rest }
  /-- redis/replication.go:90-94; blocks while the channel is full -/
  | recvSend {s : State} {m rest} : s.crashed = false → s.recv = .reading (m :: rest) → isPing m = false → s.msgs.length < cf.cap →
      Step cf s { s with msgs := s.msgs ++ [(0, m)], recv := .reading rest }
  /-- redis/replication.go:78-80; blocks while the channel is full -/
  | recvErr {s : State} : s.crashed = false → s.recv = .reading [] → s.errs < cf.capE →
      Step cf s { s with errs := s.errs + 1, recv := .closing }
  /-- redis/replication.go:81-82 -/
  | close {s : State} : s.crashed = false → s.recv = .closing → Step cf s { s with closed := true, recv := .done }
  /-- redis/replication.go:114, an error -/
  | ackFailed {s : State} : s.crashed = false → s.ack = .idle → Step cf s { s with ack := .report }
  /-- redis/replication.go:115; blocks while the channel is full -/
  | ackReport {s : State} : s.crashed = false → s.ack = .report → s.errs < cf.capE →
      Step cf s { s with errs := s.errs + 1, ack := .idle }

/-- Any number of steps. -/
inductive Steps (cf : Conf) : State → State → Prop
  | refl {s} : Steps cf s s
  | tail {s t u} : Steps cf s t → Step cf t u → Steps cf s u

end Verif.Repl

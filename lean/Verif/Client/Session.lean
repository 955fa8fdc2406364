import Verif.Cache.Ref
import Verif.Resp.Props
import Verif.Client.Cmd
/-!
# Sessions: calls of a remote client against a server

The client half models `NewClient` (redis/redis.go:32-62), `(*Pool).create`, `Get`, `Put`, `ExecCommand`
(redis/pool.go:36-80, 99-109) and `SendAndWaitReply`, `ExecCommand` (redis/conn.go:49-70) as one goroutine
sees them.  The server half is a specification: it decodes requests by the protocol's own rules
(`specCommand`), keeps a login and a database number per connection and answers as documented
(`Ref.exec`).
-/
namespace Verif.Client
open Verif.Resp

/-! ## The server -/

/-- What the server remembers of a connection. -/
structure Login where
  db : Int
  authed : Bool
deriving DecidableEq

/-- A server: its password, if it asks for one, and its databases. -/
structure Server where
  password : Option Bytes
  dbs : Int → Ref.Store

/-- Arguments taken two by two. -/
def pairs : List Bytes → Option (List (Bytes × Bytes))
  | [] => some []
  | [_] => none
  | k :: v :: l => (pairs l).map ((k, v) :: ·)

/-- The call a command line stands for, by the name in lower case and the number of arguments; the
commands of redis/redis.go only. -/
def callNamed (name : Bytes) (a : List Bytes) : Option Call :=
  if name = b!"set" then match a with | [k, v] => some (.set k v) | _ => none
  else if name = b!"setnx" then match a with | [k, v] => some (.setNX k v) | _ => none
  else if name = b!"get" then match a with | [k] => some (.get k) | _ => none
  else if name = b!"getset" then match a with | [k, v] => some (.getSet k v) | _ => none
  else if name = b!"strlen" then match a with | [k] => some (.strLen k) | _ => none
  else if name = b!"append" then match a with | [k, v] => some (.append k v) | _ => none
  else if name = b!"setrange" then match a with | [k, p, v] => (atoi p).map (.setRange k · v) | _ => none
  else if name = b!"getrange" then match a with
    | [k, p, q] => (atoi p).bind fun p => (atoi q).map fun q => .getRange k p q
    | _ => none
  else if name = b!"incr" then match a with | [k] => some (.incr k) | _ => none
  else if name = b!"incrby" then match a with | [k, n] => (atoi n).map (.incrBy k) | _ => none
  else if name = b!"incrbyfloat" then match a with | [k, x] => (parseFloat x).map (.incrByFloat k) | _ => none
  else if name = b!"decr" then match a with | [k] => some (.decr k) | _ => none
  else if name = b!"decrby" then match a with | [k, n] => (atoi n).map (.decrBy k) | _ => none
  else if name = b!"mset" then match pairs a with | some (p :: l) => some (.mSet (p :: l)) | _ => none
  else if name = b!"msetnx" then match pairs a with | some (p :: l) => some (.mSetNX (p :: l)) | _ => none
  else if name = b!"mget" then match a with | k :: l => some (.mGet (k :: l)) | _ => none
  else none

/-- Texts of error replies. -/
def errText : Err → Bytes
  | .wrongType => b!"WRONGTYPE"
  | .offsetOutOfRange => b!"ERR offset is out of range"
  | .hashNotFloat => b!"ERR hash value is not a number"
  | .keyNil => b!"ERR"

/-- A slot of an array reply. -/
def slotMsg : Res Bytes → Msg
  | .ok s => .bulk s
  | _ => .nil

/-- How an answer is written as a reply. -/
def replyTo (op : Call) : Verif.Out → Msg
  | .str (.ok s) => match op with
    | .set .. | .setEX .. | .pSetEX .. | .mSet .. => .simple s
    | _ => .bulk s
  | .str (.err .keyNil) => .nil
  | .str (.err e) => .error (errText e)
  | .int (.ok n) => .int (Int64.ofInt n)
  | .int (.err e) => .error (errText e)
  | .float (.ok x) => .bulk (formatFloat x)
  | .float (.err e) => .error (errText e)
  | .slots (.ok l) => .array (l.map slotMsg)
  | _ => .error b!"ERR"

/-- One command line (16 databases). -/
def serve (s : Server) (l : Login) (t : Int) : List Bytes → Server × Login × Msg
  | [] => (s, l, .error b!"ERR empty command")
  | name :: a =>
    let n := name.map lowerLetter
    if n = b!"auth" then
      match s.password, a with
      | some p, [q] => if p = q then (s, { l with authed := true }, .simple b!"OK") else (s, l, .error b!"ERR invalid password")
      | _, _ => (s, l, .error b!"ERR Client sent AUTH, but no password is set")
    else if s.password.isSome ∧ l.authed = false then (s, l, .error b!"NOAUTH Authentication required.")
    else if n = b!"select" then
      match a with
      | [i] => match atoi i with
        | some d => if 0 ≤ d.toInt ∧ d.toInt < 16 then (s, { l with db := d.toInt }, .simple b!"OK")
          else (s, l, .error b!"ERR DB index is out of range")
        | none => (s, l, .error b!"ERR invalid DB index")
      | _ => (s, l, .error b!"ERR wrong number of arguments")
    else match callNamed n a with
      | none => (s, l, .error b!"ERR unknown command or wrong arguments")
      | some op =>
        let r := Ref.exec (s.dbs l.db) t op
        ({ s with dbs := fun d => if d = l.db then r.1 else s.dbs d }, l, replyTo op r.2)

/-! ## The client -/

/-- The fields of `redis.Option` (redis/redis.go:21-30) that `NewClient` passes on to connections. -/
structure Opt where
  password : Bytes
  database : Int64

/-- The open handlers `NewClient` installs, as the commands they send (redis/redis.go:38-59). -/
def openCmds (o : Opt) : List (List Bytes) :=
  (if o.password ≠ [] then [[b!"auth", o.password]] else []) ++
  (if 0 < o.database.toInt then [[b!"select", itoa o.database]] else [])

/-- A connection: the server's record of it, the client's reader, and whether it is still up. -/
structure Conn where
  login : Login
  rd : Rd
  up : Bool

/-- How the network cuts the bytes of a reply. -/
abbrev Cut := Bytes → List Bytes

/-- `SendAndWaitReply` (redis/conn.go:49-55): the request goes out, the server runs it and its reply
is delivered in pieces behind whatever the connection still held, then one message is read.  On a
connection that is down only what was already delivered can be read (a write that fails gives an
error as well).  Reading beyond what was delivered, which blocks for ever since no deadline is set,
shows as the error `eof`. -/
def exchange (s : Server) (c : Conn) (t : Int) (cmd : List Bytes) (cut : Cut) : Server × Conn × RRes Msg :=
  if c.up then
    match specCommand (ser (command cmd)) with
    | some (line, _) =>
      let r := serve s c.login t line
      let x := readMessage ⟨c.rd.buf, c.rd.net ++ cut (ser r.2.2)⟩
      (r.1, ⟨r.2.1, x.2, true⟩, x.1)
    | none => (s, c, .err .eof)
  else
    let x := readMessage c.rd
    (s, { c with rd := x.2 }, x.1)

/-- The loop of `create` over the open handlers (redis/pool.go:67-71): each is a `StringCommand`, and the
first error ends it.  The result says whether all succeeded (a panic counts as a failure). -/
def openConn (t : Int) (cut : Cut) : List (List Bytes) → Server → Conn → Server × Conn × Bool
  | [], s, c => (s, c, true)
  | cmd :: rest, s, c =>
    let x := exchange s c t cmd cut
    match exec [] parseString x.2.2 with
    | some ⟨_, none⟩ => openConn t cut rest x.1 x.2.1
    | _ => (x.1, x.2.1, false)

/-- A connection just accepted by the server. -/
def Conn.fresh : Conn := ⟨⟨0, false⟩, ⟨[], []⟩, true⟩

/-- The pool as one goroutine sees it between calls: the idle connections, the number of
connections counted, whether the mutex is held. -/
structure Cl where
  chan : List Conn
  size : Nat
  lock : Bool

/-- Right after `NewClient`. -/
def Cl.new : Cl := ⟨[], 0, false⟩

/-- What a method call comes to: it never returns, it returns the error of a failed dial or open
handler, or it returns what `ExecCommand` left in the command (`none`: it panicked). -/
inductive Answer where
  | hang
  | noConn
  | done (r : Option (Out Val))
deriving DecidableEq

/-- A call on a connection in hand, and the deferred `Put` (redis/pool.go:99-109). -/
def callOn (bad : Bytes → F64) (s : Server) (cl : Cl) (c : Conn) (t : Int) (q : Req) (cut : Cut) : Server × Cl × Answer :=
  let x := exchange s c t (args q) cut
  (x.1, { cl with chan := cl.chan ++ [x.2.1] }, .done (result bad q x.2.2))

/-- `process` (redis/redis.go:64-66): `Get` (redis/pool.go:36-60), the exchange, `Put`.  `reach` says
whether a dial would succeed. -/
def callRemote (bad : Bytes → F64) (o : Opt) (cap : Nat) (s : Server) (cl : Cl) (t : Int) (q : Req) (reach : Bool)
    (cut : Cut) : Server × Cl × Answer :=
  match cl.chan with
  | c :: cs => callOn bad s { cl with chan := cs } c t q cut
  | [] =>
    if cl.lock then (s, cl, .hang)
    else if cl.size < cap then
      if reach then
        match openConn t cut (openCmds o) s Conn.fresh with
        | (s, c, true) => callOn bad s { cl with size := cl.size + 1 } c t q cut
        | (s, _, false) => (s, { cl with lock := true }, .noConn)
      else (s, { cl with lock := true }, .noConn)
    else (s, cl, .hang)

/-- What happens to a client: its goroutine makes a call, or the server (or the network) closes the
connections of the pool. -/
inductive Ev where
  | call (t : Int) (q : Req) (reach : Bool) (cut : Cut)
  | drop

/-- One event. -/
def stepRemote (bad : Bytes → F64) (o : Opt) (cap : Nat) (s : Server) (cl : Cl) : Ev → Server × Cl
  | .drop => (s, { cl with chan := cl.chan.map fun c => { c with up := false } })
  | .call t q reach cut => let x := callRemote bad o cap s cl t q reach cut; (x.1, x.2.1)

/-- Server and pool after a history. -/
def runRemote (bad : Bytes → F64) (o : Opt) (cap : Nat) : Server × Cl → List Ev → Server × Cl
  | x, [] => x
  | x, e :: h => runRemote bad o cap (stepRemote bad o cap x.1 x.2 e) h

/-- Answers of the calls of a history. -/
def answers (bad : Bytes → F64) (o : Opt) (cap : Nat) : Server → Cl → List Ev → List Answer
  | _, _, [] => []
  | s, cl, .drop :: h => answers bad o cap s (stepRemote bad o cap s cl .drop).2 h
  | s, cl, .call t q reach cut :: h =>
    let x := callRemote bad o cap s cl t q reach cut
    x.2.2 :: answers bad o cap x.1 x.2.1 h

/-- Calls on several open connections, as several goroutines make them, in the order in which the
server runs them; a goroutine has a connection to itself (C53). -/
def answersOn (bad : Bytes → F64) : Server → (Nat → Conn) → List (Nat × Int × Req × Cut) → List (Option (Out Val))
  | _, _, [] => []
  | s, cs, (i, t, q, cut) :: h =>
    let x := exchange s (cs i) t (args q) cut
    result bad q x.2.2 :: answersOn bad x.1 (fun j => if j = i then x.2.1 else cs j) h

end Verif.Client

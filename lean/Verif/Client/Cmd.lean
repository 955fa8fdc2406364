import Verif.FloatText
import Verif.Resp.Model
/-!
# Remote commands: redis/command.go, redis/redis.go and `(*Conn).ExecCommand`
-/
namespace Verif.Client
open Verif.Resp

/-- `cmd.Err`: what the connection reported, the text of an error or nil reply, or the command's
own complaint about the reply. -/
inductive CErr where
  | conn (e : RErr)
  | reply (text : Bytes)
deriving DecidableEq, Repr

/-- Elements of `InterfaceArrayCommand.Val`: a string, or an `error` value (redis/command.go:131-135). -/
inductive Item where
  | text (s : Bytes)
  | error (s : Bytes)
deriving DecidableEq, Repr

/-- `(Val, Err)` of a command after it ran. -/
structure Out (α : Type) where
  val : α
  err : Option CErr
deriving DecidableEq

/-- `(*Conn).ExecCommand` (redis/conn.go:57-70), with the result of `SendAndWaitReply` given; `zero` is
the untouched command and `parse` its `Parse` method.  A panic while reading is not caught. -/
def exec {α : Type} (zero : α) (parse : Msg → Out α) (reply : RRes Msg) : Option (Out α) :=
  match reply with
  | .panic => none
  | .err e => some ⟨zero, some (.conn e)⟩
  | .ok (.error s) => some ⟨zero, some (.reply (str (.error s)))⟩
  | .ok .nil => some ⟨zero, some (.reply (str .nil))⟩
  | .ok m => some (parse m)

/-- `(*StringCommand).Parse` (redis/command.go:43-45). -/
def parseString (m : Msg) : Out Bytes := ⟨str m, none⟩

/-- `(*FloatCommand).Parse` (redis/command.go:56-60): the value is stored only if parsing failed;
`bad` gives the value `ParseFloat` returns beside its error (0, or an infinity if out of range). -/
def parseFloatReply (bad : Bytes → F64) (m : Msg) : Out F64 :=
  match parseFloat (str m) with
  | some _ => ⟨F64.zero, none⟩
  | none => ⟨bad (str m), none⟩

/-- `(*IntCommand).Parse` (redis/command.go:71-75). -/
def parseInt (m : Msg) : Out Int64 :=
  match m with
  | .int n => ⟨n, none⟩
  | _ => ⟨0, none⟩

/-- `(*OKCommand).Parse` (redis/command.go:107-116). -/
def parseOK (m : Msg) : Out Bytes :=
  match m with
  | .simple s => if s ≠ b!"OK" then ⟨[], some (.reply s)⟩ else ⟨[], none⟩
  | _ => ⟨[], some (.reply [])⟩

/-- `(*InterfaceArrayCommand).Parse` (redis/command.go:128-139). -/
def parseArray (m : Msg) : Out (List Item) :=
  match m with
  | .array ms => ⟨ms.map fun | .nil => .error (str .nil) | .error s => .error s | m => .text (str m), none⟩
  | _ => ⟨[], none⟩

/-- A Go map as an assoc list, last write wins. -/
def put (kv : List (Bytes × Bytes)) (k v : Bytes) : List (Bytes × Bytes) :=
  (k, v) :: kv.filter (fun p => p.1 ≠ k)

/-- The loop of redis/command.go:95-98. -/
def pairUp : List Msg → List (Bytes × Bytes) → List (Bytes × Bytes)
  | a :: b :: ms, kv => pairUp ms (put kv (str a) (str b))
  | _, kv => kv

/-- `(*StringStringCommand).Parse` (redis/command.go:83-99). -/
def parsePairs (m : Msg) : Out (List (Bytes × Bytes)) :=
  match m with
  | .array ms => if ms.length % 2 ≠ 0 then ⟨[], some (.reply b!"failed to parse response")⟩ else ⟨pairUp ms [], none⟩
  | _ => ⟨[], some (.reply b!"failed to parse response")⟩

/-- The methods of `*Redis` (redis/redis.go:64-250) with their arguments.  The map of `MSet` and
`MSetNX` is given as the list of its entries in the order the loop visits them. -/
inductive Req where
  | set (k v : Bytes)
  | select (index : Int64)
  | setNX (k v : Bytes)
  | setEX (k v : Bytes) (expires : UInt64)
  | pSetEX (k v : Bytes) (expires : UInt64)
  | get (k : Bytes)
  | getSet (k v : Bytes)
  | strLen (k : Bytes)
  | append (k v : Bytes)
  | setRange (k : Bytes) (offset : Int64) (v : Bytes)
  | getRange (k : Bytes) (start stop : Int64)
  | incr (k : Bytes)
  | incrBy (k : Bytes) (n : Int64)
  | incrByFloat (k : Bytes) (x : F64)
  | decr (k : Bytes)
  | decrBy (k : Bytes) (n : Int64)
  | mSet (kv : List (Bytes × Bytes))
  | mSetNX (kv : List (Bytes × Bytes))
  | mGet (ks : List Bytes)

/-- Entries as an argument list. -/
def entries (kv : List (Bytes × Bytes)) : List Bytes := kv.flatMap fun p => [p.1, p.2]

/-- `Args` of the command each method builds (redis/redis.go:64-250). -/
def args : Req → List Bytes
  | .set k v => [b!"set", k, v]
  | .select n => [b!"select", itoa n]
  | .setNX k v => [b!"SetNX", k, v]
  | .setEX k v n => [b!"SetNX", k, v, natText n.toNat]
  | .pSetEX k v n => [b!"SetNX", k, v, natText n.toNat]
  | .get k => [b!"get", k]
  | .getSet k v => [b!"GetSet", k, v]
  | .strLen k => [b!"StrLen", k]
  | .append k v => [b!"Append", k, v]
  | .setRange k n v => [b!"SetRange", k, itoa n, v]
  | .getRange k a b => [b!"GetRange", k, itoa a, itoa b]
  | .incr k => [b!"Incr", k]
  | .incrBy k n => [b!"Incr", k, itoa n]
  | .incrByFloat k x => [b!"IncrByFloat", k, formatFloat x]
  | .decr k => [b!"Decr", k]
  | .decrBy k n => [b!"DecrBy", k, itoa n]
  | .mSet kv => b!"MSet" :: entries kv
  | .mSetNX kv => b!"MSetNX" :: entries kv
  | .mGet ks => b!"MGet" :: ks

/-- The bytes a method puts on the wire: `cmd.Serialize().Serialize()` (redis/command.go:24-26,
redis/conn.go:39-47). -/
def sent (q : Req) : Bytes := ser (command (args q))

/-- Results of the methods. -/
inductive Val where
  | text (s : Bytes)
  | int (n : Int64)
  | float (x : F64)
  | list (l : List Item)
deriving DecidableEq

/-- Result of a method given the reply (redis/redis.go:64-250: which command type each method uses). -/
def result (bad : Bytes → F64) (q : Req) (reply : RRes Msg) : Option (Out Val) :=
  match q with
  | .set .. | .select .. | .setNX .. | .setEX .. | .pSetEX .. | .mSet .. =>
    (exec [] parseOK reply).map fun o => ⟨.text o.val, o.err⟩
  | .get .. | .getSet .. | .getRange .. =>
    (exec [] parseString reply).map fun o => ⟨.text o.val, o.err⟩
  | .strLen .. | .append .. | .setRange .. | .incr .. | .incrBy .. | .decr .. | .decrBy .. | .mSetNX .. =>
    (exec 0 parseInt reply).map fun o => ⟨.int o.val, o.err⟩
  | .incrByFloat .. => (exec F64.zero (parseFloatReply bad) reply).map fun o => ⟨.float o.val, o.err⟩
  | .mGet .. => (exec [] parseArray reply).map fun o => ⟨.list o.val, o.err⟩

end Verif.Client

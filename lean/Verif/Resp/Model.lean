import Verif.Strconv
import Verif.Resp.Bufio
/-!
# Messages of the Redis protocol: redis/protocol.go and the reading half of redis/conn.go
-/
namespace Verif.Resp

/-- `Message` (redis/protocol.go:25-154).  `*bulkStringMessage` and `bulkStringMessage` are not
distinguished, nor are a nil and an empty `ArrayMessage`. -/
inductive Msg where
  | nil
  | array (ms : List Msg)
  | bulk (s : Bytes)
  | error (s : Bytes)
  | int (n : Int64)
  | simple (s : Bytes)

/-- `MessageEOF` (redis/protocol.go:84). -/
def crlf : Bytes := [13, 10]

mutual
/-- `Message.Serialize` (redis/protocol.go:49, 70-78, 95-103, 121-123, 135-137, 148-150). -/
def ser : Msg → Bytes
  | .nil => b!"$-1" ++ crlf
  | .array ms => b!"*" ++ natText ms.length ++ crlf ++ serAll ms
  | .bulk s => b!"$" ++ natText s.length ++ crlf ++ (s ++ crlf)
  | .error s => b!"-" ++ s ++ crlf
  | .int n => b!":" ++ itoa n ++ crlf
  | .simple s => b!"+" ++ s ++ crlf
/-- The loop of redis/protocol.go:73-75. -/
def serAll : List Msg → Bytes
  | [] => []
  | m :: ms => ser m ++ serAll ms
end

mutual
/-- `Message.String` (redis/protocol.go:45, 60-68, 91-93, 118-120, 131-133, 144-146). -/
def str : Msg → Bytes
  | .nil => b!"Nil"
  | .array ms => strAll ms
  | .bulk s => s
  | .error s => s
  | .int n => itoa n
  | .simple s => s
/-- `strings.Join(…, " ")` of redis/protocol.go:61-67. -/
def strAll : List Msg → Bytes
  | [] => []
  | [m] => str m
  | m :: ms => str m ++ b!" " ++ strAll ms
end

/-- Sequencing of `(value, error)` results that thread the reader. -/
def andThen {α β : Type} (x : RRes α × Rd) (f : α → Rd → RRes β × Rd) : RRes β × Rd :=
  match x with
  | (.ok a, r) => f a r
  | (.err e, r) => (.err e, r)
  | (.panic, r) => (.panic, r)

/-- `ReadLine` followed by `strconv.Atoi` (redis/conn.go:185-193, 227-233, 237-244). -/
def readInt (r : Rd) : RRes Int64 × Rd :=
  andThen (readLine r) fun l r =>
    match atoi l with
    | some n => (.ok n, r)
    | none => (.err .syntaxErr, r)

/-- redis/conn.go:199-211: one `Read` into a zeroed slice of the announced length, whatever number
of bytes it returned, then the rest of a line thrown away. -/
def readBulk (n : Int64) (r : Rd) : RRes Msg × Rd :=
  if n.toInt < 0 ∨ maxAlloc < n.toInt then (.panic, r)
  else andThen (read n.toInt.toNat r) fun d r =>
    andThen (readLine r) fun _ r =>
      (.ok (.bulk (d ++ List.replicate (n.toInt.toNat - d.length) 0)), r)

mutual
/-- `(Conn).readMessage` (redis/conn.go:176-259).  The first argument bounds the recursion; the
bound of `readMessage` is never hit (`readMsg_not_stuck`).  Go's own stack limit is not modelled. -/
def readMsg : Nat → Rd → RRes Msg × Rd
  | 0, r => (.err .stuck, r)
  | f + 1, r =>
    andThen (readByte r) fun p r =>
      if p = 36 then
        andThen (readInt r) fun n r =>
          if n.toInt = -1 then (.ok .nil, r) else readBulk n r
      else if p = 43 then
        andThen (readLine r) fun l r => (.ok (.simple l), r)
      else if p = 45 then
        andThen (readLine r) fun l r => (.ok (.error l), r)
      else if p = 58 then
        andThen (readInt r) fun n r => (.ok (.int n), r)
      else if p = 42 then
        andThen (readInt r) fun n r =>
          andThen (readMsgs f n.toInt.toNat r) fun ms r => (.ok (.array ms), r)
      else (.err .unknownProtocol, r)
/-- The loop of redis/conn.go:247-253. -/
def readMsgs : Nat → Nat → Rd → RRes (List Msg) × Rd
  | 0, _, r => (.err .stuck, r)
  | _ + 1, 0, r => (.ok [], r)
  | f + 1, k + 1, r =>
    andThen (readMsg f r) fun m r =>
      andThen (readMsgs f k r) fun ms r => (.ok (m :: ms), r)
end

/-- `Recv` / `readMessage` with enough fuel for every stream. -/
def readMessage (r : Rd) : RRes Msg × Rd := readMsg (2 * r.flat.length + 1) r

/-- `n` successive `Recv` calls, as a pipelining caller makes them. -/
def recvN : Nat → Rd → RRes (List Msg) × Rd
  | 0, r => (.ok [], r)
  | n + 1, r => andThen (readMessage r) fun m r => andThen (recvN n r) fun ms r => (.ok (m :: ms), r)

/-- `ConvertToMessage` (redis/redis.go:9-15). -/
def command (args : List Bytes) : Msg := .array (args.map .bulk)

/-- Copy loop of redis/conn.go:130-138; the second component is what reached the writer. -/
def copyN : Nat → Rd → RRes Unit × Bytes × Rd
  | 0, r => (.ok (), [], r)
  | n + 1, r =>
    match readByte r with
    | (.ok b, r) =>
      match copyN n r with
      | (x, w, r) => (x, b :: w, r)
    | (.err e, r) => (.err e, [], r)
    | (.panic, r) => (.panic, [], r)

/-- The `Protocol` result of `ReadWithWriter` and its number. -/
abbrev RWW := UInt8 × Int

/-- `ReadWithWriter` (redis/conn.go:105-174): result, bytes written to the writer (flushed by the
deferred call), reader.  The writer itself never fails (for one that does, see `Resp/Writer`). -/
def readWithWriter (r : Rd) : RRes RWW × Bytes × Rd :=
  match readByte r with
  | (.err e, r) => (.err e, [], r)
  | (.panic, r) => (.panic, [], r)
  | (.ok p, r) =>
    if p = 36 then
      match readInt r with
      | (.err e, r) => (.err e, [], r)
      | (.panic, r) => (.panic, [], r)
      | (.ok n, r) =>
        match copyN n.toInt.toNat r with
        | (.ok (), w, r) => (.ok (p, n.toInt), w, r)
        | (.err e, w, r) => (.err e, w, r)
        | (.panic, w, r) => (.panic, w, r)
    else if p = 43 ∨ p = 45 ∨ p = 58 then
      match readLine r with
      | (.ok l, r) => (.ok (p, l.length), l, r)
      | (.err e, r) => (.err e, [], r)
      | (.panic, r) => (.panic, [], r)
    else if p = 42 then
      match readInt r with
      | (.ok n, r) => (.ok (p, n.toInt), [], r)
      | (.err e, r) => (.err e, [], r)
      | (.panic, r) => (.panic, [], r)
    else (.err .unknownProtocol, [], r)

/-! ## Equality of messages is decidable (for the witnesses) -/

mutual
def Msg.beq : Msg → Msg → Bool
  | .nil, .nil => true
  | .array a, .array b => Msg.beqAll a b
  | .bulk a, .bulk b => a == b
  | .error a, .error b => a == b
  | .int a, .int b => a == b
  | .simple a, .simple b => a == b
  | _, _ => false
def Msg.beqAll : List Msg → List Msg → Bool
  | [], [] => true
  | a :: as, b :: bs => Msg.beq a b && Msg.beqAll as bs
  | _, _ => false
end

mutual
theorem Msg.beq_iff : ∀ a b : Msg, Msg.beq a b = true ↔ a = b
  | .nil, b => by cases b <;> simp [Msg.beq]
  | .array a, b => by cases b <;> simp [Msg.beq, Msg.beqAll_iff a]
  | .bulk a, b => by cases b <;> simp [Msg.beq]
  | .error a, b => by cases b <;> simp [Msg.beq]
  | .int a, b => by cases b <;> simp [Msg.beq]
  | .simple a, b => by cases b <;> simp [Msg.beq]
theorem Msg.beqAll_iff : ∀ a b : List Msg, Msg.beqAll a b = true ↔ a = b
  | [], b => by cases b <;> simp [Msg.beqAll]
  | a :: as, b => by cases b <;> simp [Msg.beqAll, Msg.beq_iff a, Msg.beqAll_iff as]
end

instance : DecidableEq Msg := fun a b => decidable_of_iff _ (Msg.beq_iff a b)

end Verif.Resp

import Verif.Resp.Model
/-!
# What is left of redis/protocol.go and redis/conn.go: the kind of a message, and `readBulkString`
-/
namespace Verif.Resp

/-- `Message.Protocol` (redis/protocol.go:53-55, 80-82, 105-107, 124-126, 138-140, 152-154). -/
def kind : Msg → UInt8
  | .nil => 36
  | .array _ => 42
  | .bulk _ => 36
  | .error _ => 45
  | .int _ => 58
  | .simple _ => 43

/-- `(Conn).readProtocol` (redis/conn.go:77-81).  Beside an error the byte is 0. -/
def readProtocol (r : Rd) : RRes UInt8 × Rd := readByte r

/-- `(Conn).discardEof` (redis/conn.go:98-102), which nothing calls. -/
def discardEof (r : Rd) : RRes Unit × Rd := andThen (readLine r) fun _ r => (.ok (), r)

/-- `(Conn).readBulkString` (redis/conn.go:83-96), which nothing calls: one `Read` into a zeroed slice, its error and number of bytes
ignored, and what `ReadLine` returns thrown away.  The only way to fail is the panic of `make`. -/
def readBulkString (n : Int64) (r : Rd) : GoRes Empty Bytes × Rd :=
  if 0 < n.toInt then
    if maxAlloc < n.toInt then (.panic, r)
    else
      let x := read n.toInt.toNat r
      let d := match x.1 with
        | .ok d => d
        | _ => []
      (.ok (d ++ List.replicate (n.toInt.toNat - d.length) 0), (readLine x.2).2)
  else (.ok [], r)

end Verif.Resp

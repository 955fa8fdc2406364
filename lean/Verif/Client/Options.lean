import Verif.Client.Many
/-!
# The options of a remote client

`redis.Option` and `NewClient` (redis/redis.go:21-62) with all fields, and the three setters of a connection
(redis/conn.go:23-33).
-/
namespace Verif.Client
open Verif.Resp

/-- `redis.Option` (redis/redis.go:21-30).  A `time.Duration` is an `Int64`. -/
structure Options where
  addr : Bytes
  maxRetry : Int64
  readTimeout : Int64
  writeTimeout : Int64
  timeout : Int64
  poolSize : Int64
  database : Int64
  password : Bytes

/-- What `NewClient` (redis/redis.go:32-62) makes: address and capacity of the pool, and the open handlers as
the commands they send. -/
structure NewRedis where
  addr : Bytes
  capacity : Nat
  handlers : List (List Bytes)
deriving DecidableEq

/-- The fields of `Options` that sessions use. -/
def Options.opt (o : Options) : Opt := ⟨o.password, o.database⟩

/-- `NewClient`, redis/redis.go:32-62. -/
def newClient (o : Options) : NewRedis := ⟨o.addr, Pool.capacity o.poolSize.toInt, openCmds o.opt⟩

/-- A `*Conn` (redis/conn.go:14-21) as far as reading goes. -/
structure TimedConn where
  rd : Rd
  timeout : Int64
  readTimeout : Int64
  writeTimeout : Int64

/-- `WithTimeout`, redis/conn.go:23-25. -/
def TimedConn.withTimeout (c : TimedConn) (d : Int64) : TimedConn := { c with timeout := d }

/-- `WithReadTimeout`, redis/conn.go:27-29. -/
def TimedConn.withReadTimeout (c : TimedConn) (d : Int64) : TimedConn := { c with readTimeout := d }

/-- `WithWriteTimeout`, redis/conn.go:31-33. -/
def TimedConn.withWriteTimeout (c : TimedConn) (d : Int64) : TimedConn := { c with writeTimeout := d }

/-- `Recv`, redis/conn.go:35-37. -/
def TimedConn.recv (c : TimedConn) : RRes Msg × TimedConn :=
  let x := readMessage c.rd
  (x.1, { c with rd := x.2 })

end Verif.Client

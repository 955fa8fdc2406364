import Verif.Repl.PropsAgain
/-!
# C138: where New goes

`SyncWithRedis` and `New` once more, now with a record of what they ask of the network and the file system: which address is dialled, what is
written to it, which file is created and which is read.  Without the record this is `Repl.new` (`newT_new`).
-/
namespace Verif.Repl

open Verif.Resp

/-- A request to the operating system; it is recorded whether it succeeds or not. -/
inductive Op where
  /-- `Connect` (redis/conn.go:269-277) -/
  | dial (addr : Bytes)
  /-- `Send` (redis/conn.go:39-47) on the connection to `addr` -/
  | send (addr text : Bytes)
  /-- `os.OpenFile` with `O_CREATE|O_TRUNC|O_WRONLY` (redis/replication.go:144) -/
  | create (file : Bytes)
  /-- `os.OpenFile` with `O_RDONLY` (redis/replication.go:177) -/
  | open_ (file : Bytes)
deriving DecidableEq

/-- `(*Replication).ping` (redis/replication.go:120-132). -/
def pingT (w : World) (addr : Bytes) (r : Rd) : (GoRes SErr Unit × Rd) × List Op :=
  let o := [Op.send addr (ser (command [b!"ping"]))]
  if w.pingSent = false then ((.err .send, r), o)
  else
    match readMessage r with
    | (.err e, r) => ((.err (.read e), r), o)
    | (.panic, r) => ((.panic, r), o)
    | (.ok m, r) => if str m = b!"PONG" then ((.ok (), r), o) else ((.err (.badPong (str m)), r), o)

/-- `(*Replication).sync` (redis/replication.go:134-155). -/
def syncT (w : World) (addr file : Bytes) (r : Rd) : (GoRes SErr Unit × Option Bytes × Rd) × List Op :=
  let o := [Op.send addr (ser (command [b!"SYNC"]))]
  if w.syncSent = false then ((.err .send, none, r), o)
  else
    let o := o ++ [Op.create file]
    if w.create = false then ((.err .create, none, r), o)
    else
      match readWithWriter r with
      | (.ok _, f, r) => ((.ok (), some f, r), o)
      | (.err e, f, r) => ((.err (.read e), some f, r), o)
      | (.panic, f, r) => ((.panic, some f, r), o)

/-- `(*Replication).SyncWithRedis` (redis/replication.go:44-74). -/
def syncWithRedisT (w : World) (addr file : Bytes) : (GoRes SErr Unit × Option Bytes × Rd) × List Op :=
  if file = [] then ((.err .noFile, none, w.input), [])
  else if addr = [] then ((.err .noAddr, none, w.input), [])
  else if w.dial = false then ((.err .dial, none, w.input), [.dial addr])
  else
    match pingT w addr w.input with
    | ((.ok (), r), o) => let x := syncT w addr file r; (x.1, .dial addr :: o ++ x.2)
    | ((.err e, r), o) => ((.err e, none, r), .dial addr :: o)
    | ((.panic, r), o) => ((.panic, none, r), .dial addr :: o)

/-- The sequential part of `New` (xxcache.go:31-61) with the record, and the address of the pool of `client.redis` (xxcache.go:58,
redis/redis.go:35, redis/pool.go:27), which is there only if `New` came to its end. -/
def newT (ord : Rdb.MapOrd) (w : World) (o : Opts) : (GoRes NErr Unit × Client × List Tagged × Rd) × List Op × Option Bytes :=
  let client : Client := ⟨o, none⟩
  let o := prepare o
  match syncWithRedisT w o.addr o.rdbFile with
  | ((.err e, _, r), t) => ((.err (.sync e), client, [], r), t, none)
  | ((.panic, _, r), t) => ((.panic, client, [], r), t, none)
  | ((.ok (), f, r), t) =>
    let t := t ++ [Op.open_ o.rdbFile]
    if w.reopen = false then ((.err .open_, client, [], r), t, none)
    else
      match Rdb.load ord ⟨0, 0, [], 0, []⟩ ⟨[], [f.getD []]⟩ with
      | (.ok (), s) => ((.ok (), client, s.out.map tagged, r), t, some o.addr)
      | (.err e, s) => ((.err (.load e), client, s.out.map tagged, r), t, none)
      | (.panic, s) => ((.panic, client, s.out.map tagged, r), t, none)

end Verif.Repl

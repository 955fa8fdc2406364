import Verif.Repl.PropsEnd
/-!
# What calls of New leave open

Source: xxcache.go:31-61, redis/replication.go:44-74, 120-155, 171-185.  `New` opens a connection and two files and closes none of
them; no other function of the package closes them either.  Go's runtime closes a connection or a file when nothing refers to it any more
and its garbage is collected, at a moment of its own choosing.  The connection is referred to by the copy of `repl` that the handler has
(xxcache.go:47, 63), and the handler never returns; the files are referred to by local variables only.

Simplified: descriptors other than these (the program's own, those of the remote client, which connects when it is used) do not occur;
garbage is collected between calls, and perhaps between saving and loading.
-/
namespace Verif.Repl.Again
open Verif.Resp

/-- Open descriptors that something refers to, those that nothing refers to and that are not closed yet, and goroutines. -/
structure OS where
  held : Nat
  loose : Nat
  gor : Nat
deriving DecidableEq

/-- All open descriptors. -/
def OS.used (s : OS) : Nat := s.held + s.loose

/-- Something is opened: it needs a free descriptor. -/
def OS.open_ (lim : Nat) (s : OS) (ok : Bool) : Option OS := if ok = true ∧ s.used < lim then some { s with held := s.held + 1 } else none

/-- Nothing refers to one of the open descriptors any more. -/
def OS.drop (s : OS) : OS := { s with held := s.held - 1, loose := s.loose + 1 }

/-- `go f(…)` -/
def OS.go (s : OS) : OS := { s with gor := s.gor + 1 }

/-- Garbage is collected. -/
def OS.collect (s : OS) : OS := { s with loose := 0 }

/-- `(*Replication).sync` (redis/replication.go:134-155) with the descriptors: `fp` is a local variable. -/
def syncR (lim : Nat) (w : World) (r : Rd) (s : OS) : GoRes SErr Unit × Option Bytes × Rd × OS :=
  if w.syncSent = false then (.err .send, none, r, s)
  else
    match s.open_ lim w.create with
    | none => (.err .create, none, r, s)
    | some s =>
      match readWithWriter r with
      | (.ok _, f, r) => (.ok (), some f, r, s.drop)
      | (.err e, f, r) => (.err (.read e), some f, r, s.drop)
      | (.panic, f, r) => (.panic, some f, r, s.drop)

/-- `(*Replication).SyncWithRedis` (redis/replication.go:44-74): the connection is referred to by `repl`. -/
def syncWithRedisR (lim : Nat) (w : World) (addr rdbFile : Bytes) (s : OS) : GoRes SErr Unit × Option Bytes × Rd × OS :=
  if rdbFile = [] then (.err .noFile, none, w.input, s)
  else if addr = [] then (.err .noAddr, none, w.input, s)
  else
    match s.open_ lim w.dial with
    | none => (.err .dial, none, w.input, s)
    | some s =>
      match ping w w.input with
      | (.ok (), r) => syncR lim w r s
      | (.err e, r) => (.err e, none, r, s)
      | (.panic, r) => (.panic, none, r, s)

/-- `(*Replication).Load` (redis/replication.go:171-185 and on): `file` is a local variable. -/
def loadR (ord : Rdb.MapOrd) (lim : Nat) (w : World) (f : Bytes) (s : OS) : GoRes NErr Unit × OS :=
  match s.open_ lim w.reopen with
  | none => (.err .open_, s)
  | some s =>
    match Rdb.load ord ⟨0, 0, [], 0, []⟩ ⟨[], [f]⟩ with
    | (.ok (), _) => (.ok (), s.drop)
    | (.err e, _) => (.err (.load e), s.drop)
    | (.panic, _) => (.panic, s.drop)

/-- The rest of `New` (xxcache.go:49-60): `Load`, and two more goroutines if it succeeds. -/
def finishR (ord : Rdb.MapOrd) (lim : Nat) (w : World) (f : Bytes) (s : OS) : GoRes NErr Unit × OS :=
  match loadR ord lim w f s with
  | (.ok (), s) => (.ok (), s.go.go)
  | (.err e, s) => (.err e, s)
  | (.panic, s) => (.panic, s)

/-- `New` (xxcache.go:31-61) with at most `lim` open descriptors.  When it returns before the handler is started (line 47) nothing refers
to `repl` any more, so to the connection if there is one; `gc` says whether garbage is collected before `Load`. -/
def newR (ord : Rdb.MapOrd) (lim : Nat) (gc : Bool) (w : World) (o : Opts) (s : OS) : GoRes NErr Unit × OS :=
  match syncWithRedisR lim w (prepare o).addr (prepare o).rdbFile s with
  | (.err e, _, _, s1) => (.err (.sync e), if s1.held = s.held then s1 else s1.drop)
  | (.panic, _, _, s1) => (.panic, if s1.held = s.held then s1 else s1.drop)
  | (.ok (), f, _, s1) =>
    finishR ord lim w (f.getD []) (if gc then s1.go.collect else s1.go)

/-- One call of `New`: what is outside at that time, its options, and whether garbage is collected in the middle. -/
structure Try where
  w : World
  o : Opts
  gc : Bool

/-- Calls of `New` one after the other, and collections of garbage; the results of the calls. -/
inductive Tries (ord : Rdb.MapOrd) (lim : Nat) (s0 : OS) : List (Try × GoRes NErr Unit) → OS → Prop
  | start : Tries ord lim s0 [] s0
  | call {l : List (Try × GoRes NErr Unit)} {s : OS} (t : Try) : Tries ord lim s0 l s →
      Tries ord lim s0 (l ++ [(t, (newR ord lim t.gc t.w t.o s).1)]) (newR ord lim t.gc t.w t.o s).2
  | collect {l : List (Try × GoRes NErr Unit)} {s : OS} : Tries ord lim s0 l s → Tries ord lim s0 l s.collect

end Verif.Repl.Again

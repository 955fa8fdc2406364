import Verif.Base
/-!
# The connection pool: redis/pool.go

Any number of callers run `Get`, `Put` and `Close` of one pool.  Each step of the machine is one
synchronisation operation (channel send or receive, mutex) or one dial.  Connections are numbered
in the order they were dialled.  `Exec` and `ExecCommand` (redis/pool.go:99-122) are a `Get` followed by
a deferred `Put` of what it returned (a nil connection is ignored by `Put`), so they are callers of
this machine.  Callers only put back what they got.
-/
namespace Verif.Pool

abbrev Conn := Nat

/-- Where a caller is. -/
inductive PC where
  | idle                 -- outside, or about to enter the first `select` of `Get`
  | wantLock             -- at `pool.l.Lock()`
  | locked               -- holds the mutex, before the size check
  | created (c : Conn)   -- dialled, before `pool.size++`
  | counted (c : Conn)   -- before `pool.connC <- conn`
  | unlocking            -- before `pool.l.Unlock()`
  | waiting              -- at the second `select` of `Get`
  | holding (c : Conn)   -- `Get` returned `c`
  | closing              -- inside the loop of `Close`
deriving DecidableEq, Repr

/-- The pool and its callers.  `leaked`, `closed`, `broken` are ghost components: connections that
were dialled but dropped after an open handler failed, connections taken by `Close`, whether some
`Get` returned while holding the mutex, and how many closes failed. -/
structure State where
  chan : List Conn
  size : Nat
  lock : Bool
  opened : Nat
  leaked : List Conn
  closed : List Conn
  broken : Bool
  closeErrs : Nat
  thr : List PC
deriving DecidableEq, Repr

/-- `Init` (redis/pool.go:25-34): the capacity in use. -/
def capacity (requested : Int) : Nat := if requested ≤ 0 then 20 else requested.toNat

/-- A fresh pool with `n` callers. -/
def State.init (n : Nat) : State := ⟨[], 0, false, 0, [], [], false, 0, List.replicate n .idle⟩

/-- Move of caller `i`. -/
def State.at (s : State) (i : Nat) (p : PC) : State := { s with thr := s.thr.set i p }

/-- One step (redis/pool.go:36-97). -/
inductive Step (cap : Nat) : State → State → Prop
  /-- lines 38-39: a connection is idle -/
  | getFast {s : State} {i : Nat} {c cs} : s.thr[i]? = some .idle → s.chan = c :: cs → Step cap s { s.at i (.holding c) with chan := cs }
  /-- line 40: none is -/
  | getSlow {s : State} {i : Nat} : s.thr[i]? = some .idle → s.chan = [] → Step cap s (s.at i .wantLock)
  /-- line 42 -/
  | lock {s : State} {i : Nat} : s.thr[i]? = some .wantLock → s.lock = false → Step cap s { s.at i .locked with lock := true }
  /-- lines 43-44, `create` succeeds -/
  | dialOk {s : State} {i : Nat} : s.thr[i]? = some .locked → s.size < cap →
      Step cap s { s.at i (.created s.opened) with opened := s.opened + 1 }
  /-- lines 44-46, the dial fails: `Get` returns without unlocking -/
  | dialFail {s : State} {i : Nat} : s.thr[i]? = some .locked → s.size < cap → Step cap s { s.at i .idle with broken := true }
  /-- lines 44-46, an open handler fails: the same, and the new connection is dropped -/
  | openFail {s : State} {i : Nat} : s.thr[i]? = some .locked → s.size < cap →
      Step cap s { s.at i .idle with broken := true, opened := s.opened + 1, leaked := s.opened :: s.leaked }
  /-- line 43, no room -/
  | noRoom {s : State} {i : Nat} : s.thr[i]? = some .locked → cap ≤ s.size → Step cap s (s.at i .unlocking)
  /-- line 48 -/
  | count {s : State} {i : Nat} {c} : s.thr[i]? = some (.created c) → Step cap s { s.at i (.counted c) with size := s.size + 1 }
  /-- line 49; blocks while the channel is full -/
  | push {s : State} {i : Nat} {c} : s.thr[i]? = some (.counted c) → s.chan.length < cap →
      Step cap s { s.at i .unlocking with chan := s.chan ++ [c] }
  /-- line 51 -/
  | unlock {s : State} {i : Nat} : s.thr[i]? = some .unlocking → Step cap s { s.at i .waiting with lock := false }
  /-- lines 57-58 -/
  | recv {s : State} {i : Nat} {c cs} : s.thr[i]? = some .waiting → s.chan = c :: cs → Step cap s { s.at i (.holding c) with chan := cs }
  /-- lines 55-56 -/
  | timeout {s : State} {i : Nat} : s.thr[i]? = some .waiting → Step cap s (s.at i .idle)
  /-- lines 76-80; blocks while the channel is full -/
  | put {s : State} {i : Nat} {c} : s.thr[i]? = some (.holding c) → s.chan.length < cap →
      Step cap s { s.at i .idle with chan := s.chan ++ [c] }
  /-- line 83 -/
  | closeStart {s : State} {i : Nat} : s.thr[i]? = some .idle → Step cap s (s.at i .closing)
  /-- lines 84-94, no error; nothing ever closes the channel, so the loop has no other exit than
  the next one, and blocks while the channel is empty -/
  | closeOne {s : State} {i : Nat} {c cs} : s.thr[i]? = some .closing → s.chan = c :: cs →
      Step cap s { s with chan := cs, closed := c :: s.closed }
  /-- lines 86-92: a close handler or the close itself fails, `Close` returns that error -/
  | closeErr {s : State} {i : Nat} {c cs} : s.thr[i]? = some .closing → s.chan = c :: cs →
      Step cap s { s.at i .idle with chan := cs, closed := c :: s.closed, closeErrs := s.closeErrs + 1 }

/-- Any number of steps. -/
inductive Steps (cap : Nat) : State → State → Prop
  | refl {s} : Steps cap s s
  | tail {s t u} : Steps cap s t → Step cap t u → Steps cap s u

/-- States of a pool of capacity `cap` with `n` callers. -/
def Reachable (cap n : Nat) (s : State) : Prop := Steps cap (State.init n) s

end Verif.Pool

import Verif.Repl.Model
/-!
# The receiver in front of arbitrary bytes

In `Repl.Model` the receiver is given the messages of the stream and ends with an error.  Here it may also
end with a panic: `Recv` panics on a bulk header with a length that no string can have, and it is called in a
goroutine of its own (xxcache.go:58, redis/replication.go:76-78), where a panic ends the process.
-/
namespace Verif.Repl

open Verif.Resp

/-- The calls of `Recv` in the loop of `WaitForMessage` (redis/replication.go:76-83): they return `ms`, one
after the other, and the one behind them, on what is left of the bytes, returns no message. -/
def Delivers (r : Rd) (ms : List Msg) (left : Rd) : Prop :=
  recvN ms.length r = (.ok ms, left) ∧ ∀ m, (readMessage left).1 ≠ .ok m

/-- One step, when the last `Recv` ends with an error (`bad = false`) or with a panic (`bad = true`;
redis/replication.go:78 in the goroutine started at xxcache.go:58). -/
inductive WStep (cf : Conf) (bad : Bool) : State → State → Prop
  | step {s t : State} : Step cf s t → (bad = true → s.recv = .reading [] → t.recv = .reading []) → WStep cf bad s t
  | recvPanic {s : State} : bad = true → s.crashed = false → s.recv = .reading [] → WStep cf bad s { s with crashed := true }

/-- Any number of steps. -/
inductive WSteps (cf : Conf) (bad : Bool) : State → State → Prop
  | refl {s} : WSteps cf bad s s
  | tail {s t u} : WSteps cf bad s t → WStep cf bad t u → WSteps cf bad s u

end Verif.Repl

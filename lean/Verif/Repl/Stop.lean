import Verif.Repl.Ack
/-!
# `Stop`, and what is written to the log

Source: xxcache.go:92-94 (`Stop`), redis/replication.go:41-42 (`(*Replication).Stop`), both with empty bodies; xxcache.go:19, 42 (`LogLevel`),
74-77 (`logrus.Warnln`).
-/
namespace Verif.Repl

open Verif.Resp

/-! ## Stop -/

/-- The goroutines, and whether `Stop` was called. -/
structure SState where
  a : AState
  stopped : Bool

/-- One step of the goroutines, or a call of `Stop`, which does nothing. -/
inductive SStep (cf : Conf) : SState → SState → Prop
  | other {s : SState} {b} : AStep cf s.a b → SStep cf s { s with a := b }
  | stop {s : SState} : SStep cf s { s with stopped := true }

inductive SSteps (cf : Conf) : SState → SState → Prop
  | refl {s} : SSteps cf s s
  | tail {s t u} : SSteps cf s t → SStep cf t u → SSteps cf s u

/-! ## The log -/

/-- The levels of logrus, as numbers: panic 0, fatal 1, error 2, warning 3, info 4, debug 5, trace 6.  A field of this type that is left out is 0. -/
def warnLevel : Nat := 3

/-- The goroutines of one client; the level, which is one for the whole program; how many errors were put into `repl.Err`, how many the handler took
out of it, and how many warnings appeared in the log. -/
structure GState where
  st : State
  level : Nat
  raised : Nat
  taken : Nat
  shown : Nat

/-- A step of the goroutines: an error is put into the channel, or taken out of it and handed to `logrus.Warnln` (xxcache.go:74-77), or neither. -/
def GState.next (g : GState) (t : State) : GState :=
  if g.st.errs < t.errs then { g with st := t, raised := g.raised + 1 }
  else if t.errs < g.st.errs then { g with st := t, taken := g.taken + 1, shown := if warnLevel ≤ g.level then g.shown + 1 else g.shown }
  else { g with st := t }

/-- Any number of steps of the goroutines and calls of `New` for other clients, each of which sets the level (xxcache.go:42) to one in `L`. -/
inductive GSteps (cf : Conf) (L : Nat → Prop) : GState → GState → Prop
  | refl {g} : GSteps cf L g g
  | other {g h t} : GSteps cf L g h → Step cf h.st t → GSteps cf L g (h.next t)
  | setLevel {g h} (l : Nat) : GSteps cf L g h → L l → GSteps cf L g { h with level := l }

/-- `New` with the log level `l`, after `SyncWithRedis`. -/
def GState.init (c : Local) (snap : List Tagged) (good : Bool) (stream : List Msg) (l : Nat) : GState := ⟨.init c snap good stream, l, 0, 0, 0⟩

end Verif.Repl

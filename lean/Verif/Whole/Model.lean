import Verif.Client.PropsMany
import Verif.Repl.PropsEnd
/-!
# The whole client: writing to the master, reading from the replica

`Client` (xxcache.go:22-26) has a client of the master and a cache.  `Set` (command.go:81-83) goes to
the master, `Get` (command.go:77-79) looks into the cache, which only the replication fills.  Here
the machine of many goroutines on one remote client (`Client/Many`) and the machine of the
replication goroutines (`Repl/Model`) run side by side; they are joined by the master, which passes
on to its replicas the assignments it carries out.

The master is a specification: what it carried out is sent to the replicas at once and in the order of
execution; a SET it answered with OK as it was received.
-/
namespace Verif.Whole
open Verif.Resp Verif.Client

/-- What the master passes on when it carries out a request, if only assignments matter.  In the machine this is a parameter: how a
server passes on other commands, and whether it announces its database first, differs from version to version. -/
def passed : Many.Event → List Msg
  | .run _ _ (name :: args) m => if name.map lowerLetter = b!"set" ∧ m = .simple b!"OK" then [command (name :: args)] else []
  | _ => []

/-- The assignment in a request. -/
def assigned : Many.Event → List (Bytes × Bytes)
  | .run _ _ (name :: k :: v :: _) m => if name.map lowerLetter = b!"set" ∧ m = .simple b!"OK" then [(k, v)] else []
  | _ => []

/-- More arrives behind what is still to be received; a connection that failed receives nothing. -/
def feedR (q : List Msg) : Repl.RPC → Repl.RPC
  | .off l => .off (l ++ q)
  | .reading l => .reading (l ++ q)
  | r => r

def feed (q : List Msg) (s : Repl.State) : Repl.State := { s with recv := feedR q s.recv }

/-- Remote side, replica, and whether the connection over which the master passes on still stands. -/
structure State where
  sys : Many.Sys
  rep : Repl.State
  link : Bool

/-- The master passes on what it carried out. -/
def State.pass (pass : Many.Event → List Msg) (w : State) (es : List Many.Event) : Repl.State :=
  if w.link then feed (es.flatMap pass) w.rep else w.rep

/-- One step: of a goroutine, a connection or the master, which passes on `pass e` for the event `e`, or of the replication. -/
inductive Step (bad : Bytes → F64) (o : Opt) (cap : Nat) (P : Cut → Msg → Prop) (cf : Repl.Conf) (pass : Many.Event → List Msg) : State → State → Prop
  | remote {w : State} {a : Many.Act} {s : Many.Sys} {es : List Many.Event} : Many.Allowed P w.sys a → Many.act bad o cap w.sys a = some s →
      s.log = w.sys.log ++ es → Step bad o cap P cf pass w { w with sys := s, rep := w.pass pass es }
  | replica {w : State} {r : Repl.State} : Repl.Step cf w.rep r → Step bad o cap P cf pass w { w with rep := r }
  /-- the connection breaks; of what was on its way the first part still arrives -/
  | cut {w : State} {l l' : List Msg} : w.rep.recv = .reading l → l' <+: l →
      Step bad o cap P cf pass w { w with rep := { w.rep with recv := .reading l' }, link := false }
  /-- the same while `New` still loads the snapshot -/
  | cutEarly {w : State} {l l' : List Msg} : w.rep.recv = .off l → l' <+: l →
      Step bad o cap P cf pass w { w with rep := { w.rep with recv := .off l' }, link := false }

inductive Steps (bad : Bytes → F64) (o : Opt) (cap : Nat) (P : Cut → Msg → Prop) (cf : Repl.Conf) (pass : Many.Event → List Msg) : State → State → Prop
  | refl {w} : Steps bad o cap P cf pass w w
  | tail {w x y} : Steps bad o cap P cf pass w x → Step bad o cap P cf pass x y → Steps bad o cap P cf pass w y

/-- `New` is about to load the snapshot; `n` goroutines are about to make their calls. -/
def State.init (n : Nat) (srv : Server) (t : Int) (calls : Nat → List Req) (c : Repl.Local) (snap : List Repl.Tagged) : State :=
  ⟨Many.Sys.init n srv t calls, Repl.State.init c snap true [], true⟩

/-- The connection to the master still stands and everything it brought was taken. -/
def CaughtUp (w : State) : Prop := w.link = true ∧ w.rep.msgs = [] ∧ w.rep.main = .returned ∧ w.rep.recv = .reading []

/-- `(*Client).Get` at clock reading `t`. -/
def get (w : State) (t : Int) (k : Bytes) : Res Bytes := (Repl.Client.mk ⟨[], [], 0⟩ w.rep.cache).get t k

end Verif.Whole

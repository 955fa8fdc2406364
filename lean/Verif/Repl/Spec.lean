import Verif.Repl.Model
import Verif.Cache.Spec
/-!
# What a replica should do

Vocabulary for C74 - C79.
-/
namespace Verif.Repl

open Verif.Resp

/-- The name of the SET command, in any mixture of cases. -/
def SetName (s : Bytes) : Prop := ∃ a b c : UInt8, s = [a, b, c] ∧ (a = 115 ∨ a = 83) ∧ (b = 101 ∨ b = 69) ∧ (c = 116 ∨ c = 84)

/-- A replicated assignment of `v` to `k`, as the master sends it: an array of bulk strings. -/
def IsSet (m : Msg) (k v : Bytes) : Prop := ∃ name extra, SetName name ∧ m = command (name :: k :: v :: extra)

/-- A stream of assignments. -/
inductive AreSets : List Msg → List (Bytes × Bytes) → Prop
  | nil : AreSets [] []
  | cons {m ms k v kvs} : IsSet m k v → AreSets ms kvs → AreSets (m :: ms) ((k, v) :: kvs)

/-- What a master sends that only executes assignments in one database: the assignments, with the
PING commands that keep the connection busy in between. -/
inductive StreamOf : List Msg → List (Bytes × Bytes) → Prop
  | nil : StreamOf [] []
  | set {m ms k v kvs} : IsSet m k v → StreamOf ms kvs → StreamOf (m :: ms) ((k, v) :: kvs)
  | ping {ms kvs} : StreamOf ms kvs → StreamOf (command [b!"PING"] :: ms) kvs

/-- The value assigned last to `k`. -/
def lastVal (k : Bytes) : List (Bytes × Bytes) → Option Bytes
  | [] => none
  | (j, v) :: kvs =>
    match lastVal k kvs with
    | some w => some w
    | none => if j = k then some v else none

/-- The database each message of a stream belongs to: the master announces a change of database
with a SELECT command. -/
def belongs (db : Int) : List Msg → List (Int × Msg)
  | [] => []
  | .array [.bulk s, .bulk n] :: ms =>
    if lower s = b!"select" then
      match atoi n with
      | some d => belongs d.toInt ms
      | none => belongs db ms
    else (db, .array [.bulk s, .bulk n]) :: belongs db ms
  | m :: ms => (db, m) :: belongs db ms

/-- Nothing is on the way any more: `New` returned, everything received was taken by the handler. -/
def CaughtUp (s : State) : Prop :=
  s.msgs = [] ∧ s.main = .returned ∧ (s.recv = .reading [] ∨ s.recv = .closing ∨ s.recv = .done)

/-- Handling messages one after the other, giving up at the first error or panic. -/
def handleAll (c : Local) : List Msg → GoRes HErr Unit × Local
  | [] => (.ok (), c)
  | m :: ms =>
    match handle c (some m) with
    | (.ok (), c) => handleAll c ms
    | x => x

end Verif.Repl

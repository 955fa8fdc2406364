import Verif.Client.PropsPool
/-!
# Open handlers of a pool

Source: redis/pool.go:21-23 (`AddConnOpenHandler`), 62-74 (`create`).  `create` has the pool as it was when it was called: it runs the handlers that had been
added by then, in the order of adding, and ends at the first error.  Handlers are numbered.  Adding one is a single step here; the data race between it and a
dial is not.
-/
namespace Verif.Pool

/-- The pool, its open handlers, and which handlers ran on a connection, in order. -/
structure HState where
  pool : State
  handlers : List Nat
  ran : Nat → List Nat

/-- What can happen: a handler is added, or a caller moves; `k` is the number of handlers that succeed if one fails. -/
inductive HAct where
  | add (h : Nat)
  | by (m : Move) (k : Nat)

/-- A move that calls `create` and gets as far as the handlers (redis/pool.go:44, 67-71). -/
def creates (cap : Nat) (s : State) (m : Move) : Bool := decide (s.thr[m.i]? = some .locked) && decide (s.size < cap) && !m.fail

/-- One event. -/
def hact (cap : Nat) (a : HAct) (s : HState) : Option HState :=
  match a with
  | .add h => some { s with handlers := s.handlers ++ [h] }
  | .by m k =>
    if creates cap s.pool m = true then
      if m.leak then
        if k < s.handlers.length then
          (move cap m s.pool).map fun p => { s with pool := p, ran := fun c => if c = s.pool.opened then s.handlers.take (k + 1) else s.ran c }
        else none
      else (move cap m s.pool).map fun p => { s with pool := p, ran := fun c => if c = s.pool.opened then s.handlers else s.ran c }
    else (move cap m s.pool).map fun p => { s with pool := p }

/-- A history. -/
def hrun (cap : Nat) : List HAct → HState → Option HState
  | [], s => some s
  | a :: as, s => (hact cap a s).bind (hrun cap as)

/-- A fresh pool. -/
def HState.init (n : Nat) (hs : List Nat) : HState := ⟨State.init n, hs, fun _ => []⟩

/-- The handlers added in a history. -/
def added : List HAct → List Nat
  | [] => []
  | .add h :: as => h :: added as
  | .by _ _ :: as => added as

end Verif.Pool

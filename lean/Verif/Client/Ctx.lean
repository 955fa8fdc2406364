import Verif.Client.PropsPoolExact
/-!
# Contexts: the first argument of `(*Pool).Get`, `ExecCommand` and `Exec`

redis/pool.go:36, 99, 113.  A context is done or not; once done it stays so.  `Get` looks at it in one place, the second `select`
(lines 54-59); `(*Conn).ExecCommand` (redis/conn.go:57-70), the dial and the open handlers do not look at it at all.  Each call of a caller has a
context of its own.
-/
namespace Verif.Pool

/-- The pool and which callers' contexts are done. -/
structure CState where
  pool : State
  done : Nat → Bool

/-- What can happen. -/
inductive CAct where
  | cancel (i : Nat)   -- the context of caller `i` is done from now on
  | renew (i : Nat)    -- caller `i`, outside, prepares a call with a new context
  | by (m : Move)      -- a move of a caller

/-- The case `<-ctx.Done()` (redis/pool.go:55-56) of a caller. -/
def onDone (s : State) (m : Move) : Prop := s.thr[m.i]? = some .waiting ∧ m.fail = true

instance (s : State) (m : Move) : Decidable (onDone s m) := by unfold onDone; infer_instance

/-- One event; the case `<-ctx.Done()` can be taken only if the context is done. -/
def cact (cap : Nat) (a : CAct) (s : CState) : Option CState :=
  match a with
  | .cancel i => some { s with done := fun j => if j = i then true else s.done j }
  | .renew i => if s.pool.thr[i]? = some .idle then some { s with done := fun j => if j = i then false else s.done j } else none
  | .by m => if onDone s.pool m ∧ s.done m.i = false then none else (move cap m s.pool).map fun p => { s with pool := p }

/-- A history. -/
def crun (cap : Nat) : List CAct → CState → Option CState
  | [], s => some s
  | a :: as, s => (cact cap a s).bind (crun cap as)

/-- A fresh pool with `n` callers, no context done. -/
def CState.init (n : Nat) : CState := ⟨State.init n, fun _ => false⟩

/-- States that occur. -/
def CReachable (cap n : Nat) (s : CState) : Prop := ∃ as, crun cap as (CState.init n) = some s

/-- Caller `i` is inside `Get`. -/
def InGet (s : State) (i : Nat) : Prop := ∃ p, s.thr[i]? = some p ∧ p ≠ .idle ∧ p ≠ .closing ∧ ∀ c, p ≠ .holding c

/-- `Get` of caller `i` has returned, with or without a connection. -/
def Back (s : State) (i : Nat) : Prop := s.thr[i]? = some .idle ∨ ∃ c, s.thr[i]? = some (.holding c)

/-- Moves of caller `i` that are not `Close`. -/
def Own (i : Nat) (ms : List Move) : Prop := ∀ m ∈ ms, m.i = i ∧ m.close = false

end Verif.Pool

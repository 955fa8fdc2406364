/-!
# Base definitions shared by all models

Go strings and byte slices are lists of bytes.  A Go call returns a value and a nil
error, or an error (the value beside it is always the zero value in the modelled code),
or it panics.
-/

namespace Verif

/-- A Go `string` / `[]byte`. -/
abbrev Bytes := List UInt8

/-- `b!"set"` is the list of bytes of an ASCII literal (expanded at elaboration time). -/
macro:max "b!" s:str : term => do
  let bs := s.getString.toUTF8.toList
  let elems ← bs.mapM fun (x : UInt8) => `($(Lean.quote x.toNat))
  `(([ $(elems.toArray),* ] : List UInt8))

/-- Outcome of a Go call `(value, error)` that may also panic. -/
inductive GoRes (ε α : Type) where
  | ok (a : α)
  | err (e : ε)
  | panic
deriving DecidableEq, Repr

namespace GoRes
variable {ε α β : Type}

/-- Sequencing: errors and panics propagate. -/
def bind (r : GoRes ε α) (f : α → GoRes ε β) : GoRes ε β :=
  match r with
  | ok a => f a
  | err e => err e
  | panic => panic

def map (f : α → β) (r : GoRes ε α) : GoRes ε β := r.bind (fun a => ok (f a))

end GoRes

/-- The largest slice the Go runtime hands out (`maxAlloc`, 64 bit): `make` panics beyond it.
Running out of memory below it is not modelled. -/
def maxAlloc : Int := 2 ^ 48

/-- Functional update of a partial map (`sync.Map.Store` / `Delete`). -/
def upd {K V : Type} [DecidableEq K] (m : K → Option V) (k : K) (v : Option V) : K → Option V :=
  fun k' => if k' = k then v else m k'

@[simp] theorem upd_same {K V : Type} [DecidableEq K] (m : K → Option V) (k : K) (v : Option V) :
    upd m k v k = v := by simp [upd]

@[simp] theorem upd_other {K V : Type} [DecidableEq K] (m : K → Option V) (k k' : K) (v : Option V)
    (h : k' ≠ k) : upd m k v k' = m k' := by simp [upd, h]

theorem upd_eq_self {K V : Type} [DecidableEq K] (m : K → Option V) (k : K) (v : Option V)
    (h : m k = v) : upd m k v = m := by
  funext k'; by_cases hk : k' = k
  · subst hk; simp [h]
  · simp [hk]

@[simp] theorem upd_upd {K V : Type} [DecidableEq K] (m : K → Option V) (k : K) (v w : Option V) :
    upd (upd m k v) k w = upd m k w := by
  funext k'; by_cases hk : k' = k <;> simp [upd, hk]

theorem upd_comm {K V : Type} [DecidableEq K] (m : K → Option V) (k k2 : K) (v w : Option V)
    (h : k ≠ k2) : upd (upd m k v) k2 w = upd (upd m k2 w) k v := by
  funext k'; by_cases hk : k' = k <;> by_cases hk2 : k' = k2 <;> simp_all [upd]

end Verif

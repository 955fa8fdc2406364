import Verif.Base
/-!
# List entries: cache/cachelist.go:5-15

A `ListEntry` is a Go slice of strings: an array, a length and a capacity.  Arrays are shared by the copies of an entry.
-/
namespace Verif.Entry

/-- A slice that begins at the start of its array. -/
structure Slice where
  arr : Nat
  len : Nat
  cap : Nat
deriving DecidableEq

/-- Arrays, and the entries of the program by number. -/
structure St where
  heap : List (List Bytes)
  ent : Nat → Slice

/-- A slice without an array. -/
def Slice.nil : Slice := ⟨0, 0, 0⟩

/-- Some entries, none of them used yet. -/
def St.new : St := ⟨[], fun _ => .nil⟩

/-- The elements of a slice. -/
def elems (heap : List (List Bytes)) (s : Slice) : List Bytes := (heap.getD s.arr []).take s.len

/-- What an entry holds. -/
def St.val (st : St) (i : Nat) : List Bytes := elems st.heap (st.ent i)

/-- Go `append(s, vs...)`: in place if the capacity allows it, else in a new array, here with `extra` elements to spare. -/
def append (heap : List (List Bytes)) (s : Slice) (vs : List Bytes) (extra : Nat) : List (List Bytes) × Slice :=
  if s.len + vs.length ≤ s.cap then
    (heap.set s.arr ((heap.getD s.arr []).take s.len ++ vs ++ (heap.getD s.arr []).drop (s.len + vs.length)), { s with len := s.len + vs.length })
  else
    (heap ++ [elems heap s ++ vs ++ List.replicate extra []], ⟨heap.length, s.len + vs.length, s.len + vs.length + extra⟩)

/-- Assign to an entry. -/
def St.put (st : St) (i : Nat) (x : List (List Bytes) × Slice) : St := ⟨x.1, fun j => if j = i then x.2 else st.ent j⟩

/-- What a program does with its entries. -/
inductive Op where
  | tail (i : Nat) (v : Bytes) (extra : Nat)
  | head (i : Nat) (v : Bytes) (extra : Nat)
  | copy (i j : Nat)

/-- `AppendTail` (cache/cachelist.go:9-11), `AppendHead` (cache/cachelist.go:13-15), and the assignment of entry `i` to
entry `j`. -/
def step (st : St) : Op → St
  | .tail i v extra => st.put i (append st.heap (st.ent i) [v] extra)
  | .head i v extra => st.put i (append (st.heap ++ [[v]]) ⟨st.heap.length, 1, 1⟩ (st.val i) extra)
  | .copy i j => st.put j (st.heap, st.ent i)

/-- A program. -/
def run : St → List Op → St
  | st, [] => st
  | st, op :: l => run (step st op) l

/-! ## What is meant -/

/-- Entries as plain lists. -/
def rstep (f : Nat → List Bytes) : Op → Nat → List Bytes
  | .tail i v _ => fun j => if j = i then f i ++ [v] else f j
  | .head i v _ => fun j => if j = i then v :: f i else f j
  | .copy i j => fun k => if k = j then f i else f k

def rrun : (Nat → List Bytes) → List Op → Nat → List Bytes
  | f, [] => f
  | f, op :: l => rrun (rstep f op) l

end Verif.Entry

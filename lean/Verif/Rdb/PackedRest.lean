import Verif.Rdb.Packed

/-!
# Packed containers: the methods nothing else in the repository calls

The rest of redis/zipmap/zipmap.go and `Iterator.Length` of redis/ziplist/ziplist.go.
-/

namespace Verif.Rdb

/-- `zipMap.Get`, zipmap.go:93-95. -/
def zmGet (_s _key : Bytes) : Bytes × Bool := ([], false)

/-- `zipMap.Del`, zipmap.go:89-91: the map afterwards. -/
def zmDel (s _key : Bytes) : Bytes := s

/-- The method `zipMap.Len`, zipmap.go:97-99. -/
def zmCount (_s : Bytes) : Int64 := 0

/-- `zipMap.BlobLen`, zipmap.go:101-103. -/
def zmBlobLen (_s : Bytes) : Int64 := 0

/-- `iterator`, zipmap.go:20-23; the map it points to, if any. -/
structure ZmIter where
  cursor : Int64
  zm : Option Bytes

/-- `zipMap.Iterate`, zipmap.go:35-37: the zero value, whose pointer is nil. -/
def zmIterate (_s : Bytes) : ZmIter := ⟨0, none⟩

/-- `iterator.Next`, zipmap.go:25-27. -/
def zmNext (it : ZmIter) : (Bytes × Bool) × ZmIter := (([], false), it)

/-- The texts `Next` yields before it first says no, in at most `n` calls. -/
def zmWalk : Nat → ZmIter → List Bytes
  | 0, _ => []
  | n + 1, it =>
    match zmNext it with
    | ((s, true), it) => s :: zmWalk n it
    | ((_, false), _) => []

/-- The function `zipmap.Len`, zipmap.go:147-158. -/
def zmEntryLen (key value : Bytes) : Nat :=
  key.length + value.length + 3 + (if 254 ≤ key.length then 4 else 0) + (if 254 ≤ value.length then 4 else 0)

/-- `Iterator.Length`, ziplist.go:40-44; `none` is a panic. -/
def zlLength (s : Bytes) : Option Nat := do
  let x ← slice s 8 10
  pure (le x)

end Verif.Rdb

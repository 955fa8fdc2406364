import Verif.Cache.Spec
/-!
# A reference: the documented Redis meaning of the calls

Written from the Redis command documentation, not from the code.  A key holds a text or a map from
fields to texts, and possibly a deadline; a key whose deadline lies before the clock is absent, for
every call.  Every text is kept as it is.  Where Redis answers with an error the reference answers
with an error of the Go API.  `HMSet` answers with the number of new fields (the answer of
the variadic `HSET`); the 512 MB limit and the list calls are
left out; a range that ends before the text begins is empty.
-/
namespace Verif.Ref

/-- A value: a text, or a map given by its pairs. -/
inductive RVal where
  | str (s : Bytes)
  | hash (m : List (Bytes × Bytes))
deriving DecidableEq

/-- A value with its deadline. -/
structure Entry where
  val : RVal
  dl : Option Int

abbrev Store := Bytes → Option Entry

/-- Nothing stored. -/
def empty : Store := fun _ => none

/-- What is visible at `k` at time `t`, with its deadline. -/
def live (st : Store) (t : Int) (k : Bytes) : Option Entry :=
  (st k).filter fun e => match e.dl with
    | none => true
    | some d => t ≤ d

/-- What is visible at `k` at time `t`. -/
def view (st : Store) (t : Int) (k : Bytes) : Option RVal := (live st t k).map (·.val)

/-- Store a text without deadline. -/
def put (st : Store) (k v : Bytes) : Store := upd st k (some ⟨.str v, none⟩)

/-- Change the value at `k`, keeping the deadline of a visible value. -/
def keep (st : Store) (t : Int) (k : Bytes) (v : RVal) : Store :=
  upd st k (some ⟨v, (live st t k).bind (·.dl)⟩)

/-- The text at `k`; an absent key counts as `absent`. -/
def text (st : Store) (t : Int) (k : Bytes) (absent : Res Bytes) : Res Bytes :=
  match view st t k with
  | none => absent
  | some (.str s) => .ok s
  | some (.hash _) => .err .wrongType

/-- The map at `k`; an absent key is an empty map. -/
def fields (st : Store) (t : Int) (k : Bytes) : Res (List (Bytes × Bytes)) :=
  match view st t k with
  | none => .ok []
  | some (.hash m) => .ok m
  | some (.str _) => .err .wrongType

/-- The value of a field. -/
def fget (m : List (Bytes × Bytes)) (f : Bytes) : Option Bytes := (m.find? fun p => p.1 == f).map (·.2)

/-- The map with `f ↦ v`. -/
def fput (m : List (Bytes × Bytes)) (f v : Bytes) : List (Bytes × Bytes) :=
  if (fget m f).isSome then m.map fun p => if p.1 = f then (f, v) else p else m ++ [(f, v)]

/-- The map without some fields. -/
def fdel (m : List (Bytes × Bytes)) (fs : List Bytes) : List (Bytes × Bytes) := m.filter fun p => p.1 ∉ fs

/-- Store a map; an empty map is no key. -/
def putFields (st : Store) (t : Int) (k : Bytes) (m : List (Bytes × Bytes)) : Store :=
  if m = [] then upd st k none else keep st t k (.hash m)

/-- `s` with `r` written at position `p`, filled up with zero bytes. -/
def overwrite (s : Bytes) (p : Nat) (r : Bytes) : Bytes :=
  (s ++ List.replicate (p - s.length) 0).take p ++ r ++ s.drop (p + r.length)

/-- The bytes of `s` from position `a` to position `b`, both included; negative positions count from
the end, and positions outside the text are ignored. -/
def between (s : Bytes) (a b : Int) : Bytes :=
  let a := if a < 0 then s.length + a else a
  let b := if b < 0 then s.length + b else b
  (s.take (b + 1).toNat).drop a.toNat

/-- Addition to a counter. -/
def addTo (st : Store) (t : Int) (k : Bytes) (n : Int) : Store × Out :=
  match text st t k (.ok b!"0") with
  | .ok s =>
    match atoi s with
    | none => (st, .int (.err .wrongType))
    | some m =>
      if -(2 ^ 63) ≤ m.toInt + n ∧ m.toInt + n < 2 ^ 63 then
        (keep st t k (.str (itoaInt (m.toInt + n))), .int (.ok (m.toInt + n)))
      else (st, .int (.err .wrongType))
  | .err e => (st, .int (.err e))
  | .panic => (st, .panic)

/-- Addition to a float.  Simplified: Redis adds in extended precision and refuses NaN and infinity; no theorem of agreement covers it. -/
def addFloat (st : Store) (t : Int) (k : Bytes) (x : F64) : Store × Out :=
  match text st t k (.ok b!"0") with
  | .ok s =>
    match parseFloat s with
    | none => (st, .float (.err .wrongType))
    | some y => (keep st t k (.str (formatFloat (y.add x))), .float (.ok (y.add x)))
  | .err e => (st, .float (.err e))
  | .panic => (st, .panic)

/-- `getD` for slots. -/
def slot : Option Bytes → Res Bytes
  | none => .err .keyNil
  | some s => .ok s

/-- A slot of `MGet`: everything that is not a text is nil. -/
def textOrNil : Option RVal → Res Bytes
  | some (.str s) => .ok s
  | _ => .err .keyNil

/-- The documented limit of `SETRANGE`: "the maximum offset that you can set is 2^29 - 1, as Redis strings are limited to 512
megabytes".  (The error Redis reports beyond it has another text than that for a negative offset.) -/
def maxText : Int := 2 ^ 29

/-- One call at time `t`. -/
def exec (st : Store) (t : Int) : Call → Store × Out
  | .set k v => (put st k v, .str (.ok b!"OK"))
  | .setNX k v => if (view st t k).isSome then (st, .int (.ok 0)) else (put st k v, .int (.ok 1))
  | .setEX k v n =>
    if n.toInt ≤ 0 then (st, .str (.err .wrongType))
    else (upd st k (some ⟨.str v, some (t + 1000000000 * n.toInt)⟩), .str (.ok b!"OK"))
  | .pSetEX k v n =>
    if n.toInt ≤ 0 then (st, .str (.err .wrongType))
    else (upd st k (some ⟨.str v, some (t + 1000000 * n.toInt)⟩), .str (.ok b!"OK"))
  | .get k => (st, .str (text st t k (.err .keyNil)))
  | .getSet k v =>
    match text st t k (.err .keyNil) with
    | .err .wrongType => (st, .str (.err .wrongType))
    | r => (put st k v, .str r)
  | .strLen k => (st, .int ((text st t k (.ok [])).map fun s => (s.length : Int)))
  | .append k v =>
    match text st t k (.ok []) with
    | .ok s => (keep st t k (.str (s ++ v)), .int (.ok (s ++ v).length))
    | .err e => (st, .int (.err e))
    | .panic => (st, .panic)
  | .setRange k p r =>
    if p.toInt < 0 then (st, .int (.err .offsetOutOfRange))
    else
      match text st t k (.ok []) with
      | .ok s =>
        if r = [] then (st, .int (.ok s.length))
        else if maxText < p.toInt + r.length then (st, .int (.err .offsetOutOfRange))
        else (keep st t k (.str (overwrite s p.toInt.toNat r)), .int (.ok (overwrite s p.toInt.toNat r).length))
      | .err e => (st, .int (.err e))
      | .panic => (st, .panic)
  | .getRange k a b => (st, .str ((text st t k (.ok [])).map fun s => between s a.toInt b.toInt))
  | .incr k => addTo st t k 1
  | .incrBy k n => addTo st t k n.toInt
  | .decr k => addTo st t k (-1)
  | .decrBy k n => addTo st t k (-n.toInt)
  | .incrByFloat k x => addFloat st t k x
  | .mSet kv => (kv.foldl (fun st p => put st p.1 p.2) st, .str (.ok b!"OK"))
  | .mSetNX kv =>
    if kv.any fun p => (view st t p.1).isSome then (st, .int (.ok 0))
    else (kv.foldl (fun st p => put st p.1 p.2) st, .int (.ok 1))
  | .mGet ks => (st, .slots (.ok (ks.map fun k => textOrNil (view st t k))))
  | .del k => (upd st k none, .int (.ok (if (view st t k).isSome then 1 else 0)))
  | .flush => (empty, .unit)
  | .exists_ ks => (st, .int (.ok (ks.countP fun k => (view st t k).isSome)))
  | .type k => (st, .str (.ok (match view st t k with
      | none => b!"none"
      | some (.str _) => b!"string"
      | some (.hash _) => b!"hash")))
  | .hSet k f v =>
    match fields st t k with
    | .ok m => (putFields st t k (fput m f v), .int (.ok (if (fget m f).isSome then 0 else 1)))
    | .err e => (st, .int (.err e))
    | .panic => (st, .panic)
  | .hSetNX k f v =>
    match fields st t k with
    | .ok m => if (fget m f).isSome then (st, .int (.ok 0)) else (putFields st t k (fput m f v), .int (.ok 1))
    | .err e => (st, .int (.err e))
    | .panic => (st, .panic)
  | .hExists k f => (st, .int ((fields st t k).map fun m => if (fget m f).isSome then 1 else 0))
  | .hDel k fs =>
    match fields st t k with
    | .ok m => (putFields st t k (fdel m fs), .int (.ok (m.length - (fdel m fs).length)))
    | .err e => (st, .int (.err e))
    | .panic => (st, .panic)
  | .hLen k => (st, .int ((fields st t k).map fun m => (m.length : Int)))
  | .hStrLen k f => (st, .int ((fields st t k).map fun m => (((fget m f).getD []).length : Int)))
  | .hGet k f => (st, .str ((fields st t k).bind fun m => slot (fget m f)))
  | .hIncrBy k f n =>
    match fields st t k with
    | .ok m =>
      match atoi ((fget m f).getD b!"0") with
      | none => (st, .int (.err .hashNotFloat))
      | some v =>
        if -(2 ^ 63) ≤ v.toInt + n.toInt ∧ v.toInt + n.toInt < 2 ^ 63 then
          (putFields st t k (fput m f (itoaInt (v.toInt + n.toInt))), .int (.ok (v.toInt + n.toInt)))
        else (st, .int (.err .hashNotFloat))
    | .err e => (st, .int (.err e))
    | .panic => (st, .panic)
  | .hIncrByFloat k f x =>
    match fields st t k with
    | .ok m =>
      match parseFloat ((fget m f).getD b!"0") with
      | none => (st, .float (.err .hashNotFloat))
      | some y => (putFields st t k (fput m f (formatFloat (y.add x))), .float (.ok (y.add x)))
    | .err e => (st, .float (.err e))
    | .panic => (st, .panic)
  | .hMSet k fv =>
    match fields st t k with
    | .ok m =>
      let m' := fv.foldl (fun m p => fput m p.1 p.2) m
      (putFields st t k m', .int (.ok (m'.length - m.length)))
    | .err e => (st, .int (.err e))
    | .panic => (st, .panic)
  | .hMGet k fs => (st, .slots ((fields st t k).map fun m => fs.map fun f => slot (fget m f)))
  | .hKeys k => (st, .strs ((fields st t k).map fun m => m.map (·.1)))
  | .hVals k => (st, .strs ((fields st t k).map fun m => m.map (·.2)))
  | .hGetAll k => (st, .pairs (fields st t k))
  | .list _ => (st, .panic)
  | .cronTick => (st, .unit)

/-- Answers of a history. -/
def outs (st : Store) : History → List Out
  | [] => []
  | (t, op) :: h => (exec st t op).2 :: outs (exec st t op).1 h

/-! ## Where the code agrees with it -/

/-- No deadline of `k` has passed. -/
def Fresh (st : Store) (t : Int) (k : Bytes) : Prop := ∀ e, st k = some e → ∀ d, e.dl = some d → t ≤ d

/-- `k` has no deadline. -/
def NoDeadline (st : Store) (k : Bytes) : Prop := ∀ e, st k = some e → e.dl = none

/-- The sum fits. -/
def Sum (st : Store) (t : Int) (k : Bytes) (n : Int) : Prop :=
  Fresh st t k ∧ ∀ s m, view st t k = some (.str s) → atoi s = some m →
    -(2 ^ 63) ≤ m.toInt + n ∧ m.toInt + n < 2 ^ 63

/-- Calls that are answered as by the reference.  What is excluded: numbers that are not written
canonically; a plain write to a key with a deadline; conditional writes, counters and `Exists` on a
key whose deadline has passed; overflowing counters and durations; the empty `SetRange` and one beyond 512 megabytes; `GetSet`,
`MGet` and `Type` on a hash; `HDel` of all fields and `HMSet` of none; `HExists` of a present field;
`HIncrBy` of a present field; `MSetNX` of more than one pair unless all keys are there; `HKeys` and `HVals` of a key that is absent,
`HVals` if a field is a number, `HGetAll` unless it is refused; the sweep while anything is stored or before the year 1; and the calls `IncrByFloat`,
`HIncrByFloat` and the list calls.  (Neither side promises an order for `HKeys` and `HVals`; that of creation stands for it.) -/
def Safe (st : Store) (t : Int) : Call → Prop
  | .set k v => canon v = v ∧ NoDeadline st k
  | .setNX k v => canon v = v ∧ Fresh st t k
  | .setEX _ v n => canon v = v ∧ 0 < n.toInt ∧ 1000000000 * n.toInt < 2 ^ 63
  | .pSetEX _ v n => canon v = v ∧ 0 < n.toInt ∧ 1000000 * n.toInt < 2 ^ 63
  | .getSet k v => canon v = v ∧ (∀ e, live st t k = some e → e.dl = none) ∧ ∀ m, view st t k ≠ some (.hash m)
  | .append k v => ∀ s, text st t k (.ok []) = .ok s → canon (s ++ v) = s ++ v
  | .setRange k p r => 0 ≤ p.toInt → r ≠ [] ∧ p.toInt + r.length ≤ maxText ∧ ∀ s, text st t k (.ok []) = .ok s → canon (overwrite s p.toInt.toNat r) = overwrite s p.toInt.toNat r
  | .incr k => Sum st t k 1
  | .incrBy k n => Sum st t k n.toInt
  | .decr k => Sum st t k (-1)
  | .decrBy k n => Sum st t k (-n.toInt) ∧ -(2 ^ 63) < n.toInt
  | .mSet kv => ∀ p ∈ kv, canon p.2 = p.2 ∧ NoDeadline st p.1
  | .exists_ ks => ∀ k ∈ ks, Fresh st t k
  | .type k => ∀ m, view st t k ≠ some (.hash m)
  | .mGet ks => ∀ k ∈ ks, ∀ m, view st t k ≠ some (.hash m)
  | .hSet _ _ v => canon v = v
  | .hSetNX _ _ _ => True
  | .hExists k f => ∀ m, fields st t k = .ok m → fget m f = none
  | .hDel k fs => ∀ m, fields st t k = .ok m → m ≠ [] → fdel m fs ≠ []
  | .hIncrBy k f _ => ∀ m, fields st t k = .ok m → fget m f = none
  | .hMSet _ fv => fv ≠ [] ∧ ∀ p ∈ fv, canon p.2 = p.2
  | .get _ | .strLen _ | .getRange _ _ _ | .del _ | .flush | .hLen _ | .hStrLen _ _ | .hGet _ _
  | .hMGet _ _ => True
  | .mSetNX kv => kv ≠ [] ∧ (∀ p ∈ kv, Fresh st t p.1) ∧ ((∀ p ∈ kv, (view st t p.1).isSome = true) ∨ ∃ p, kv = [p] ∧ canon p.2 = p.2)
  | .hKeys k => fields st t k ≠ .ok []
  | .hVals k => fields st t k ≠ .ok [] ∧ ∀ m, fields st t k = .ok m → ∀ p ∈ m, NonNumeric p.2
  | .hGetAll k => ∀ m, fields st t k ≠ .ok m
  | .cronTick => -62135596800000000000 < t ∧ ∀ k, live st t k = none
  | .incrByFloat _ _ | .hIncrByFloat _ _ _ | .list _ => False

/-- All calls of a history are safe where they are made. -/
def SafeRun (st : Store) : History → Prop
  | [] => True
  | (t, op) :: h => Safe st t op ∧ SafeRun (exec st t op).1 h

end Verif.Ref

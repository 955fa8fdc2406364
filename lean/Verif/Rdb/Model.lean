import Verif.FloatText
import Verif.Resp.Model
import Verif.Lzf.Model
import Verif.Rdb.Packed

/-!
# Reading a snapshot: redis/rdb/rdb.go and `(*Replication).Load` (redis/replication.go:171-543)

The file is a `Resp.Rd`: a `bufio.Reader` with the chunks the underlying reads deliver.  A panic and
`log.Fatal` (which ends the process) are both `GoRes.panic`.  All error texts other than the end of
the file are `RErr.syntaxErr`.  Log output is not modelled.
-/

namespace Verif.Rdb

open Verif.Resp

/-- The loop of `io.ReadFull` (at most one turn per byte wanted). -/
def readFullAux : Nat → Nat → Rd → RRes Bytes × Rd
  | _, 0, r => (.ok [], r)
  | 0, _, r => (.err .stuck, r)
  | f + 1, n, r =>
    andThen (read n r) fun d r =>
      andThen (readFullAux f (n - d.length) r) fun d' r => (.ok (d ++ d'), r)

/-- `io.ReadFull(reader, buf)` with `len(buf) = n`; `io.ErrUnexpectedEOF` is `eof` as well. -/
def readFull (n : Nat) (r : Rd) : RRes Bytes × Rd := readFullAux n n r

/-- `rdb.LoadLen`, rdb.go:41-91: the length and whether it is an encoding tag. For 32 and 64 bit
lengths the code writes a zero variable to a buffer instead of reading the bytes, and errors are
assigned to a shadowing variable. -/
def loadLen (r : Rd) : RRes (Nat × Bool) × Rd :=
  andThen (readByte r) fun b r =>
    if b.toNat / 64 = 3 then (.ok (b.toNat % 64, true), r)
    else if b.toNat / 64 = 0 then (.ok (b.toNat % 64, false), r)
    else if b.toNat / 64 = 1 then
      match readByte r with
      | (.ok b1, r) => (.ok (b.toNat % 64 * 256 + b1.toNat, false), r)
      | (_, r) => (.panic, r)
    else if b = 0x80 then (.ok (0, false), (readFull 4 r).2)
    else if b = 0x81 then (.ok (0, false), (readFull 8 r).2)
    else (.err .syntaxErr, r)

/-- The `EncLzf` branch of `LoadString`, rdb.go:135-156. -/
def loadLzf (r : Rd) : RRes Bytes × Rd :=
  andThen (loadLen r) fun n r =>
    andThen (loadLen r) fun l r =>
      andThen (readFull n.1 r) fun c r =>
        match Lzf.goDecompress c l.1 with
        | .ok s => (.ok s, r)
        | .err e => e.elim
        | .panic => (.panic, r)

/-- `rdb.LoadString`, rdb.go:98-172. -/
def loadString (r : Rd) : RRes Bytes × Rd :=
  andThen (loadLen r) fun l r =>
    if l.2 then
      if l.1 = 0 then andThen (readByte r) fun b r => (.ok (itoaInt b.toInt8.toInt), r)
      else if l.1 = 1 then andThen (readFull 2 r) fun b r => (.ok (natText (le b)), r)
      else if l.1 = 2 then
        match readFull 4 r with
        | (.ok b, r) => (.ok (natText (le b)), r)
        | (_, r) => (.panic, r)
      else if l.1 = 3 then loadLzf r
      else (.err .syntaxErr, r)
    else
      andThen (read l.1 r) fun d r => (.ok (d ++ List.replicate (l.1 - d.length) 0), r)

/-- `rdb.RNegInf`, `RPosInf`, `RNan` (rdb.go:179-182): `RZero` is 1.0, so these are -1 and 1. -/
def minusOne : F64 := F64.ofInt (-1)

/-- See `minusOne`. -/
def plusOne : F64 := F64.ofInt 1

/-- `rdb.LoadDouble`, rdb.go:184-206. -/
def loadDouble (r : Rd) : RRes F64 × Rd :=
  andThen (readByte r) fun l r =>
    if l = 255 then (.ok minusOne, r)
    else if l = 254 ∨ l = 253 then (.ok plusOne, r)
    else andThen (readFull l.toNat r) fun d r =>
      match parseFloat d with
      | some x => (.ok x, r)
      | none => (.err .syntaxErr, r)

/-- `rdb.LoadBinaryDouble`, rdb.go:208-220: the zero `f` is written to a buffer, nothing is decoded. -/
def loadBinaryDouble (r : Rd) : RRes F64 × Rd :=
  andThen (readFull 8 r) fun _ r => (.ok F64.zero, r)

/-- `n` calls of `LoadString` (replication.go:319-326, 343-349). -/
def loadStrings : Nat → Rd → RRes (List Bytes) × Rd
  | 0, r => (.ok [], r)
  | n + 1, r => andThen (loadString r) fun s r => andThen (loadStrings n r) fun ss r => (.ok (s :: ss), r)

/-- The members and scores of a sorted set, replication.go:367-386. -/
def loadScored (binary : Bool) : Nat → Rd → RRes (List Bytes) × Rd
  | 0, r => (.ok [], r)
  | n + 1, r =>
    andThen (loadString r) fun s r =>
      andThen (if binary then loadBinaryDouble r else loadDouble r) fun x r =>
        andThen (loadScored binary n r) fun ss r => (.ok (s :: formatFloat x :: ss), r)

/-- The fields and values of a hash, replication.go:403-415. -/
def loadPairs : Nat → Rd → RRes (List Bytes) × Rd
  | 0, r => (.ok [], r)
  | n + 1, r =>
    andThen (loadString r) fun f r =>
      andThen (loadString r) fun v r =>
        andThen (loadPairs n r) fun ss r => (.ok (f :: v :: ss), r)

/-- The nodes of a quicklist, replication.go:430-437. -/
def loadNodes : Nat → Rd → RRes (List Bytes) × Rd
  | 0, r => (.ok [], r)
  | n + 1, r =>
    andThen (loadString r) fun s r =>
      match ziplistLoad s with
      | none => (.panic, r)
      | some xs => andThen (loadNodes n r) fun ss r => (.ok (xs ++ ss), r)

/-- Turning a possibly panicking result into one that threads the reader. -/
def orPanic {α : Type} (x : Option α) (r : Rd) : RRes α × Rd :=
  match x with
  | some a => (.ok a, r)
  | none => (.panic, r)

/-- `list[2*i], list[2*i+1]` for `i < len(list)/2`, replication.go:482-484. -/
def evenPart {α : Type} : List α → List α
  | a :: b :: l => a :: b :: evenPart l
  | _ => []

/-- What the value part of a record leads to. -/
inductive Obj where
  /-- a command is sent -/
  | cmd (args : List Bytes)
  /-- an unknown type: nothing is read, nothing is sent -/
  | unknown
  /-- `err` was set, which ends the loop -/
  | stop
deriving DecidableEq

/-- The order in which Go's `range` visits a map, for the `n`-th message. -/
abbrev MapOrd := Nat → List (Bytes × Bytes) → List (Bytes × Bytes)

/-- The value of a record of type `op` for `key` (replication.go:296-527). -/
def loadObj (ord : MapOrd) (n : Nat) (op : UInt8) (key : Bytes) (r : Rd) : RRes Obj × Rd :=
  if op = 0 then andThen (loadString r) fun v r => (.ok (.cmd [b!"set", key, v]), r)
  else if op = 1 then
    andThen (loadLen r) fun l r => andThen (loadStrings l.1 r) fun vs r => (.ok (.cmd (b!"lPush" :: key :: vs)), r)
  else if op = 2 then
    andThen (loadLen r) fun l r => andThen (loadStrings l.1 r) fun vs r => (.ok (.cmd (b!"sAdd" :: key :: vs)), r)
  else if op = 3 ∨ op = 5 then
    andThen (loadLen r) fun l r =>
      andThen (loadScored (op = 5) l.1 r) fun vs r => (.ok (.cmd (b!"zAdd" :: key :: vs)), r)
  else if op = 4 then
    andThen (loadLen r) fun l r => andThen (loadPairs l.1 r) fun vs r => (.ok (.cmd (b!"zAdd" :: key :: vs)), r)
  else if op = 14 then
    andThen (loadLen r) fun l r => andThen (loadNodes l.1 r) fun vs r => (.ok (.cmd (b!"rPush" :: key :: vs)), r)
  else if op = 9 then
    andThen (loadString r) fun s r => andThen (orPanic (zipmapLoad s) r) fun m r =>
      (.ok (.cmd (b!"hmSet" :: key :: (ord n m).flatMap (fun p => [p.1, p.2]))), r)
  else if op = 11 then
    andThen (loadString r) fun s r => andThen (orPanic (intsetLoad s) r) fun xs r =>
      (.ok (.cmd (b!"sAdd" :: key :: xs.map itoa)), r)
  else if op = 12 then
    andThen (loadString r) fun s r => andThen (orPanic (ziplistLoad s) r) fun xs r =>
      (.ok (.cmd (b!"zAdd" :: key :: evenPart xs)), r)
  else if op = 13 then
    andThen (loadString r) fun s r => andThen (orPanic (ziplistLoad s) r) fun xs r =>
      (.ok (.cmd (b!"hmSet" :: key :: xs)), r)
  else if op = 10 then
    andThen (loadString r) fun s r => andThen (orPanic (ziplistLoad s) r) fun xs r =>
      (.ok (.cmd (b!"rPush" :: key :: xs)), r)
  else if op = 15 then andThen (loadLen r) fun _ r => (.ok .stop, r)
  else if op = 6 ∨ op = 7 then (.ok .stop, r)
  else (.ok .unknown, r)

/-- What one turn of the loop read. -/
inductive Rec where
  | expire (t : UInt64)
  | ignored
  | eof
  | select (db : Nat)
  | aux (key value : Bytes)
  | entry (key : Bytes) (o : Obj)
deriving DecidableEq

/-- One turn of the loop of `Load`, reading only (replication.go:190-527); the argument `n` is the
number of messages sent before. -/
def loadRec (ord : MapOrd) (n : Nat) (r : Rd) : RRes Rec × Rd :=
  andThen (readByte r) fun op r =>
    if op = 253 then
      andThen (readFull 4 r) fun b r => (.ok (.expire (UInt64.ofNat (le b * 1000 % 2 ^ 32))), r)
    else if op = 252 then andThen (readFull 8 r) fun b r => (.ok (.expire (UInt64.ofNat (le b))), r)
    else if op = 249 then andThen (readByte r) fun _ r => (.ok .ignored, r)
    else if op = 248 then andThen (loadLen r) fun _ r => (.ok .ignored, r)
    else if op = 255 then (.ok .eof, r)
    else if op = 254 then andThen (loadLen r) fun l r => (.ok (.select l.1), r)
    else if op = 251 then andThen (loadLen r) fun _ r => andThen (loadLen r) fun _ r => (.ok .ignored, r)
    else if op = 250 then
      andThen (loadString r) fun k r => andThen (loadString r) fun v r => (.ok (.aux k v), r)
    else if op = 247 then
      andThen (loadLen r) fun _ r => andThen (loadLen r) fun w r =>
        if w.1 = 2 then
          andThen (loadLen r) fun _ r => andThen (loadLen r) fun e r =>
            if e.1 = 0 then (.ok .ignored, r) else (.err .syntaxErr, r)
        else (.err .syntaxErr, r)
    else
      andThen (loadString r) fun key r =>
        if key = [] then (.err .syntaxErr, r)
        else andThen (loadObj ord n op key r) fun o r => (.ok (.entry key o), r)

/-- A message sent to `repl.Messages`: the database and the arguments of the command. -/
abbrev Sent := Int64 × List Bytes

/-- The variables of `Load` and the fields it changes. -/
structure LState where
  db : Int64
  expires : UInt64
  id : Bytes
  offset : Int64
  out : List Sent
deriving DecidableEq

/-- Sending a command for the selected database. -/
def LState.send (s : LState) (args : List Bytes) : LState := { s with out := s.out ++ [(s.db, args)] }

/-- `if expiresTime > 0 {…}`, replication.go:529-538. -/
def LState.sendExpire (s : LState) (key : Bytes) : LState :=
  if 0 < s.expires then
    { s.send [b!"pExpire", key, itoa s.expires.toInt64] with expires := 0 }
  else s

/-- How a turn ends: the loop goes on, or `Load` returns nil, or an error. -/
inductive After where
  | next (s : LState)
  | ret (s : LState)
  | fail (s : LState) (e : RErr)

/-- One turn of the loop, the effects of what was read. -/
def LState.apply (s : LState) : Rec → After
  | .expire t => .next { s with expires := t }
  | .ignored => .next s
  | .eof => .ret s
  | .select db => .next { s with db := Int64.ofNat db }
  | .aux k v =>
    if k = b!"repl-id" then .next { s with id := v }
    else if k = b!"repl-offset" then
      match atoi v with
      | some n => .next { s with offset := n }
      | none => .fail s .syntaxErr
    else .next s
  | .entry key (.cmd args) => .next ((s.send args).sendExpire key)
  | .entry key .unknown => .next (s.sendExpire key)
  | .entry key .stop => .ret (s.sendExpire key)

/-- The loop of `Load`, replication.go:189-540.  Every turn reads at least a byte, which bounds the
number of turns (`load_not_stuck`). -/
def loadLoop (ord : MapOrd) : Nat → LState → Rd → RRes Unit × LState
  | 0, s, _ => (.err .stuck, s)
  | f + 1, s, r =>
    match loadRec ord s.out.length r with
    | (.err e, _) => (.err e, s)
    | (.panic, _) => (.panic, s)
    | (.ok x, r) =>
      match s.apply x with
      | .next s => loadLoop ord f s r
      | .ret s => (.ok (), s)
      | .fail s e => (.err e, s)

/-- `(*Replication).Load`, replication.go:171-543, on an open file.  Sending never blocks here: the
capacity of `repl.Messages` is not modelled in this file. -/
def load (ord : MapOrd) (s : LState) (r : Rd) : RRes Unit × LState :=
  match read 9 r with
  | (.err e, _) => (.err e, s)
  | (.panic, _) => (.panic, s)
  | (.ok _, r) => loadLoop ord (r.flat.length + 1) { s with expires := 0 } r

end Verif.Rdb

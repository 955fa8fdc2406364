import Verif.FloatText
import Verif.Lzf.Spec
import Verif.Rdb.Pieces
import Verif.Rdb.PackedSpec

/-!
# The snapshot format of Redis (rdb.c), as encoders, and what a snapshot means

A specification.  It uses `Piece` only to mark which bytes are the payload of a plain string (`raw`);
`bytes` forgets the marks.
-/

namespace Verif.Rdb

/-! ## Lengths, strings, scores -/

/-- The four encodings of a length. -/
inductive LenEnc where
  | b6 | b14 | b32 | b64
deriving DecidableEq

/-- The lengths each of them can carry. -/
def LenEnc.limit : LenEnc → Nat
  | .b6 => 64
  | .b14 => 16384
  | .b32 => 2 ^ 32
  | .b64 => 2 ^ 64

/-- A length. -/
def LenEnc.pieces : LenEnc → Nat → List Piece
  | .b6, n => [.one (UInt8.ofNat n)]
  | .b14, n => [.one (UInt8.ofNat (64 + n / 256)), .one (UInt8.ofNat n)]
  | .b32, n => [.one 0x80, .full (beInt 4 n)]
  | .b64, n => [.one 0x81, .full (beInt 8 n)]

/-- A string in one of its encodings. -/
inductive StrEnc where
  | raw (l : LenEnc) (s : Bytes)
  | int8 (v : Int)
  | int16 (v : Int)
  | int32 (v : Int)
  | lzf (lc lu : LenEnc) (ts : List Lzf.Tok)

/-- The string. -/
def StrEnc.value : StrEnc → Bytes
  | .raw _ s => s
  | .int8 v | .int16 v | .int32 v => itoaInt v
  | .lzf _ _ ts => Lzf.denote ts

/-- The encoding is possible. -/
def StrEnc.Valid : StrEnc → Prop
  | .raw l s => s.length < l.limit
  | .int8 v => Signed 1 v
  | .int16 v => Signed 2 v
  | .int32 v => Signed 4 v
  | .lzf lc lu ts => ts ≠ [] ∧ Lzf.ValidFrom [] ts ∧ (Lzf.encodeAll ts).length < lc.limit ∧ (Lzf.denote ts).length < lu.limit

/-- The encoded string. -/
def StrEnc.pieces : StrEnc → List Piece
  | .raw l s => l.pieces s.length ++ [.raw s]
  | .int8 v => [.one 0xc0, .one (UInt8.ofNat (v % 256).toNat)]
  | .int16 v => [.one 0xc1, .full (leInt 2 v)]
  | .int32 v => [.one 0xc2, .full (leInt 4 v)]
  | .lzf lc lu ts => .one 0xc3 :: (lc.pieces (Lzf.encodeAll ts).length ++ (lu.pieces (Lzf.denote ts).length ++ [.full (Lzf.encodeAll ts)]))

/-- The 64 bits of a double. -/
def bits (x : F64) : Nat := (if x.neg then 2 ^ 63 else 0) + x.mag.val

/-- A score: as text, as one of three tags, or binary. -/
inductive DblEnc where
  | text (t : Bytes)
  | nan
  | posInf
  | negInf
  | binary (x : F64)

/-- The number a score stands for. -/
def DblEnc.value : DblEnc → Option F64
  | .text t => parseFloat t
  | .nan => some F64.nan
  | .posInf => some (F64.inf false)
  | .negInf => some (F64.inf true)
  | .binary x => some x

/-- The encoded score. -/
def DblEnc.pieces : DblEnc → List Piece
  | .text t => [.one (UInt8.ofNat t.length), .full t]
  | .nan => [.one 253]
  | .posInf => [.one 254]
  | .negInf => [.one 255]
  | .binary x => [.full (leInt 8 (bits x))]

/-! ## Values -/

/-- The value of a key. -/
inductive Data where
  | str (s : Bytes)
  | list (vs : List Bytes)
  | set (vs : List Bytes)
  | zset (vs : List (Bytes × F64))
  | hash (vs : List (Bytes × Bytes))

/-- A value in one of its encodings. -/
inductive Val where
  | str (v : StrEnc)
  | list (l : LenEnc) (vs : List StrEnc)
  | set (l : LenEnc) (vs : List StrEnc)
  | zset (l : LenEnc) (vs : List (StrEnc × Bytes))
  | zset2 (l : LenEnc) (vs : List (StrEnc × F64))
  | hash (l : LenEnc) (vs : List (StrEnc × StrEnc))
  | quicklist (l : LenEnc) (ns : List (StrEnc × Bytes × List (Bytes × ZVal)))
  | zipmap (e : StrEnc) (cnt : UInt8) (m : List (Bytes × Bytes × Bytes))
  | ziplist (e : StrEnc) (hdr : Bytes) (z : List (Bytes × ZVal))
  | intset (e : StrEnc) (w : Nat) (xs : List Int)
  | hashZiplist (e : StrEnc) (hdr : Bytes) (z : List (Bytes × ZVal))
  | zsetZiplist (e : StrEnc) (hdr : Bytes) (z : List (Bytes × ZVal))

/-- Neighbours as pairs. -/
def pairs {α : Type} : List α → List (α × α)
  | a :: b :: l => (a, b) :: pairs l
  | _ => []

/-- The value. -/
def Val.data : Val → Data
  | .str v => .str v.value
  | .list _ vs => .list (vs.map (·.value))
  | .set _ vs => .set (vs.map (·.value))
  | .zset _ vs => .zset (vs.map fun p => (p.1.value, (parseFloat p.2).getD F64.nan))
  | .zset2 _ vs => .zset (vs.map fun p => (p.1.value, p.2))
  | .hash _ vs => .hash (vs.map fun p => (p.1.value, p.2.value))
  | .quicklist _ ns => .list (ns.flatMap fun n => n.2.2.map (·.2.value))
  | .zipmap _ _ m => .hash (m.map fun e => (e.1, e.2.1))
  | .ziplist _ _ z => .list (z.map (·.2.value))
  | .intset _ _ xs => .set (xs.map itoaInt)
  | .hashZiplist _ _ z => .hash (pairs (z.map (·.2.value)))
  | .zsetZiplist _ _ z => .zset ((pairs (z.map (·.2.value))).map fun p => (p.1, (parseFloat p.2).getD F64.nan))

/-- Strings are encodable, containers are well formed and not empty, counts fit. -/
def Val.Valid : Val → Prop
  | .str v => v.Valid
  | .list l vs | .set l vs => vs ≠ [] ∧ vs.length < l.limit ∧ ∀ v ∈ vs, v.Valid
  | .zset l vs => vs ≠ [] ∧ vs.length < l.limit ∧ ∀ v ∈ vs, v.1.Valid ∧ v.2.length < 253 ∧ (parseFloat v.2).isSome
  | .zset2 l vs => vs ≠ [] ∧ vs.length < l.limit ∧ ∀ v ∈ vs, v.1.Valid
  | .hash l vs => vs ≠ [] ∧ vs.length < l.limit ∧ ∀ v ∈ vs, v.1.Valid ∧ v.2.Valid
  | .quicklist l ns => ns.length < l.limit ∧ (ns.flatMap (·.2.2)) ≠ [] ∧
      ∀ n ∈ ns, n.1.Valid ∧ n.1.value = encZiplist n.2.1 n.2.2 ∧ ZlValid n.2.1 n.2.2
  | .zipmap e cnt m => m ≠ [] ∧ e.Valid ∧ e.value = encZipmap cnt m ∧ ZmValid m
  | .ziplist e hdr z => z ≠ [] ∧ e.Valid ∧ e.value = encZiplist hdr z ∧ ZlValid hdr z
  | .intset e w xs => xs ≠ [] ∧ e.Valid ∧ e.value = encIntset w xs ∧ (w = 2 ∨ w = 4 ∨ w = 8) ∧ xs.length < 2 ^ 32 ∧ ∀ x ∈ xs, Signed w x
  | .hashZiplist e hdr z | .zsetZiplist e hdr z =>
      z ≠ [] ∧ z.length % 2 = 0 ∧ e.Valid ∧ e.value = encZiplist hdr z ∧ ZlValid hdr z

/-- The type byte. -/
def Val.tag : Val → UInt8
  | .str _ => 0
  | .list _ _ => 1
  | .set _ _ => 2
  | .zset _ _ => 3
  | .hash _ _ => 4
  | .zset2 _ _ => 5
  | .zipmap _ _ _ => 9
  | .ziplist _ _ _ => 10
  | .intset _ _ _ => 11
  | .zsetZiplist _ _ _ => 12
  | .hashZiplist _ _ _ => 13
  | .quicklist _ _ => 14

/-- The encoded value. -/
def Val.pieces : Val → List Piece
  | .str v => v.pieces
  | .list l vs | .set l vs => l.pieces vs.length ++ vs.flatMap (·.pieces)
  | .zset l vs => l.pieces vs.length ++ vs.flatMap fun p => p.1.pieces ++ [.one (UInt8.ofNat p.2.length), .full p.2]
  | .zset2 l vs => l.pieces vs.length ++ vs.flatMap fun p => p.1.pieces ++ DblEnc.pieces (.binary p.2)
  | .hash l vs => l.pieces vs.length ++ vs.flatMap fun p => p.1.pieces ++ p.2.pieces
  | .quicklist l ns => l.pieces ns.length ++ ns.flatMap (·.1.pieces)
  | .zipmap e _ _ | .ziplist e _ _ | .intset e _ _ | .hashZiplist e _ _ | .zsetZiplist e _ _ => e.pieces

/-! ## Files -/

/-- A record of a snapshot. -/
inductive Item where
  /-- deadline of the next key, in seconds -/
  | expireS (t : Nat)
  /-- deadline of the next key, in milliseconds -/
  | expireMs (t : Nat)
  | freq (b : UInt8)
  | idle (l : LenEnc) (n : Nat)
  | select (l : LenEnc) (db : Nat)
  | resize (l1 : LenEnc) (n1 : Nat) (l2 : LenEnc) (n2 : Nat)
  | aux (k v : StrEnc)
  | entry (k : StrEnc) (v : Val)

/-- The encoded record. -/
def Item.pieces : Item → List Piece
  | .expireS t => [.one 253, .full (leInt 4 t)]
  | .expireMs t => [.one 252, .full (leInt 8 t)]
  | .freq b => [.one 249, .one b]
  | .idle l n => .one 248 :: l.pieces n
  | .select l db => .one 254 :: l.pieces db
  | .resize l1 n1 l2 n2 => .one 251 :: (l1.pieces n1 ++ l2.pieces n2)
  | .aux k v => .one 250 :: (k.pieces ++ v.pieces)
  | .entry k v => .one v.tag :: (k.pieces ++ v.pieces)

/-- Well-formed records. -/
def Item.Valid : Item → Prop
  | .expireS t => 0 < t ∧ t < 2 ^ 32
  | .expireMs t => 0 < t ∧ t < 2 ^ 63
  | .freq _ => True
  | .idle l n => n < l.limit
  | .select l db => db < l.limit
  | .resize l1 n1 l2 n2 => n1 < l1.limit ∧ n2 < l2.limit
  | .aux k v => k.Valid ∧ v.Valid ∧ (k.value = b!"repl-offset" → (atoi v.value).isSome)
  | .entry k v => k.Valid ∧ v.Valid

/-- The header: "REDIS" and four digits. -/
def Header (h : Bytes) : Prop := h.length = 9

/-- A file: header, records, end marker (a checksum may follow). -/
def filePieces (hdr : Bytes) (items : List Item) : List Piece := .raw hdr :: (items.flatMap Item.pieces ++ [.one 255])

/-- A key of a snapshot: database, key, value, deadline in milliseconds. -/
structure KeyRec where
  db : Nat
  key : Bytes
  data : Data
  deadline : Option Nat

/-- What the records say, with the deadline announced for the next key and the selected database. -/
def meaning : Option Nat → Nat → List Item → List KeyRec
  | _, _, [] => []
  | _, db, .expireS t :: l => meaning (some (1000 * t)) db l
  | _, db, .expireMs t :: l => meaning (some t) db l
  | e, _, .select _ db :: l => meaning e db l
  | e, db, .entry k v :: l => ⟨db, k.value, v.data, e⟩ :: meaning none db l
  | e, db, .freq _ :: l => meaning e db l
  | e, db, .idle _ _ :: l => meaning e db l
  | e, db, .resize _ _ _ _ :: l => meaning e db l
  | e, db, .aux _ _ :: l => meaning e db l

/-! ## Commands and their effect -/

/-- The command that recreates a value (the names as this code base spells them; a server ignores
the case). -/
def recreate (key : Bytes) : Data → List Bytes
  | .str s => [b!"set", key, s]
  | .list vs => b!"rPush" :: key :: vs
  | .set vs => b!"sAdd" :: key :: vs
  | .zset vs => b!"zAdd" :: key :: vs.flatMap fun p => [formatFloat p.2, p.1]
  | .hash vs => b!"hmSet" :: key :: vs.flatMap fun p => [p.1, p.2]

/-- A value in a server. -/
inductive SVal where
  | str (s : Bytes)
  | list (vs : List Bytes)
  | set (m : Bytes → Bool)
  | zset (m : Bytes → Option F64)
  | hash (m : Bytes → Option Bytes)

/-- A database: values and deadlines (milliseconds). -/
structure SDb where
  val : Bytes → Option SVal
  deadline : Bytes → Option Int

/-- The empty database. -/
def SDb.empty : SDb := ⟨fun _ => none, fun _ => none⟩

/-- Letters to lower case. -/
def lower (s : Bytes) : Bytes := s.map lowerLetter

/-- Fields of a hash, later ones winning. -/
def putAll (m : Bytes → Option Bytes) : List (Bytes × Bytes) → Bytes → Option Bytes
  | [] => m
  | (f, v) :: l => putAll (upd m f (some v)) l

/-- Members of a sorted set, given as score and member. -/
def scoreAll (m : Bytes → Option F64) : List (Bytes × Bytes) → Option (Bytes → Option F64)
  | [] => some m
  | (s, v) :: l =>
    match parseFloat s with
    | some x => scoreAll (upd m v (some x)) l
    | none => none

/-- What a server does with a command at time `now` (milliseconds); commands not needed here, and
commands on a value of another kind, change nothing. -/
def exec (now : Int) (d : SDb) (args : List Bytes) : SDb :=
  match args with
  | [] => d
  | name :: rest =>
    if lower name = b!"set" then
      match rest with
      | [k, v] => ⟨upd d.val k (some (.str v)), upd d.deadline k none⟩
      | _ => d
    else if lower name = b!"rpush" then
      match rest with
      | k :: v :: vs =>
        match d.val k with
        | none => { d with val := upd d.val k (some (.list (v :: vs))) }
        | some (.list old) => { d with val := upd d.val k (some (.list (old ++ v :: vs))) }
        | some _ => d
      | _ => d
    else if lower name = b!"lpush" then
      match rest with
      | k :: v :: vs =>
        match d.val k with
        | none => { d with val := upd d.val k (some (.list (v :: vs).reverse)) }
        | some (.list old) => { d with val := upd d.val k (some (.list ((v :: vs).reverse ++ old))) }
        | some _ => d
      | _ => d
    else if lower name = b!"sadd" then
      match rest with
      | k :: v :: vs =>
        match d.val k with
        | none => { d with val := upd d.val k (some (.set fun x => (v :: vs).contains x)) }
        | some (.set old) => { d with val := upd d.val k (some (.set fun x => old x || (v :: vs).contains x)) }
        | some _ => d
      | _ => d
    else if lower name = b!"hmset" then
      match rest with
      | k :: v :: vs =>
        if (v :: vs).length % 2 = 0 then
          match d.val k with
          | none => { d with val := upd d.val k (some (.hash (putAll (fun _ => none) (pairs (v :: vs))))) }
          | some (.hash old) => { d with val := upd d.val k (some (.hash (putAll old (pairs (v :: vs))))) }
          | some _ => d
        else d
      | _ => d
    else if lower name = b!"zadd" then
      match rest with
      | k :: v :: vs =>
        if (v :: vs).length % 2 = 0 then
          match d.val k with
          | none =>
            match scoreAll (fun _ => none) (pairs (v :: vs)) with
            | some m => { d with val := upd d.val k (some (.zset m)) }
            | none => d
          | some (.zset old) =>
            match scoreAll old (pairs (v :: vs)) with
            | some m => { d with val := upd d.val k (some (.zset m)) }
            | none => d
          | some _ => d
        else d
      | _ => d
    else if lower name = b!"pexpire" then
      match rest with
      | [k, t] =>
        match atoi t, d.val k with
        | some t, some _ => { d with deadline := upd d.deadline k (some (now + t.toInt)) }
        | _, _ => d
      | _ => d
    else if lower name = b!"pexpireat" then
      match rest with
      | [k, t] =>
        match atoi t, d.val k with
        | some t, some _ => { d with deadline := upd d.deadline k (some t.toInt) }
        | _, _ => d
      | _ => d
    else d

/-- The value as it lives in a server. -/
def Data.live : Data → SVal
  | .str s => .str s
  | .list vs => .list vs
  | .set vs => .set fun x => vs.contains x
  | .zset vs => .zset (fun k => (vs.reverse.find? (·.1 = k)).map (·.2))
  | .hash vs => .hash (putAll (fun _ => none) vs)

end Verif.Rdb

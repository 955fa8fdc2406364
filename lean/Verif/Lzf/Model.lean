import Verif.Base

/-!
# LZF compression (redis/lzf/lzf_c.c, lzf_d.c, lzf.go)

Configuration of redis/lzf/lzfP.h on amd64: `HLOG 16`, `VERY_FAST 1`, `ULTRA_FAST 0`,
`STRICT_ALIGN 0`, `INIT_HTAB 0`, `LZF_STATE_ARG 0`, `CHECK_INPUT 1`, `LZF_USE_OFFSETS 1`.

Pointers into the input and output are offsets from `in_data` and `out_data`.  A C function returns
`fault` when it touches memory outside a buffer or reads an output byte it has not written (undefined
behaviour), `fail` when it executes `return 0`, and `ok` otherwise.  The unrolled `switch` copies are
loops; `errno` is not modelled.  Comparisons between pointers are comparisons of offsets; forming a
pointer outside a buffer without dereferencing it is not counted as a fault.
-/

namespace Verif.Lzf

/-- Outcome of (a part of) a C function. -/
inductive R (α : Type) where
  | fault
  | fail
  | ok (a : α)
deriving DecidableEq, Repr

namespace R

def bind {α β : Type} (r : R α) (f : α → R β) : R β :=
  match r with
  | fault => fault
  | fail => fail
  | ok a => f a

instance : Monad R where
  pure := .ok
  bind := R.bind

@[simp] theorem bind_ok {α β : Type} (a : α) (f : α → R β) : (R.ok a >>= f) = f a := rfl
@[simp] theorem bind_fault {α β : Type} (f : α → R β) : ((R.fault : R α) >>= f) = .fault := rfl
@[simp] theorem bind_fail {α β : Type} (f : α → R β) : ((R.fail : R α) >>= f) = .fail := rfl
@[simp] theorem pure_eq {α : Type} (a : α) : (pure a : R α) = .ok a := rfl

end R

/-- The output buffer: `cap` bytes, each written or not yet. -/
structure Mem where
  cap : Nat
  cell : Nat → Option UInt8

/-- A fresh buffer of `n` bytes. -/
def Mem.fresh (n : Nat) : Mem := ⟨n, fun _ => none⟩

/-- `out_data[i] = b`. -/
def Mem.wr (m : Mem) (i : Nat) (b : UInt8) : R Mem :=
  if i < m.cap then .ok { m with cell := fun j => if j = i then some b else m.cell j } else .fault

/-- Reading `out_data[i]`. -/
def Mem.rd (m : Mem) (i : Nat) : R UInt8 :=
  if i < m.cap then
    match m.cell i with
    | some b => .ok b
    | none => .fault
  else .fault

/-- The first `n` bytes as Go sees them (`make([]byte, n)` fills with zeroes first). -/
def Mem.bytes (m : Mem) (n : Nat) : Bytes := (List.range n).map (fun i => (m.cell i).getD 0)

/-- What the compiled code does when it reads beyond the end of its input: `none` is the strict
reading of the C standard (undefined behaviour), `some b` the reading in which the load happens to
yield the byte `b`. -/
abbrev Over := Option UInt8

/-- Reading `in_data[i]`. -/
def rdIn (over : Over) (inp : Bytes) (i : Nat) : R UInt8 :=
  match inp[i]? with
  | some b => .ok b
  | none => match over with
    | some b => .ok b
    | none => .fault

/-! ## The compressor (lzf_c.c) -/

/-- lzf_c.c:39, lzfP.h `HLOG`. -/
def hsize : Nat := 65536
/-- lzf_c.c:74. -/
def maxLit : Nat := 32
/-- lzf_c.c:75. -/
def maxOff : Nat := 8192
/-- lzf_c.c:76. -/
def maxRef : Nat := 264

/-- lzf_c.c:48, `FRST`. -/
def frst (over : Over) (inp : Bytes) (p : Nat) : R UInt32 := do
  let a ← rdIn over inp p
  let b ← rdIn over inp (p + 1)
  pure ((a.toUInt32 <<< 8) ||| b.toUInt32)

/-- lzf_c.c:49, `NEXT`. -/
def next (over : Over) (inp : Bytes) (v : UInt32) (p : Nat) : R UInt32 := do
  let c ← rdIn over inp (p + 2)
  pure ((v <<< 8) ||| c.toUInt32)

/-- lzf_c.c:53, `IDX` for `VERY_FAST`. -/
def idx (h : UInt32) : Nat := (((h >>> 8) - h * 5) &&& 0xffff).toNat

/-- The hash table: 65536 offsets, initially whatever was on the stack (lzf_c.c:107, 133-135). -/
abbrev HTab := Nat → UInt32

/-- `htab[i] = ip - in_data`. -/
def hset (t : HTab) (i : Nat) (ip : Nat) : R HTab :=
  if i < hsize then .ok (fun j => if j = i then UInt32.ofNat ip else t j) else .fault

/-- Reading `htab[i]`. -/
def hget (t : HTab) (i : Nat) : R Nat := if i < hsize then .ok (t i).toNat else .fault

/-- Local variables of `lzf_compress`. -/
structure CS where
  ip : Nat
  op : Nat
  lit : Nat
  hval : UInt32
  htab : HTab
  out : Mem

/-- `op [- lit - 1] = lit - 1` (lzf_c.c:171, 266, 281, 286). -/
def stopRun (out : Mem) (op lit : Nat) : R Mem :=
  if op < lit + 1 then .fault else out.wr (op - lit - 1) (UInt8.ofNat (lit + 255))

/-- `!lit`. -/
def notB (lit : Nat) : Nat := if lit = 0 then 1 else 0

/-- The unrolled comparisons, lzf_c.c:176-197: `k` of them are left; `true` if one of them left the
loop. -/
def scan (over : Over) (inp : Bytes) (ref ip : Nat) : Nat → Nat → R (Nat × Bool)
  | 0, len => .ok (len, false)
  | k + 1, len => do
    let a ← rdIn over inp (ref + (len + 1))
    let b ← rdIn over inp (ip + (len + 1))
    if a ≠ b then .ok (len + 1, true) else scan over inp ref ip k (len + 1)

/-- `do len++; while (len < maxlen && ref[len] == ip[len]);`, lzf_c.c:199-201. -/
def grow (over : Over) (inp : Bytes) (ref ip maxlen : Nat) : Nat → Nat → R Nat
  | 0, _ => .fault
  | fuel + 1, len =>
    if len + 1 < maxlen then do
      let a ← rdIn over inp (ref + (len + 1))
      let b ← rdIn over inp (ip + (len + 1))
      if a = b then grow over inp ref ip maxlen fuel (len + 1) else .ok (len + 1)
    else .ok (len + 1)

/-- The whole of lzf_c.c:174-204. -/
def matchLen (over : Over) (inp : Bytes) (ref ip maxlen : Nat) : R Nat := do
  if maxlen > 16 then
    let (len, broke) ← scan over inp ref ip 16 2
    if broke then .ok len else grow over inp ref ip maxlen (maxlen + 1) len
  else grow over inp ref ip maxlen (maxlen + 1) 2

/-- The test of lzf_c.c:148-159.  `ip - ref - 1` is computed in an unsigned 64-bit type, so it is huge
when `ref ≥ ip`. -/
def isMatch (over : Over) (inp : Bytes) (ref ip : Nat) : R Bool :=
  if ref < ip ∧ ip - ref - 1 < maxOff ∧ 0 < ref then do
    let r2 ← rdIn over inp (ref + 2)
    let i2 ← rdIn over inp (ip + 2)
    if r2 = i2 then
      let r0 ← rdIn over inp ref
      let r1 ← rdIn over inp (ref + 1)
      let i0 ← rdIn over inp ip
      let i1 ← rdIn over inp (ip + 1)
      pure (r0 = i0 ∧ r1 = i1)
    else pure false
  else pure false

/-- Writing a back reference, lzf_c.c:209-219; `len` is the number of octets minus 2. -/
def putRef (out : Mem) (op off len : Nat) : R (Mem × Nat) :=
  if len < 7 then do
    let out ← out.wr op (UInt8.ofNat ((off >>> 8) + (len <<< 5)))
    let out ← out.wr (op + 1) (UInt8.ofNat off)
    pure (out, op + 2)
  else do
    let out ← out.wr op (UInt8.ofNat ((off >>> 8) + (7 <<< 5)))
    let out ← out.wr (op + 1) (UInt8.ofNat (len - 7))
    let out ← out.wr (op + 2) (UInt8.ofNat off)
    pure (out, op + 3)

/-- The branch for a match, lzf_c.c:162-243; `true` stands for the `break` of line 226. -/
def onMatch (over : Over) (inp : Bytes) (s : CS) (ref : Nat) : R (CS × Bool) := do
  let off := s.ip - ref - 1
  let maxlen := if inp.length - s.ip - 2 > maxRef then maxRef else inp.length - s.ip - 2
  if s.op + 3 + 1 ≥ s.out.cap ∧ s.op - notB s.lit + 3 + 1 ≥ s.out.cap then .fail
  else
    let out ← stopRun s.out s.op s.lit
    let op := s.op - notB s.lit
    let n ← matchLen over inp ref s.ip maxlen
    let len := n - 2
    let (out, op) ← putRef out op off len
    let ip := s.ip + 1 + (len + 1)
    if ip + 2 ≥ inp.length then pure (⟨ip, op + 1, 0, s.hval, s.htab, out⟩, true)
    else
      let ip := ip - 2
      let h ← frst over inp ip
      let h ← next over inp h ip
      let t ← hset s.htab (idx h) ip
      let ip := ip + 1
      let h ← next over inp h ip
      let t ← hset t (idx h) ip
      let ip := ip + 1
      pure (⟨ip, op + 1, 0, h, t, out⟩, false)

/-- Copying one literal, `lit++; *op++ = *ip++` and the end of a full run, lzf_c.c:262-269, 277-283. -/
def copyLit (over : Over) (inp : Bytes) (s : CS) : R CS := do
  let b ← rdIn over inp s.ip
  let out ← s.out.wr s.op b
  if s.lit + 1 = maxLit then
    let out ← stopRun out (s.op + 1) (s.lit + 1)
    pure { s with ip := s.ip + 1, op := s.op + 2, lit := 0, out := out }
  else pure { s with ip := s.ip + 1, op := s.op + 1, lit := s.lit + 1, out := out }

/-- One turn of the main loop, lzf_c.c:142-270. -/
def turn (over : Over) (inp : Bytes) (s : CS) : R (CS × Bool) := do
  let h ← next over inp s.hval s.ip
  let ref ← hget s.htab (idx h)
  let t ← hset s.htab (idx h) s.ip
  let s := { s with hval := h, htab := t }
  if ← isMatch over inp ref s.ip then onMatch over inp s ref
  else if s.op ≥ s.out.cap then .fail
  else do
    let s ← copyLit over inp s
    pure (s, false)

/-- The main loop, lzf_c.c:140-270. -/
def mainLoop (over : Over) (inp : Bytes) : Nat → CS → R CS
  | 0, _ => .fault
  | fuel + 1, s =>
    if s.ip + 2 < inp.length then do
      let (s, stop) ← turn over inp s
      if stop then pure s else mainLoop over inp fuel s
    else pure s

/-- The last bytes, lzf_c.c:275-284. -/
def tailLoop (over : Over) (inp : Bytes) : Nat → CS → R CS
  | 0, _ => .fault
  | fuel + 1, s =>
    if s.ip < inp.length then do
      let s ← copyLit over inp s
      tailLoop over inp fuel s
    else pure s

/-- `lzf_compress (in_data, in_len, out_data, out_len)`, lzf_c.c:98-290: the number of bytes used and
the output buffer. -/
def compress (over : Over) (htab : HTab) (inp : Bytes) (outLen : Nat) : R (Nat × Mem) := do
  if inp.length = 0 ∨ outLen = 0 then .fail
  else
    let h ← frst over inp 0
    let s ← mainLoop over inp (inp.length + 1) ⟨0, 1, 0, h, htab, Mem.fresh outLen⟩
    if s.op + 3 > outLen then .fail
    else
      let s ← tailLoop over inp (inp.length + 1) s
      let out ← stopRun s.out s.op s.lit
      pure (s.op - notB s.lit, out)

/-! ## The decompressor (lzf_d.c) -/

/-- Local variables of `lzf_decompress`. -/
structure DS where
  ip : Nat
  op : Nat
  out : Mem

/-- `k` times `*op++ = *ip++`, lzf_d.c:93-103. -/
def copyIn (inp : Bytes) : Nat → DS → R DS
  | 0, s => .ok s
  | k + 1, s => do
    let b ← rdIn none inp s.ip
    let out ← s.out.wr s.op b
    copyIn inp k ⟨s.ip + 1, s.op + 1, out⟩

/-- `k` times `*op++ = *ref++`, lzf_d.c:163-165, 170-180. -/
def copyOut : Nat → Mem → Nat → Nat → R (Mem × Nat)
  | 0, m, op, _ => .ok (m, op)
  | k + 1, m, op, ref => do
    let b ← m.rd ref
    let m ← m.wr op b
    copyOut k m (op + 1) (ref + 1)

/-- `k` bytes read from `ref`. -/
def readN (m : Mem) (ref : Nat) : Nat → R Bytes
  | 0 => .ok []
  | k + 1 => do
    let b ← m.rd ref
    let bs ← readN m (ref + 1) k
    pure (b :: bs)

/-- Bytes written at `op`. -/
def writeAll (m : Mem) (op : Nat) : Bytes → R Mem
  | [] => .ok m
  | b :: bs => do
    let m ← m.wr op b
    writeAll m (op + 1) bs

/-- `memcpy (op, ref, len)`, undefined for overlapping areas. -/
def memcpy (m : Mem) (op ref len : Nat) : R Mem :=
  if ref + len ≤ op ∨ op + len ≤ ref then do
    let bs ← readN m ref len
    writeAll m op bs
  else .fault

/-- The copy of a back reference, lzf_d.c:149-181. -/
def copyRef (m : Mem) (op ref len : Nat) : R (Mem × Nat) :=
  if 9 < len then
    if op ≥ ref + (len + 2) then do
      let m ← memcpy m op ref (len + 2)
      pure (m, op + (len + 2))
    else copyOut (len + 2) m op ref
  else copyOut (len + 2) m op ref

/-- One turn of the loop, lzf_d.c:70-183. -/
def dturn (inp : Bytes) (s : DS) : R DS := do
  let c ← rdIn none inp s.ip
  let ctrl := c.toNat
  let ip := s.ip + 1
  if ctrl < 32 then
    let k := ctrl + 1
    if s.op + k > s.out.cap then .fail
    else if ip + k > inp.length then .fail
    else copyIn inp k ⟨ip, s.op, s.out⟩
  else
    let len := ctrl >>> 5
    if ip ≥ inp.length then .fail
    else
      let (len, ip) ← (if len = 7 then do
          let b ← rdIn none inp ip
          pure (len + b.toNat, ip + 1)
        else pure (len, ip) : R (Nat × Nat))
      if ip ≥ inp.length then .fail
      else
        let b ← rdIn none inp ip
        let ip := ip + 1
        if s.op + len + 2 > s.out.cap then .fail
        else if s.op < ((ctrl &&& 0x1f) <<< 8) + 1 + b.toNat then .fail
        else
          let (m, op) ← copyRef s.out s.op (s.op - (((ctrl &&& 0x1f) <<< 8) + 1 + b.toNat)) len
          pure ⟨ip, op, m⟩

/-- The loop `do … while (ip < in_end)`, lzf_d.c:68-185. -/
def dloop (inp : Bytes) : Nat → DS → R DS
  | 0, _ => .fault
  | fuel + 1, s => do
    let s ← dturn inp s
    if s.ip < inp.length then dloop inp fuel s else pure s

/-- `lzf_decompress (in_data, in_len, out_data, out_len)`, lzf_d.c:59-188. -/
def decompress (inp : Bytes) (outLen : Nat) : R (Nat × Mem) := do
  let s ← dloop inp (inp.length + 1) ⟨0, 0, Mem.fresh outLen⟩
  pure (s.op, s.out)

/-! ## The Go wrappers (lzf.go) -/

/-- `lzf.Compress`, lzf.go:11-20.  `&input[0]` panics on the empty string; `C.uint` truncates the
length to 32 bits.  `over` is the byte that happens to lie behind the string. -/
def goCompress (over : UInt8) (htab : HTab) (s : Bytes) : GoRes Empty Bytes :=
  if s = [] then .panic
  else
    match compress (some over) htab (s.take (s.length % 2 ^ 32)) (s.length % 2 ^ 32) with
    | .fault => .panic
    | .fail => .ok s
    | .ok (0, _) => .ok s
    | .ok (n, m) => .ok (m.bytes n)

/-- `lzf.DeCompress`, lzf.go:22-30.  A negative length panics in `make`, an empty input or output in
`&…[0]`. -/
def goDecompress (s : Bytes) (length : Int) : GoRes Empty Bytes :=
  if s = [] ∨ length ≤ 0 then .panic
  else
    match decompress (s.take (s.length % 2 ^ 32)) (length.toNat % 2 ^ 32) with
    | .fault => .panic
    | .fail => .ok s
    | .ok (0, _) => .ok s
    | .ok (_, m) => .ok (m.bytes length.toNat)

end Verif.Lzf

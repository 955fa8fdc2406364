import Verif.Base

/-!
# The LZF format, independently of the code

A stream is a sequence of tokens: a run of 1 to 32 literal bytes, or a back reference that copies 3 to
264 bytes from a distance of 1 to 8192 bytes behind the end of what was produced so far (the copy may
overlap its own output).  See the comment at redis/lzf/lzf_c.c:89-96.
-/

namespace Verif.Lzf

/-- A token. -/
inductive Tok where
  | lit (bs : Bytes)
  | ref (dist len : Nat)
deriving DecidableEq

/-- The output grows by the byte `dist` positions before its end, `k` times. -/
def copyFrom (out : Bytes) (dist : Nat) : Nat → Bytes
  | 0 => out
  | k + 1 => copyFrom (out ++ [out.getD (out.length - dist) 0]) dist k

/-- What a token adds to the output. -/
def apply (out : Bytes) : Tok → Bytes
  | .lit bs => out ++ bs
  | .ref dist len => copyFrom out dist len

/-- What a token sequence denotes, after `out` was produced. -/
def denoteFrom (out : Bytes) : List Tok → Bytes
  | [] => out
  | t :: ts => denoteFrom (apply out t) ts

/-- The bytes a token sequence denotes. -/
def denote (ts : List Tok) : Bytes := denoteFrom [] ts

/-- A token allowed after `out`. -/
def Valid (out : Bytes) : Tok → Prop
  | .lit bs => 1 ≤ bs.length ∧ bs.length ≤ 32
  | .ref dist len => 1 ≤ dist ∧ dist ≤ 8192 ∧ dist ≤ out.length ∧ 3 ≤ len ∧ len ≤ 264

/-- A token sequence allowed after `out`. -/
def ValidFrom (out : Bytes) : List Tok → Prop
  | [] => True
  | t :: ts => Valid out t ∧ ValidFrom (apply out t) ts

/-- The bytes of a token: `000LLLLL` and `L + 1` literals; `LLLooooo oooooooo` for `L + 2` octets at
distance `o + 1`; `111ooooo LLLLLLLL oooooooo` for `L + 9` octets. -/
def encode : Tok → Bytes
  | .lit bs => UInt8.ofNat (bs.length - 1) :: bs
  | .ref dist len =>
    if len < 9 then [UInt8.ofNat (32 * (len - 2) + (dist - 1) / 256), UInt8.ofNat ((dist - 1) % 256)]
    else [UInt8.ofNat (224 + (dist - 1) / 256), UInt8.ofNat (len - 9), UInt8.ofNat ((dist - 1) % 256)]

/-- The bytes of a token sequence. -/
def encodeAll (ts : List Tok) : Bytes := (ts.map encode).flatten

end Verif.Lzf

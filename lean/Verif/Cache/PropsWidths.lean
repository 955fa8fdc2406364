import Verif.Cache.PropsCounter
import Verif.Cache.PropsHash
/-!
# C15, C34 for stored integers of every width

The type switches of IncrBy and HIncrBy accept five integer types.  The API itself stores only some of
them; the statements here range over a cache that holds any.
-/
namespace Verif
open Cache

/-- The number a stored integer of any accepted width stands for. -/
def numberOf : Scalar → Option Int
  | .int n | .int64 n => some n.toInt
  | .int32 n => some n.toInt
  | .uint32 n => some n.toNat
  | .uint64 n => some n.toNat
  | _ => none

/-- The numbers the type of a stored integer can hold. -/
def Holds : Scalar → Int → Prop
  | .int32 _, m => -(2 ^ 31) ≤ m ∧ m < 2 ^ 31
  | .uint32 _, m => 0 ≤ m ∧ m < 2 ^ 32
  | .uint64 _, m => 0 ≤ m ∧ m < 2 ^ 64
  | _, m => -(2 ^ 63) ≤ m ∧ m < 2 ^ 63

theorem toNat_toUInt64 (n : Int64) : (n.toUInt64.toNat : Int) = n.toInt % 2 ^ 64 := by
  have h : n.toUInt64.toNat = n.toBitVec.toNat := rfl
  rw [h, ← Int64.toInt_toBitVec, BitVec.toInt_eq_toNat_cond]
  have := n.toBitVec.isLt
  split <;> omega

theorem toInt_toInt64 (n : UInt64) (h : n.toNat < 2 ^ 63) : n.toInt64.toInt = n.toNat := by
  have e : n.toInt64.toInt = n.toBitVec.toInt := rfl
  have e2 : n.toNat = n.toBitVec.toNat := rfl
  rw [e, BitVec.toInt_eq_toNat_cond, ← e2]
  split <;> omega

/-- The arithmetic of IncrBy on every width: the sum, in the type that was stored. -/
theorem incrScalar_width {v : Scalar} {old : Int} {n : Int64} (hv : numberOf v = some old) (hf : Holds v (old + n.toInt))
    (hlo : -(2 ^ 63) ≤ old + n.toInt) (hhi : old + n.toInt < 2 ^ 63) :
    ∃ w r, incrScalar n v = some (w, r) ∧ r.toInt = old + n.toInt ∧ numberOf w = some (old + n.toInt) := by
  have hn1 := Int64.le_toInt n
  have hn2 := Int64.toInt_lt n
  cases v with
  | int a =>
    simp only [numberOf, Option.some.injEq] at hv; subst hv
    have : (a + n).toInt = a.toInt + n.toInt := by rw [Int64.toInt_add, Int.bmod_eq_of_le (by omega) (by omega)]
    exact ⟨_, _, rfl, this, by simp [numberOf, this]⟩
  | int64 a =>
    simp only [numberOf, Option.some.injEq] at hv; subst hv
    have : (a + n).toInt = a.toInt + n.toInt := by rw [Int64.toInt_add, Int.bmod_eq_of_le (by omega) (by omega)]
    exact ⟨_, _, rfl, this, by simp [numberOf, this]⟩
  | int32 a =>
    simp only [numberOf, Option.some.injEq] at hv; subst hv
    have : (a + n.toInt32).toInt = a.toInt + n.toInt := by
      simp only [Holds] at hf
      rw [Int32.toInt_add, Int64.toInt_toInt32, Int.add_bmod_bmod, Int.bmod_eq_of_le (by omega) (by omega)]
    exact ⟨_, _, rfl, by rw [Int32.toInt_toInt64, this], by simp [numberOf, this]⟩
  | uint32 a =>
    simp only [numberOf, Option.some.injEq] at hv; subst hv
    have h64 := toNat_toUInt64 n
    have : ((a + n.toUInt64.toUInt32).toNat : Int) = a.toNat + n.toInt := by
      simp only [Holds] at hf
      rw [UInt32.toNat_add, UInt64.toNat_toUInt32]
      omega
    have h2 : ((a + n.toUInt64.toUInt32).toUInt64.toNat : Int) = a.toNat + n.toInt := by rw [UInt32.toNat_toUInt64, this]
    exact ⟨_, _, rfl, by rw [toInt_toInt64 _ (by omega), h2], by simp only [numberOf, this]⟩
  | uint64 a =>
    simp only [numberOf, Option.some.injEq] at hv; subst hv
    have h64 := toNat_toUInt64 n
    have : ((a + n.toUInt64).toNat : Int) = a.toNat + n.toInt := by
      simp only [Holds] at hf
      rw [UInt64.toNat_add]
      omega
    exact ⟨_, _, rfl, by rw [toInt_toInt64 _ (by omega), this], by simp only [numberOf, this]⟩
  | _ => simp [numberOf] at hv

theorem fmt_number {v : Scalar} {n : Int} (h : numberOf v = some n) (hn : n < 2 ^ 63) : fmtScalar v = itoaInt n := by
  cases v with
  | int32 a => simp [numberOf] at h; subst h; rw [fmtScalar, itoa, Int32.toInt_toInt64]
  | uint64 a => simp [numberOf] at h; subst h; rw [fmtScalar, itoa, toInt_toInt64 _ (by omega)]
  | _ => simp [numberOf] at h <;> subst h <;> rfl

/-- C15 for stored integers of every width: as long as the sum fits the width that is stored (and the answer, 64 bits),
a counter call returns old + n and Get then shows it. -/
theorem C15_width_partial (c : Cache) (k : Bytes) (v : Scalar) (old : Int) (n : Int64) (op : Call) (s t : Int)
    (hop : Adds k op n) (hc : c.data k = some (.scalar v)) (hv : numberOf v = some old) (hf : Holds v (old + n.toInt))
    (hlo : -(2 ^ 63) ≤ old + n.toInt) (hhi : old + n.toInt < 2 ^ 63) (hd : NotPassed c t k) :
    (exec c s op).2 = .int (.ok (old + n.toInt)) ∧
    getOut (exec c s op).1 t k = .str (.ok (itoaInt (old + n.toInt))) := by
  obtain ⟨w, r, h1, h2, h3⟩ := incrScalar_width hv hf hlo hhi
  have hi : c.incrBy k n = (c.store k (.scalar w), .ok r) := by simp [incrBy, hc, h1]
  rw [exec_adds hop, hi]
  refine ⟨by simp [GoRes.map, GoRes.bind, h2], ?_⟩
  rw [getOut_eq, liveVal_of_notPassed (show NotPassed (c.store k (.scalar w)) t k from hd)]
  simp [store, showVal, fmtString, fmt_number h3 hhi]

example : numberOf (.uint32 7) = some 7 ∧ Holds (.uint32 7) (7 + (-5 : Int64).toInt) ∧
    (exec { data := fun _ => some (.scalar (.uint32 7)), exp := fun _ => none } 0 (.incrBy b!"k" (-5))).2 = .int (.ok 2) :=
  ⟨rfl, ⟨by decide, by decide⟩, by decide +kernel⟩

/-- The arithmetic of HIncrBy on every width. -/
theorem hIncrScalar_width {v : Scalar} {old : Int} {n : Int64} (hv : numberOf v = some old) (hold : old < 2 ^ 63)
    (hlo : -(2 ^ 63) ≤ old + n.toInt) (hhi : old + n.toInt < 2 ^ 63) :
    ∃ r, hIncrScalar n v = .ok r ∧ r.toInt = old + n.toInt := by
  have add : ∀ a : Int64, a.toInt = old → (a + n).toInt = old + n.toInt := by
    intro a ha
    rw [Int64.toInt_add, ha, Int.bmod_eq_of_le (by omega) (by omega)]
  cases v with
  | int a => simp only [numberOf, Option.some.injEq] at hv; exact ⟨_, rfl, add a hv⟩
  | int64 a => simp only [numberOf, Option.some.injEq] at hv; exact ⟨_, rfl, add a hv⟩
  | int32 a => simp only [numberOf, Option.some.injEq] at hv; exact ⟨_, rfl, add _ (by rw [Int32.toInt_toInt64, hv])⟩
  | uint32 a =>
    simp only [numberOf, Option.some.injEq] at hv
    have := UInt32.toNat_lt a
    exact ⟨_, rfl, add _ (by rw [toInt_toInt64 _ (by rw [UInt32.toNat_toUInt64]; omega), UInt32.toNat_toUInt64, hv])⟩
  | uint64 a =>
    simp only [numberOf, Option.some.injEq] at hv
    exact ⟨_, rfl, add _ (by rw [toInt_toInt64 _ (by omega), hv])⟩
  | _ => simp [numberOf] at hv

/-- C34 for stored integers of every width: HIncrBy answers old + n.  Missing: the field then holds n. -/
theorem C34_width_partial (c : Cache) (k f : Bytes) (he : HashEntry) (v : Scalar) (old : Int) (n : Int64) (t : Int)
    (hc : liveVal c t k = some (.hash he)) (hh : hfind he.fields f = some v) (hv : numberOf v = some old) (hold : old < 2 ^ 63)
    (hlo : -(2 ^ 63) ≤ old + n.toInt) (hhi : old + n.toInt < 2 ^ 63) :
    (exec c t (.hIncrBy k f n)).2 = .int (.ok (old + n.toInt)) := by
  obtain ⟨r, h1, h2⟩ := hIncrScalar_width hv hold hlo hhi
  have : (c.hIncrBy t k f n).2 = .ok r := by
    unfold hIncrBy
    rw [withHash_snd, hc]
    simp only [asHash, GoRes.bind, Option.getD_some, hh, h1]
  simp [exec, this, GoRes.map, GoRes.bind, h2]

example : (exec { data := fun _ => some (.hash ⟨[(b!"f", .int32 7)], 1⟩), exp := fun _ => none } 0 (.hIncrBy b!"k" b!"f" 5)).2 =
    .int (.ok 12) := by decide +kernel

/-- C35 for stored numbers of every type: what HIncrByFloat answers.  The sum if the field holds an integer of any width, x if it holds the empty text,
an error for everything else, floats among it. -/
theorem C35_width_exact (c : Cache) (k f : Bytes) (he : HashEntry) (v : Scalar) (x : F64) (t : Int)
    (hc : liveVal c t k = some (.hash he)) (hh : hfind he.fields f = some v) :
    (exec c t (.hIncrByFloat k f x)).2 = .float (match numberOf v with
      | some old => .ok ((F64.ofInt old).add x)
      | none => if v = .str [] then .ok x else .err .hashNotFloat) := by
  have : (c.hIncrByFloat t k f x).2 = hIncrFloatScalar x v := by
    unfold hIncrByFloat
    rw [withHash_snd, hc]
    simp only [asHash, GoRes.bind, Option.getD_some, hh]
    cases hs : hIncrFloatScalar x v <;> rfl
  simp only [exec, this]
  cases v with
  | str u => by_cases hu : u = [] <;> simp [hIncrFloatScalar, numberOf, hu]
  | _ => simp [hIncrFloatScalar, numberOf]

/-- The largest unsigned number is not read as a negative one. -/
example : (exec { data := fun _ => some (.hash ⟨[(b!"f", .uint64 18446744073709551615)], 1⟩), exp := fun _ => none } 0
    (.hIncrByFloat b!"k" b!"f" (F64.ofInt 0))).2 = .float (.ok (F64.ofInt 18446744073709551615)) := by decide +kernel

/-- A number as the type of a stored integer keeps it. -/
def wrap : Scalar → Int → Int
  | .int32 _, m => m.bmod (2 ^ 32)
  | .uint32 _, m => m % 2 ^ 32
  | .uint64 _, m => m % 2 ^ 64
  | _, m => m.bmod (2 ^ 64)

theorem toInt_toInt64_bmod (n : UInt64) : n.toInt64.toInt = (n.toNat : Int).bmod (2 ^ 64) := by
  have e : n.toInt64.toInt = n.toBitVec.toInt := rfl
  have e2 : n.toNat = n.toBitVec.toNat := rfl
  rw [e, BitVec.toInt_eq_toNat_bmod, ← e2]

/-- The arithmetic of IncrBy on every width, also when the sum does not fit. -/
theorem incrScalar_wrap {v : Scalar} {old : Int} {n : Int64} (hv : numberOf v = some old) :
    ∃ w r, incrScalar n v = some (w, r) ∧ r.toInt = (wrap v (old + n.toInt)).bmod (2 ^ 64) ∧ numberOf w = some (wrap v (old + n.toInt)) := by
  cases v with
  | int a =>
    simp only [numberOf, Option.some.injEq] at hv; subst hv
    exact ⟨_, _, rfl, by simp only [wrap, Int.bmod_bmod]; exact Int64.toInt_add a n, by simp only [numberOf, wrap]; rw [Int64.toInt_add]⟩
  | int64 a =>
    simp only [numberOf, Option.some.injEq] at hv; subst hv
    exact ⟨_, _, rfl, by simp only [wrap, Int.bmod_bmod]; exact Int64.toInt_add a n, by simp only [numberOf, wrap]; rw [Int64.toInt_add]⟩
  | int32 a =>
    simp only [numberOf, Option.some.injEq] at hv; subst hv
    have : (a + n.toInt32).toInt = (a.toInt + n.toInt).bmod (2 ^ 32) := by rw [Int32.toInt_add, Int64.toInt_toInt32, Int.add_bmod_bmod]
    have h1 := Int32.le_toInt (a + n.toInt32)
    have h2 := Int32.toInt_lt (a + n.toInt32)
    refine ⟨_, _, rfl, ?_, by simp only [numberOf, wrap, this]⟩
    simp only [wrap]
    rw [Int32.toInt_toInt64, ← this, Int.bmod_eq_of_le (by omega) (by omega)]
  | uint32 a =>
    simp only [numberOf, Option.some.injEq] at hv; subst hv
    have h64 := toNat_toUInt64 n
    have : ((a + n.toUInt64.toUInt32).toNat : Int) = (a.toNat + n.toInt) % 2 ^ 32 := by
      rw [UInt32.toNat_add, UInt64.toNat_toUInt32]
      omega
    refine ⟨_, _, rfl, ?_, by simp only [numberOf, wrap, this]⟩
    rw [toInt_toInt64_bmod, UInt32.toNat_toUInt64, this]; rfl
  | uint64 a =>
    simp only [numberOf, Option.some.injEq] at hv; subst hv
    have h64 := toNat_toUInt64 n
    have : ((a + n.toUInt64).toNat : Int) = (a.toNat + n.toInt) % 2 ^ 64 := by
      rw [UInt64.toNat_add]
      omega
    refine ⟨_, _, rfl, ?_, by simp only [numberOf, wrap, this]⟩
    rw [toInt_toInt64_bmod, this]; rfl
  | _ => simp [numberOf] at hv

/-- C15 for stored values of every type: what a counter call answers and leaves.  The sum as the stored type keeps it, the answer as a signed 64-bit number; an
error and no change for what is not an integer, floats among it. -/
theorem C15_width_exact (c : Cache) (k : Bytes) (v : Scalar) (n : Int64) (op : Call) (t : Int) (hop : Adds k op n)
    (hc : c.data k = some (.scalar v)) :
    match numberOf v with
    | some old => (exec c t op).2 = .int (.ok ((wrap v (old + n.toInt)).bmod (2 ^ 64))) ∧
        ∃ w, (exec c t op).1 = c.store k (.scalar w) ∧ numberOf w = some (wrap v (old + n.toInt))
    | none => (exec c t op).2 = .int (.err .wrongType) ∧ (exec c t op).1 = c := by
  rw [exec_adds hop]
  cases hv : numberOf v with
  | none =>
    have : incrScalar n v = none := by cases v <;> simp [numberOf] at hv <;> rfl
    simp [incrBy, hc, this, GoRes.map, GoRes.bind]
  | some old =>
    obtain ⟨w, r, h1, h2, h3⟩ := incrScalar_wrap (n := n) hv
    have hi : c.incrBy k n = (c.store k (.scalar w), .ok r) := by simp [incrBy, hc, h1]
    rw [hi]
    exact ⟨by simp [GoRes.map, GoRes.bind, h2], w, rfl, h3⟩

/-- C34 for stored values of every type: what HIncrBy answers. -/
theorem C34_width_exact (c : Cache) (k f : Bytes) (he : HashEntry) (v : Scalar) (n : Int64) (t : Int)
    (hc : liveVal c t k = some (.hash he)) (hh : hfind he.fields f = some v) :
    (exec c t (.hIncrBy k f n)).2 = .int (match numberOf v with
      | some old => .ok ((old + n.toInt).bmod (2 ^ 64))
      | none => if v = .str [] then .ok n.toInt else .err .hashNotFloat) := by
  have : (c.hIncrBy t k f n).2 = hIncrScalar n v := by
    unfold hIncrBy
    rw [withHash_snd, hc]
    simp only [asHash, GoRes.bind, Option.getD_some, hh]
    cases hs : hIncrScalar n v <;> rfl
  simp only [exec, this]
  have add : ∀ a : Int64, ((a + n).toInt) = (a.toInt + n.toInt).bmod (2 ^ 64) := fun a => Int64.toInt_add a n
  cases v with
  | str u => by_cases hu : u = [] <;> simp [hIncrScalar, numberOf, hu, GoRes.map, GoRes.bind]
  | int a => simp only [hIncrScalar, numberOf, GoRes.map, GoRes.bind, add]
  | int64 a => simp only [hIncrScalar, numberOf, GoRes.map, GoRes.bind, add]
  | int32 a => simp only [hIncrScalar, numberOf, GoRes.map, GoRes.bind, add, Int32.toInt_toInt64]
  | uint32 a =>
    simp only [hIncrScalar, numberOf, GoRes.map, GoRes.bind, add, toInt_toInt64_bmod, UInt32.toNat_toUInt64, Int.bmod_add_bmod]
  | uint64 a => simp only [hIncrScalar, numberOf, GoRes.map, GoRes.bind, add, toInt_toInt64_bmod, Int.bmod_add_bmod]
  | _ => simp [hIncrScalar, numberOf, GoRes.map, GoRes.bind]

/-- An unsigned counter wraps below zero; the answer is then a signed number. -/
example : (exec { data := fun _ => some (.scalar (.uint64 0)), exp := fun _ => none } 0 (.decr b!"k")).2 = .int (.ok (-1)) ∧
    wrap (.uint64 0) (0 + (-1 : Int64).toInt) = 18446744073709551615 := ⟨by decide +kernel, by decide⟩

end Verif

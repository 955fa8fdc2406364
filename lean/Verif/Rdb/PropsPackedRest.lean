import Verif.Rdb.PackedRest
import Verif.Rdb.PropsZipmap

/-! # C124 - C126: the methods of packed containers that nothing calls -/

namespace Verif.Rdb

/-! ## C124: a packed map can be read, counted and shortened -/

/-- What a map holds after `Set` calls: the value set last. -/
def mapOf : List (Bytes × Bytes) → Bytes → Option Bytes
  | [], _ => none
  | (k, v) :: l, q => match mapOf l q with
    | some w => some w
    | none => if k = q then some v else none

theorem mapOf_none (l : List (Bytes × Bytes)) (q : Bytes) : mapOf l q = none ↔ q ∉ l.map (·.1) := by
  induction l with
  | nil => simp [mapOf]
  | cons p l ih =>
    obtain ⟨k, v⟩ := p
    simp only [mapOf, List.map_cons, List.mem_cons, not_or]
    cases h : mapOf l q with
    | some w =>
      refine ⟨(fun e => nomatch e), fun hn => ?_⟩
      rw [ih.2 hn.2] at h; cases h
    | none =>
      have := ih.1 h
      by_cases e : k = q
      · simp [e]
      · simp only [if_neg e, true_iff]
        exact ⟨Ne.symm e, this⟩

/-- The right answer of `Get`. -/
def rightGet (l : List (Bytes × Bytes)) (q : Bytes) : Bytes × Bool :=
  match mapOf l q with
  | some v => (v, true)
  | none => ([], false)

/-- The pairs set, without what lies behind the slice. -/
def plainSets (l : List (Bytes × Bytes × Bytes)) : List (Bytes × Bytes) := l.map fun x => (x.2.1, x.2.2)

/-- C124 is false of the code.  Exactly: after any `Set` calls, `Get` is right for the keys that were never set and
wrong for all others. -/
theorem C124_get_exact (l : List (Bytes × Bytes × Bytes)) (s : Bytes) (_h : zmSets zmNew l = some s) (q : Bytes) :
    zmGet s q = rightGet (plainSets l) q ↔ q ∉ l.map (·.2.1) := by
  have e : (plainSets l).map (·.1) = l.map (·.2.1) := by simp [plainSets, Function.comp_def]
  rw [← e, ← mapOf_none]
  unfold rightGet zmGet
  cases mapOf (plainSets l) q <;> simp

/-- … the method `Len` is right for the empty map only, … -/
theorem C124_len_exact (l : List (Bytes × Bytes × Bytes)) (s : Bytes) (_h : zmSets zmNew l = some s) :
    ((zmCount s).toInt = ((l.map (·.2.1)).eraseDups.length : Nat)) ↔ l = [] := by
  cases l with
  | nil => simp [zmCount]
  | cons x l => simp [zmCount, List.eraseDups_cons]; omega

/-- … `BlobLen` is always wrong, … -/
theorem C124_violated_blobLen (l : List (Bytes × Bytes × Bytes)) (s : Bytes) (h : zmSets zmNew l = some s) :
    (zmBlobLen s).toInt ≠ s.length := by
  have : 0 < s.length := by
    have := C73_count_partial l s h
    cases s with
    | nil => simp at this
    | cons a s => simp
  show (0 : Int64).toInt ≠ _
  rw [Int64.toInt_zero]
  omega

/-- … an iteration yields nothing, which is right for the empty map only, … -/
theorem C124_iterate_exact (l : List (Bytes × Bytes × Bytes)) (s : Bytes) (_h : zmSets zmNew l = some s) (n : Nat) (hn : 0 < n) :
    (zmWalk n (zmIterate s)).length = 2 * (l.map (·.2.1)).eraseDups.length ↔ l = [] := by
  have hw : zmWalk n (zmIterate s) = [] := by
    cases n with
    | zero => rfl
    | succ n => rfl
  rw [hw]
  cases l with
  | nil => simp
  | cons x l => simp [List.eraseDups_cons]

/-- … and the first key put in is still found after `Del`. -/
theorem C124_violated_del (sp k v : Bytes) (hk : k.length < 2 ^ 32) (later : List (Bytes × Bytes × Bytes)) (s sp' : Bytes)
    (h : zmSets zmNew ((sp, k, v) :: later) = some s) : ∃ n, zmLookup (zmDel s k) sp' k = some (n, true) :=
  C73_first_found_partial sp k v hk later s sp' h

/-- A map the statements speak of. -/
example : zmSets zmNew [([], b!"a", b!"v"), ([], b!"b", b!"w")] = some [2, 1, 97, 1, 118, 1, 98, 1, 119, 255] ∧
    rightGet (plainSets [([], b!"a", b!"v"), ([], b!"b", b!"w"), ([], b!"a", b!"x")]) b!"a" = (b!"x", true) := by decide +kernel

/-! ## C125: `zipmap.Len` tells what an entry takes -/

/-- C125: `Len` is the number of bytes of an entry of the format, … -/
theorem C125_format_partial (k v : Bytes) : zmEntryLen k v = (encZmEnt (k, v, [])).length := by
  unfold zmEntryLen encZmEnt
  simp only [List.length_append, encZmLen_length, List.length_cons, List.length_nil]
  unfold zlen
  split <;> split <;> split <;> split <;> omega

/-- … but `Set` never makes a map longer by that much: it always adds one byte less, as it leaves out the byte that counts
the unused ones. -/
theorem C125_violated (s spare k v s' : Bytes) (n : Nat) (hs : s ≠ []) (hl : zmLookup s spare k = some (n, false))
    (h : zmSet s spare k v = some s') : s'.length + 1 = s.length + zmEntryLen k v := by
  have hz : ∀ m, (zmLenBytes m).length = if 254 ≤ m then 5 else 1 := by
    intro m; unfold zmLenBytes; split <;> simp [leBytes]
  simp only [zmSet, hl, Option.bind_eq_bind, Option.bind_some, Bool.false_eq_true, if_false] at h
  have hlen : (s.dropLast ++ (zmLenBytes k.length ++ k ++ (zmLenBytes v.length ++ v)) ++ [255]).length + 1 = s.length + zmEntryLen k v := by
    have : 0 < s.length := List.length_pos_iff.2 hs
    simp only [List.length_append, List.length_dropLast, hz, List.length_cons, List.length_nil, zmEntryLen]
    split <;> split <;> omega
  generalize s.dropLast ++ (zmLenBytes k.length ++ k ++ (zmLenBytes v.length ++ v)) ++ [255] = x at h hlen
  cases x with
  | nil => cases h
  | cons c t =>
    simp only at h
    split at h <;> (cases h; exact hlen)

/-- The hypotheses are met, with short and with long texts. -/
example : zmLookup zmNew [] b!"a" = some (2, false) ∧ (zmSet zmNew [] b!"a" b!"v").map List.length = some 6 ∧ zmEntryLen b!"a" b!"v" = 5 ∧
    (zmSet zmNew [] (List.replicate 254 0) b!"v").map List.length = some 263 ∧ zmEntryLen (List.replicate 254 0) b!"v" = 262 := by
  decide +kernel

/-! ## C126: a packed list tells how many elements it has -/

/-- The header Redis writes: total size, offset of the last element, number of elements (65535 stands for more). -/
def zlHeader (total tail n : Nat) : Bytes := leInt 4 total ++ leInt 4 tail ++ leInt 2 ((min n 65535 : Nat) : Int)

/-- C126: the length of a packed list is the number of its elements, or 65535 if there are more, whatever its elements
are and however they are encoded. -/
theorem C126_length (total tail : Nat) (es : List (Bytes × ZVal)) :
    zlLength (encZiplist (zlHeader total tail es.length) es) = some (min es.length 65535) := by
  unfold zlLength encZiplist zlHeader
  rw [show leInt 4 (total : Int) ++ leInt 4 tail ++ leInt 2 ((min es.length 65535 : Nat) : Int) ++ encZEnts es ++ [255] =
    (leInt 4 (total : Int) ++ leInt 4 tail) ++ leInt 2 ((min es.length 65535 : Nat) : Int) ++ (encZEnts es ++ [255]) by simp]
  rw [slice_mid (by simp [leInt]) (by simp [leInt])]
  simp only [Option.bind_eq_bind, Option.bind_some, Option.pure_def]
  congr 1
  have := le_leInt 2 ((min es.length 65535 : Nat) : Int)
  omega

/-- C126 and `Load`: where a list is loaded right, its length is that of what was loaded. -/
theorem C126_loaded (total tail : Nat) (es : List (Bytes × ZVal)) (hv : ∀ e ∈ es, PrevField e.1 ∧ e.2.Valid) (ha : ∀ e ∈ es, Aligned e.2)
    (hn : es.length ≤ 65535) : ∃ l, ziplistLoad (encZiplist (zlHeader total tail es.length) es) = some l ∧
      zlLength (encZiplist (zlHeader total tail es.length) es) = some l.length := by
  refine ⟨_, ziplistLoad_at ⟨by simp [zlHeader, leInt], hv⟩ ha, ?_⟩
  rw [C126_length, Nat.min_eq_left hn, List.length_map]

/-- C126: it panics exactly on texts too short for a header. -/
theorem C126_panics_exact (s : Bytes) : zlLength s = none ↔ s.length < 10 := by
  unfold zlLength slice
  split <;> simp <;> omega

example : zlLength (encZiplist (zlHeader 20 17 2) [([0], .str6 b!"field"), ([7], .imm 12)]) = some 2 ∧
    ziplistLoad (encZiplist (zlHeader 20 17 2) [([0], .str6 b!"field"), ([7], .imm 12)]) = some [b!"field", b!"12"] := by decide +kernel

end Verif.Rdb

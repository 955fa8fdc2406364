import Verif.Rdb.PropsPacked
import Verif.Rdb.PropsLoad
import Verif.Rdb.PropsExact
import Verif.Resp.Lemmas
/-!
# Exactly which packed lists and strings come out right
-/
namespace Verif.Rdb

/-! ## C71: packed lists -/

theorem natText_lt (n : Nat) : n < 10 ^ (natText n).length := by
  have gen : ∀ (f n : Nat), n < f → n < 10 ^ (natTextAux f n).length := by
    intro f
    induction f with
    | zero => intro n h; omega
    | succ f ih =>
      intro n h
      unfold natTextAux
      split
      · simpa using by assumption
      · have := ih (n / 10) (by omega)
        simp only [List.length_append, List.length_singleton, Nat.pow_succ]
        omega
  exact gen _ _ (by omega)

theorem natText_last (n : Nat) : ∃ l b, natText n = l ++ [b] ∧ 48 ≤ b.toNat ∧ b.toNat ≤ 57 := by
  have h1 := natText_ne_nil n
  have h2 := natText_all_digits n
  refine ⟨_, _, (List.dropLast_concat_getLast h1).symm, ?_⟩
  have := List.all_eq_true.mp h2 _ (List.getLast_mem h1)
  simpa [isDigit, UInt8.le_iff_toNat_le] using this

theorem itoaInt_lt (v : Int) : v.natAbs < 10 ^ (itoaInt v).length ∧ ((itoaInt v).length = 1 → 0 ≤ v) := by
  have h := natText_lt v.natAbs
  unfold itoaInt
  split
  · refine ⟨?_, ?_⟩
    · rw [List.length_cons, Nat.pow_succ]
      generalize 10 ^ (natText v.natAbs).length = t at h ⊢
      omega
    · intro h1
      have := List.length_pos_iff.mpr (natText_ne_nil v.natAbs)
      rw [List.length_cons] at h1
      omega
  · exact ⟨h, fun _ => by omega⟩

theorem itoaInt_last (v : Int) : ∃ l b, itoaInt v = l ++ [b] ∧ 48 ≤ b.toNat ∧ b.toNat ≤ 57 := by
  obtain ⟨l, b, h, hb⟩ := natText_last v.natAbs
  unfold itoaInt
  split
  · exact ⟨45 :: l, b, by rw [h]; rfl, hb⟩
  · exact ⟨l, b, h, hb⟩

/-- The text of a number is never the first bytes of its binary form. -/
theorem text_ne_raw (v : Int) (k w : Nat) (hk : 1 ≤ k) (hkw : k ≤ w) (hk5 : k ≤ 5) : itoaInt v ≠ (leInt w v).take k := by
  intro h
  have hlen : (itoaInt v).length = k := by rw [h, List.length_take, leInt_length]; omega
  obtain ⟨l, b, hl, hb1, hb2⟩ := itoaInt_last v
  obtain ⟨h1, h2⟩ := itoaInt_lt v
  rw [hlen] at h1 h2
  have hll : l.length = k - 1 := by
    have := congrArg List.length hl
    rw [hlen] at this; simp at this; omega
  have hget : (itoaInt v)[k - 1]? = some b := by rw [hl, ← hll]; simp
  have hget2 : ((leInt w v).take k)[k - 1]? = some (UInt8.ofNat (v / 256 ^ (k - 1) % 256).toNat) := by
    rw [List.getElem?_take_of_lt (by omega), leInt, List.getElem?_map, List.getElem?_range (by omega)]
    rfl
  rw [h, hget2] at hget
  have hb : b = UInt8.ofNat (v / 256 ^ (k - 1) % 256).toNat := (Option.some.inj hget).symm
  have hbn : b.toNat = (v / 256 ^ (k - 1) % 256).toNat := by rw [hb, ofNat_toNat (by omega)]
  have : k = 1 ∨ k = 2 ∨ k = 3 ∨ k = 4 ∨ k = 5 := by omega
  rcases this with rfl | rfl | rfl | rfl | rfl <;> simp at h1 hbn h2 <;> omega

theorem slice_length {s str : Bytes} {a b : Nat} (h : slice s a b = some str) : str.length = b - a := by
  unfold slice at h
  split at h
  · injection h with h; subst h
    rw [List.length_take, List.length_drop]; omega
  · simp at h

/-- Nothing `Iterator.entry` gives back is longer than 255 bytes. -/
theorem entry_short {s : Bytes} {pos size length : Nat} {str : Bytes} (h : zlEntry s pos = some (size, length, str)) : str.length ≤ 255 := by
  unfold zlEntry at h
  cases hb : s[pos]? with
  | none => simp [hb] at h
  | some b =>
    simp only [hb, Option.bind_eq_bind, Option.bind_some, Option.pure_def] at h
    obtain ⟨⟨sz, ln, imm⟩, hX, h⟩ := Option.bind_eq_some_iff.mp h
    have hx : ln ≤ 255 ∧ imm.length ≤ 255 := by
      have hbt : ∀ c : UInt8, c.toNat ≤ 255 := fun c => by have := c.toNat_lt; omega
      have hd : ∀ n, n < 16 → (natText n).length ≤ 255 := by decide
      repeat' split at hX
      all_goals simp only [Option.some.injEq, Prod.mk.injEq, Option.bind_eq_some_iff, reduceCtorEq] at hX
      · obtain ⟨_, rfl, rfl⟩ := hX; exact ⟨by omega, by simp⟩
      · obtain ⟨c, _, _, rfl, rfl⟩ := hX; exact ⟨hbt c, by simp⟩
      · obtain ⟨_, _, _, _, _, _, c, _, _, rfl, rfl⟩ := hX; exact ⟨hbt c, by simp⟩
      · obtain ⟨_, rfl, rfl⟩ := hX; exact ⟨by omega, by simp⟩
      · obtain ⟨_, rfl, rfl⟩ := hX; exact ⟨by omega, by simp⟩
      · obtain ⟨_, rfl, rfl⟩ := hX; exact ⟨by omega, by simp⟩
      · obtain ⟨_, rfl, rfl⟩ := hX; exact ⟨by omega, by simp⟩
      · obtain ⟨_, rfl, rfl⟩ := hX; exact ⟨by omega, by simp⟩
      · obtain ⟨_, rfl, rfl⟩ := hX; exact ⟨by omega, hd _ (by omega)⟩
    split at h
    · obtain ⟨y, hs, h⟩ := Option.bind_eq_some_iff.mp h
      simp only [Option.some.injEq, Prod.mk.injEq] at h
      obtain ⟨_, _, rfl⟩ := h
      rw [slice_length hs]; omega
    · simp only [Option.some.injEq, Prod.mk.injEq] at h
      obtain ⟨_, _, rfl⟩ := h
      exact hx.2

/-- What the loader makes of a 64 bit integer: its first five bytes. -/
theorem entry_int64 {pre post : Bytes} {v : Int} {size length : Nat} {str : Bytes}
    (h : zlEntry (pre ++ (ZVal.int64 v).enc ++ post) pre.length = some (size, length, str)) : str = (leInt 8 v).take 5 := by
  have g0 : (pre ++ (ZVal.int64 v).enc ++ post)[pre.length]? = some 0xe0 := by
    rw [List.append_assoc]; exact get_mid rfl
  have hs : slice (pre ++ (ZVal.int64 v).enc ++ post) (pre.length + 1) (pre.length + 5 + 1) = some ((leInt 8 v).take 5) := by
    have e : pre ++ (ZVal.int64 v).enc ++ post = (pre ++ [0xe0]) ++ (leInt 8 v).take 5 ++ ((leInt 8 v).drop 5 ++ post) := by
      simp [ZVal.enc]
      rw [← List.append_assoc ((leInt 8 v).take 5), List.take_append_drop]
    rw [e]
    exact slice_mid (by simp) (by simp)
  unfold zlEntry at h
  simp only [g0, Option.bind_eq_bind, Option.bind_some, Option.pure_def] at h
  simp (decide := true) only [if_true, if_false, Option.bind_some, hs, Option.some.injEq, Prod.mk.injEq] at h
  exact h.2.2.symm

/-- A list that is loaded right has only elements the loader keeps in step with and reads right. -/
theorem zlLoop_right {es : List (Bytes × ZVal)} (he : ∀ e ∈ es, PrevField e.1 ∧ e.2.Valid) {pre post : Bytes} {fuel : Nat}
    (h : zlLoop (pre ++ (encZEnts es ++ 255 :: post)) fuel pre.length = some (es.map (·.2.value))) :
    ∀ e ∈ es, Aligned e.2 ∧ seen e.2 = e.2.value := by
  induction es generalizing pre fuel with
  | nil => simp
  | cons e es ih =>
    obtain ⟨p, v⟩ := e
    cases fuel with
    | zero => simp [zlLoop] at h
    | succ fuel =>
      obtain ⟨hp, hv⟩ := he (p, v) (by simp)
      simp only at hp hv
      have hrest := fun e h => he e (List.mem_cons_of_mem _ h)
      have e1 : pre ++ (encZEnts ((p, v) :: es) ++ 255 :: post) = pre ++ p ++ (v.enc ++ (encZEnts es ++ 255 :: post)) := by
        simp [encZEnts]
      have e2 : pre ++ (encZEnts ((p, v) :: es) ++ 255 :: post) = (pre ++ p) ++ v.enc ++ (encZEnts es ++ 255 :: post) := by
        simp [encZEnts]
      have e3 : pre ++ (encZEnts ((p, v) :: es) ++ 255 :: post) = (pre ++ p ++ v.enc) ++ (encZEnts es ++ 255 :: post) := by
        simp [encZEnts]
      obtain ⟨h1, h2, h3⟩ := prev_size (pre := pre) (post := v.enc ++ (encZEnts es ++ 255 :: post)) hp rfl
      rw [← e1] at h1 h2 h3
      obtain ⟨b, hb⟩ := Option.isSome_iff_exists.mp h3
      have hb' : b ≠ 255 := by intro e; rw [hb, e] at h2; exact h2 rfl
      simp only [zlLoop, hb, Option.bind_eq_bind, Option.bind_some, if_neg hb', h1] at h
      cases hz : zlEntry (pre ++ (encZEnts ((p, v) :: es) ++ 255 :: post)) (pre.length + p.length) with
      | none => rw [hz] at h; simp at h
      | some y =>
        obtain ⟨size, length, str⟩ := y
        rw [hz] at h
        simp only [Option.bind_some] at h
        cases hr : zlLoop (pre ++ (encZEnts ((p, v) :: es) ++ 255 :: post)) fuel (pre.length + p.length + (length + size)) with
        | none => rw [hr] at h; simp at h
        | some rest =>
          rw [hr] at h
          simp only [Option.bind_some, Option.pure_def, List.map_cons, Option.some.injEq, List.cons.injEq] at h
          obtain ⟨hstr, hre⟩ := h
          subst hre
          have hlen : v.value.length ≤ 255 := hstr ▸ entry_short hz
          have hal : Aligned v := by
            cases v with
            | str14 s => exact Nat.lt_succ_of_le hlen
            | str32 s => exact Nat.lt_succ_of_le hlen
            | int64 v =>
              rw [e2, ← List.length_append] at hz
              have := entry_int64 hz
              exact absurd (hstr.symm.trans this) (text_ne_raw v 5 8 (by omega) (by omega) (by omega))
            | _ => trivial
          obtain ⟨size', length', h4, h5⟩ := entry_at (pre := pre ++ p) (post := encZEnts es ++ 255 :: post) hv hal
          rw [← e2, List.length_append, hz] at h4
          simp only [Option.some.injEq, Prod.mk.injEq] at h4
          obtain ⟨rfl, rfl, h6⟩ := h4
          rw [h5, e3, ← List.length_append, ← List.length_append] at hr
          intro e hm
          rcases List.mem_cons.mp hm with rfl | hm
          · exact ⟨hal, h6.symm.trans hstr⟩
          · exact ih hrest hr e hm

theorem take_own {b : UInt8} {s : Bytes} : (b :: s).take s.length = s ↔ s = List.replicate s.length b := by
  induction s generalizing b with
  | nil => simp
  | cons c t ih =>
    rw [List.length_cons, List.take_succ_cons, List.replicate_succ, List.cons.injEq, List.cons.injEq]
    constructor
    · rintro ⟨rfl, h⟩; exact ⟨rfl, ih.mp h⟩
    · rintro ⟨rfl, h⟩; exact ⟨rfl, ih.mpr h⟩

theorem take_own4 {p s : Bytes} (hp : p.length = 4) : (p ++ s).take s.length = s ↔ ∀ i b, s[i]? = some b → p[i % 4]? = some b := by
  have key : ∀ i, i < s.length → ((p ++ s).take s.length)[i]? = if i < 4 then p[i]? else s[i - 4]? := by
    intro i hi
    rw [List.getElem?_take_of_lt hi]
    split
    · rw [List.getElem?_append_left (by omega)]
    · rw [List.getElem?_append_right (by omega), hp]
  constructor
  · intro h i
    induction i using Nat.strongRecOn with
    | _ i ih =>
      intro b hb
      have hi : i < s.length := (List.getElem?_eq_some_iff.mp hb).1
      have hk := key i hi
      rw [h, hb] at hk
      split at hk
      · rw [Nat.mod_eq_of_lt (by omega)]; exact hk.symm
      · have := ih (i - 4) (by omega) b hk.symm
        rwa [show (i - 4) % 4 = i % 4 by omega] at this
  · intro h
    apply List.ext_getElem?
    intro i
    by_cases hi : i < s.length
    · rw [key i hi]
      have hb := List.getElem?_eq_getElem hi
      split
      · have := h i _ hb
        rw [Nat.mod_eq_of_lt (by omega)] at this
        rw [this, hb]
      · have h4 : i - 4 < s.length := by omega
        have hb4 := List.getElem?_eq_getElem h4
        have h1 := h i _ hb
        have h2 := h (i - 4) _ hb4
        rw [show (i - 4) % 4 = i % 4 by omega, h1] at h2
        rw [hb, hb4, h2]
    · rw [List.getElem?_eq_none (by simp; omega), List.getElem?_eq_none (by omega)]

/-- The elements that come out right: texts up to 63 bytes, the integers 0 to 12 in their short form, a longer text of fewer
than 256 bytes that consists of its length byte alone, and one of them that repeats three zero bytes and its length byte. -/
def Kept : ZVal → Prop
  | .str6 _ | .imm _ => True
  | .str14 s => s.length < 256 ∧ s = List.replicate s.length (UInt8.ofNat s.length)
  | .str32 s => s.length < 256 ∧ ∀ i b, s[i]? = some b → b = if i % 4 = 3 then UInt8.ofNat s.length else 0
  | _ => False

theorem kept_iff {v : ZVal} : Aligned v ∧ seen v = v.value ↔ Kept v := by
  cases v with
  | str6 s => simp [Aligned, seen, ZVal.value, Kept]
  | imm n => simp [Aligned, seen, ZVal.value, Kept]
  | str14 s => exact and_congr_right fun _ => take_own
  | str32 s =>
    refine and_congr_right fun hl => (take_own4 (by simp)).trans ?_
    have hbe : beInt 4 (s.length : Int) = [0, 0, 0, UInt8.ofNat s.length] := by
      have hl : s.length < 256 := hl
      have h0 : (s.length : Int) / 256 = 0 := by omega
      have h1 : ((s.length : Int) % 256).toNat = s.length := by omega
      unfold beInt
      rw [leInt_succ, leInt_succ, leInt_succ, leInt_succ, leInt_zero, h0, h1]
      rfl
    rw [hbe]
    refine forall_congr' fun i => forall_congr' fun b => imp_congr_right fun _ => ?_
    have : i % 4 = 0 ∨ i % 4 = 1 ∨ i % 4 = 2 ∨ i % 4 = 3 := by omega
    rcases this with h | h | h | h <;> simp [h, eq_comm]
  | int8 v => exact ⟨fun h => text_ne_raw v 1 1 (by omega) (by omega) (by omega) (by rw [List.take_of_length_le (by simp)]; exact h.2.symm), False.elim⟩
  | int16 v => exact ⟨fun h => text_ne_raw v 2 2 (by omega) (by omega) (by omega) (by rw [List.take_of_length_le (by simp)]; exact h.2.symm), False.elim⟩
  | int24 v => exact ⟨fun h => text_ne_raw v 3 3 (by omega) (by omega) (by omega) (by rw [List.take_of_length_le (by simp)]; exact h.2.symm), False.elim⟩
  | int32 v => exact ⟨fun h => text_ne_raw v 4 4 (by omega) (by omega) (by omega) (by rw [List.take_of_length_le (by simp)]; exact h.2.symm), False.elim⟩
  | int64 v => exact ⟨fun h => h.1, False.elim⟩

/-- C71, exactly: a packed list is loaded as it was if and only if every element of it is one of those. -/
theorem C71_exact (hdr : Bytes) (es : List (Bytes × ZVal)) (hv : ZlValid hdr es) :
    ziplistLoad (encZiplist hdr es) = some (es.map (·.2.value)) ↔ ∀ e ∈ es, Kept e.2 := by
  constructor
  · intro h e he
    obtain ⟨h1, h2⟩ := hv
    refine kept_iff.mp (zlLoop_right h2 (pre := hdr) (post := []) (fuel := (encZiplist hdr es).length + 1) ?_ e he)
    rw [h1, ← h]
    unfold ziplistLoad
    simp [encZiplist]
  · intro h
    have h' := fun e he => kept_iff.mpr (h e he)
    rw [ziplistLoad_at hv fun e he => (h' e he).1]
    congr 1
    exact List.map_congr_left fun e he => (h' e he).2

/-- In particular no list with an integer other than 0 to 12 in its short form comes out right, whatever the integer. -/
theorem C71_no_integers_partial (hdr : Bytes) (es : List (Bytes × ZVal)) (hv : ZlValid hdr es) (p : Bytes) (v : Int)
    (h : (p, ZVal.int8 v) ∈ es ∨ (p, .int16 v) ∈ es ∨ (p, .int24 v) ∈ es ∨ (p, .int32 v) ∈ es ∨ (p, .int64 v) ∈ es) :
    ziplistLoad (encZiplist hdr es) ≠ some (es.map (·.2.value)) := by
  intro hr
  have := (C71_exact hdr es hv).mp hr
  rcases h with h | h | h | h | h <;> exact this _ h

/-- Both cases occur: `ab` and 7 come out right, a text of 64 bytes `@` (64 is the code of `@`) too, 64 bytes `a` do not. -/
example : (∀ e ∈ [([0], .str6 (b!"ab")), ([4], .imm 7), (([2], .str14 (List.replicate 64 64)) : Bytes × ZVal)], Kept e.2) ∧
    ziplistLoad (encZiplist (List.replicate 10 0) [([0], .str6 (b!"ab")), ([4], .imm 7), ([2], .str14 (List.replicate 64 64))]) =
      some [b!"ab", b!"7", List.replicate 64 64] ∧
    ¬ Kept (.str14 (List.replicate 64 97)) := by
  refine ⟨?_, by decide +kernel, ?_⟩
  · intro e he
    simp only [List.mem_cons, List.not_mem_nil, or_false] at he
    rcases he with rfl | rfl | rfl
    · trivial
    · trivial
    · exact ⟨by decide, by decide⟩
  · rintro ⟨_, h⟩
    exact absurd h (by decide)

/-! ## C64: plain strings and blocks -/

open Verif.Resp

theorem byte_step {r : Rd} (hw : r.WF) {b : UInt8} {f : Bytes} (hf : r.flat = b :: f) :
    ∃ r', readByte r = (.ok b, r') ∧ segs r' = sdrop 1 (segs r) ∧ r'.WF ∧ r'.flat = f ∧
      ((∀ c ∈ r.net, c.length ≤ bufSize) → ∀ c ∈ r'.net, c.length ≤ bufSize) := by
  have hfl := segs_flatten r
  rw [hf] at hfl
  cases hs : segs r with
  | nil => rw [hs] at hfl; simp at hfl
  | cons s ss =>
    have hne : s ≠ [] := segs_ne (r := r) s (by rw [hs]; simp)
    have hss : ∀ t ∈ ss, t ≠ [] := fun t ht => segs_ne (r := r) t (by rw [hs]; simp [ht])
    cases s with
    | nil => exact absurd rfl hne
    | cons c s =>
      rw [hs] at hfl
      simp only [List.flatten_cons, List.cons_append, List.cons.injEq] at hfl
      obtain ⟨rfl, hfl⟩ := hfl
      obtain ⟨r', h1, h2, h3, h4⟩ := readByte_segs hw hs
      refine ⟨r', h1, ?_, h3, ?_, h4⟩
      · rw [sdrop_cons (by simp) hss, h2]; rfl
      · rw [← segs_flatten, h2, consS_flatten, hfl]

/-- How much of the block in which it begins is left behind `k` bytes. -/
def left (k : Nat) (r : Rd) : Nat := ((sdrop k (segs r)).headD []).length

theorem loadLen_step {l : LenEnc} (hl : l.Supported) {n : Nat} (hn : n < l.limit) {f : Bytes} {r : Rd} (hw : r.WF)
    (hf : r.flat = bytes (l.pieces n) ++ f) :
    ∃ r', loadLen r = (.ok (n, false), r') ∧ segs r' = sdrop (bytes (l.pieces n)).length (segs r) ∧ r'.WF ∧ r'.flat = f ∧
      ((∀ c ∈ r.net, c.length ≤ bufSize) → ∀ c ∈ r'.net, c.length ≤ bufSize) := by
  rcases hl with rfl | rfl
  · have hn : n < 64 := hn
    have hb := ofNat_toNat (n := n) (by omega)
    obtain ⟨r', h1, h2, h3, h4, h5⟩ := byte_step hw hf
    refine ⟨r', ?_, h2, h3, h4, h5⟩
    simp only [loadLen, h1, andThen_ok, hb]
    rw [if_neg (by omega), if_pos (by omega), Nat.mod_eq_of_lt hn]
  · have hn : n < 16384 := hn
    have hb := ofNat_toNat (n := 64 + n / 256) (by omega)
    obtain ⟨r1, h1, h2, h3, h4, h5⟩ := byte_step hw hf
    obtain ⟨r2, g1, g2, g3, g4, g5⟩ := byte_step h3 h4
    refine ⟨r2, ?_, ?_, g3, g4, fun h => g5 (h5 h)⟩
    · simp only [loadLen, h1, andThen_ok, hb]
      rw [if_neg (by omega), if_neg (by omega), if_pos (by omega)]
      simp only [g1, UInt8.toNat_ofNat']
      congr 3
      omega
    · rw [g2, h2, sdrop_sdrop _ _ _ segs_ne]; rfl

/-- C64, the result in every case: of a plain string with a length of one or two bytes, the part in the block in which the
string begins is kept, the rest becomes zeros, and the reader goes on behind the part that was kept.  (As everywhere, a
string of 4096 bytes or more must come in chunks that fit into the buffer.) -/
theorem C64_result (l : LenEnc) (hl : l = .b6 ∨ l = .b14) (s : Bytes) (hs : s.length < l.limit) (rest : Bytes) (r : Rd) (hw : r.WF)
    (hf : r.flat = bytes (StrEnc.pieces (.raw l s)) ++ rest) (hc : (∀ c ∈ r.net, c.length ≤ bufSize) ∨ s.length < bufSize) :
    ∃ r', loadString r = (.ok (s.take (left (bytes (l.pieces s.length)).length r) ++
        List.replicate (s.length - left (bytes (l.pieces s.length)).length r) 0), r') ∧
      r'.flat = s.drop (left (bytes (l.pieces s.length)).length r) ++ rest := by
  have hf' : r.flat = bytes (l.pieces s.length) ++ (s ++ rest) := by
    rw [hf]; simp [StrEnc.pieces, Piece.bytes]
  obtain ⟨r1, h1, h2, h3, h4, h5⟩ := loadLen_step hl hs hw hf'
  unfold left
  rw [← h2]
  generalize hm : ((segs r1).headD []).length = m
  by_cases hs0 : s = []
  · subst hs0
    exact ⟨r1, by simp [loadString, h1, Resp.read], by simpa using h4⟩
  · have hpos := List.length_pos_iff.mpr hs0
    have hfl := segs_flatten r1
    rw [h4] at hfl
    cases hsg : segs r1 with
    | nil => rw [hsg] at hfl; simp at hfl; exact absurd hfl.1 hs0
    | cons t ss =>
      rw [hsg] at hfl hm
      simp only [List.headD_cons] at hm
      have hr : Ready s.length r1 := by
        rcases hc with h | h
        · exact .inl (h5 h)
        · exact .inr h
      obtain ⟨r2, g1, g2, g3, g4⟩ := read_segs h3 hpos hr hsg
      rw [List.flatten_cons] at hfl
      subst hm
      rcases List.append_eq_append_iff.mp hfl with ⟨as, rfl, he⟩ | ⟨bs, rfl, he⟩
      · refine ⟨r2, ?_, ?_⟩
        · simp only [loadString, h1, andThen_ok, g1]
          simp
          exact List.take_of_length_le (by omega)
        · rw [← segs_flatten, g2, consS_flatten, he]
          simp
      · refine ⟨r2, ?_, ?_⟩
        · simp only [loadString, h1, andThen_ok, g1]
          simp
          exact (List.take_of_length_le (by omega)).symm
        · rw [← segs_flatten, g2, consS_flatten, he]
          simp

/-- C64, exactly: the string comes out right if and only if the part of it that is not in the block in which it begins consists
of zero bytes, … -/
theorem C64_exact (l : LenEnc) (hl : l = .b6 ∨ l = .b14) (s : Bytes) (hs : s.length < l.limit) (rest : Bytes) (r : Rd) (hw : r.WF)
    (hf : r.flat = bytes (StrEnc.pieces (.raw l s)) ++ rest) (hc : (∀ c ∈ r.net, c.length ≤ bufSize) ∨ s.length < bufSize) :
    (loadString r).1 = .ok s ↔ ∀ b ∈ s.drop (left (bytes (l.pieces s.length)).length r), b = 0 := by
  obtain ⟨r', h, _⟩ := C64_result l hl s hs rest r hw hf hc
  rw [h]
  generalize left (bytes (l.pieces s.length)).length r = m
  simp only [GoRes.ok.injEq]
  conv => lhs; rhs; rw [← List.take_append_drop m s]
  rw [List.append_cancel_left_eq]
  rw [eq_comm, List.eq_replicate_iff]
  simp

/-- … and what follows is read from the right place if and only if the string is all in that block. -/
theorem C64_exact_place (l : LenEnc) (hl : l = .b6 ∨ l = .b14) (s : Bytes) (hs : s.length < l.limit) (rest : Bytes) (r : Rd) (hw : r.WF)
    (hf : r.flat = bytes (StrEnc.pieces (.raw l s)) ++ rest) (hc : (∀ c ∈ r.net, c.length ≤ bufSize) ∨ s.length < bufSize) :
    (loadString r).2.flat = rest ↔ s.length ≤ left (bytes (l.pieces s.length)).length r := by
  obtain ⟨r', h, h'⟩ := C64_result l hl s hs rest r hw hf hc
  rw [h, h']
  simp [List.drop_eq_nil_iff]

/-- A string of `a`, zero, zero cut behind the `a` comes out right, but the zeros are read again; `ab` cut in the middle does not. -/
example : (loadString ⟨[], [[3, 97], [0, 0, 7]]⟩).1 = .ok [97, 0, 0] ∧ (loadString ⟨[], [[3, 97], [0, 0, 7]]⟩).2.flat = [0, 0, 7] ∧
    (loadString ⟨[], [[2, 97], [98, 7]]⟩).1 ≠ .ok [97, 98] := by
  have e (a b : List UInt8) (h : a.length ≤ bufSize ∧ a ≠ []) (h' : b.length ≤ bufSize ∧ b ≠ []) : segs ⟨[], [a, b]⟩ = [a, b] := by
    simp [segs, consS, blocks_small h.1, blocks_small h'.1, h.2, h'.2]
  refine ⟨?_, ?_, ?_⟩
  · refine (C64_exact .b6 (.inl rfl) [97, 0, 0] (by decide) [7] _ (by simp [Rd.WF]) (by decide) (.inr (by decide))).mpr ?_
    simp [left, e, bufSize, LenEnc.pieces, Piece.bytes, sdrop]
  · decide +kernel
  · intro h
    have := (C64_exact .b6 (.inl rfl) [97, 98] (by decide) [7] _ (by simp [Rd.WF]) (by decide) (.inr (by decide))).mp h
    simp [left, e, bufSize, LenEnc.pieces, Piece.bytes, sdrop] at this

/-! ## C66: deadlines -/

/-- Records the loader understands, with any time of 32 or 64 bits in those that hold one. -/
def AnyTime : Item → Prop
  | .expireS t => t < 2 ^ 32
  | .expireMs t => t < 2 ^ 64
  | i => i.Supported ∧ i.Valid

/-- The commands sent for some records, with the time (of 64 bits) that waits for the next key and the selected database:
a time in seconds becomes milliseconds modulo 2^32, a time of zero is none, and the time is written as a signed number. -/
def arrives : Nat → Nat → List Item → List Sent
  | _, _, [] => []
  | _, db, .expireS t :: l => arrives (1000 * t % 2 ^ 32) db l
  | _, db, .expireMs t :: l => arrives t db l
  | p, _, .select _ db :: l => arrives p db l
  | p, db, .entry k v :: l =>
    (Int64.ofNat db, recreate k.value v.data) ::
      ((if p = 0 then [] else [(Int64.ofNat db, [b!"pExpire", k.value, itoaInt (if p < 2 ^ 63 then (p : Int) else p - 2 ^ 64)])]) ++ arrives 0 db l)
  | p, db, _ :: l => arrives p db l

theorem sendExpire_any {s : LState} {p : Nat} (hp : p < 2 ^ 64) (he : s.expires = UInt64.ofNat p) (key : Bytes) :
    s.sendExpire key = { s with
      out := s.out ++ (if p = 0 then [] else [(s.db, [b!"pExpire", key, itoaInt (if p < 2 ^ 63 then (p : Int) else p - 2 ^ 64)])])
      expires := 0 } := by
  have hn : (UInt64.ofNat p).toNat = p := by rw [UInt64.toNat_ofNat']; omega
  obtain ⟨db, ex, id, off, out⟩ := s
  simp only at he
  subst he
  by_cases h0 : p = 0
  · subst h0
    have : ¬ (0 : UInt64) < UInt64.ofNat 0 := by decide
    rw [if_pos rfl, LState.sendExpire, if_neg this, List.append_nil]; rfl
  · rw [if_neg h0]
    have hpos : 0 < UInt64.ofNat p := by rw [UInt64.lt_iff_toNat_lt, hn]; exact Nat.pos_of_ne_zero h0
    have hi : itoa (UInt64.ofNat p).toInt64 = itoaInt (if p < 2 ^ 63 then (p : Int) else p - 2 ^ 64) := by
      have : (UInt64.ofNat p).toInt64 = Int64.ofNat p := rfl
      have hb : (Int64.ofNat p).toInt = if p < 2 ^ 63 then (p : Int) else p - 2 ^ 64 := by
        rw [Int64.toInt_ofNat']
        have hsz : (Int64.size : Int) = 2 ^ 64 := rfl
        simp only [Int.bmod_def, hsz]
        by_cases h63 : p < 2 ^ 63
        · rw [if_pos h63]; omega
        · rw [if_neg h63]; omega
      rw [this, itoa, hb]
    simp only [LState.sendExpire, if_pos hpos, LState.send, hi]

/-- What the loop reads for a record. -/
def recAny : Item → Rec
  | .expireS t => .expire (UInt64.ofNat (1000 * t % 2 ^ 32))
  | i => recOf i

theorem loop_any {ord : MapOrd} (hord : ∀ n l, (ord n l).Perm l) {items : List Item} (hs : ∀ i ∈ items, AnyTime i)
    {rest : Bytes} {r : Rd} (h : Holds (items.flatMap Item.pieces ++ [.one 255]) rest r)
    {fuel : Nat} (hf : items.length < fuel) {s : LState} {p db : Nat}
    (hp : p < 2 ^ 64) (he : s.expires = UInt64.ofNat p) (hdb : s.db = Int64.ofNat db) :
    ∃ s', loadLoop ord fuel s r = (.ok (), s') ∧ s'.out = s.out ++ arrives p db items := by
  induction items generalizing r fuel s p db with
  | nil =>
    cases fuel with
    | zero => simp at hf
    | succ fuel =>
      obtain ⟨r1, h1, h⟩ := Holds.byte h
      exact ⟨s, by simp [loadLoop, loadRec, h1, LState.apply], by simp [arrives]⟩
  | cons it items ih =>
    cases fuel with
    | zero => simp at hf
    | succ fuel =>
      simp only [List.flatMap_cons, List.append_assoc] at h
      have hs1 := hs it (by simp)
      have hs' := fun i h => hs i (List.mem_cons_of_mem _ h)
      have hf' : items.length < fuel := by simp at hf; omega
      have step : ∃ x r1, loadRec ord s.out.length r = (.ok x, r1) ∧ Holds (items.flatMap Item.pieces ++ [.one 255]) rest r1 ∧
          x = recAny it := by
        cases it with
        | expireS t =>
          obtain ⟨r1, h1, h⟩ := Holds.byte h
          obtain ⟨r2, h2, h⟩ := Holds.readFull h
          rw [leInt_length] at h2
          refine ⟨.expire (UInt64.ofNat (1000 * t % 2 ^ 32)), r2, ?_, h, rfl⟩
          have hl := le_leInt 4 (t : Int)
          have ht : t < 2 ^ 32 := hs1
          have : le (leInt 4 (t : Int)) * 1000 % 2 ^ 32 = 1000 * t % 2 ^ 32 := by omega
          simp only [loadRec, h1, andThen_ok, if_true, h2, this]
        | expireMs t =>
          obtain ⟨r1, h1, h⟩ := Holds.byte h
          obtain ⟨r2, h2, h⟩ := Holds.readFull h
          rw [leInt_length] at h2
          refine ⟨.expire (UInt64.ofNat t), r2, ?_, h, rfl⟩
          have hl := le_leInt 8 (t : Int)
          have ht : t < 2 ^ 64 := hs1
          have : le (leInt 8 (t : Int)) = t := by omega
          simp [loadRec, h1, h2, this]
        | _ =>
          obtain ⟨r1, h1, g⟩ := loadRec_at hord s.out.length hs1.1 hs1.2 h
          exact ⟨_, r1, h1, g, rfl⟩
      obtain ⟨x, r1, h1, g, hx⟩ := step
      subst hx
      simp only [loadLoop, h1]
      cases it with
      | expireS t =>
        exact ih hs' g hf' (s := { s with expires := UInt64.ofNat (1000 * t % 2 ^ 32) }) (p := 1000 * t % 2 ^ 32) (by omega) rfl hdb
      | expireMs t =>
        exact ih hs' g hf' (s := { s with expires := UInt64.ofNat t }) (p := t) hs1 rfl hdb
      | freq b => exact ih hs' g hf' hp he hdb
      | idle l k => exact ih hs' g hf' hp he hdb
      | select l k => exact ih hs' g hf' (s := { s with db := Int64.ofNat k }) hp he rfl
      | resize l1 n1 l2 n2 => exact ih hs' g hf' hp he hdb
      | aux k v =>
        simp only [recAny, recOf, LState.apply]
        by_cases hk : k.value = b!"repl-id"
        · rw [if_pos hk]
          exact ih hs' g hf' (s := { s with id := v.value }) hp he hdb
        · rw [if_neg hk]
          by_cases hk2 : k.value = b!"repl-offset"
          · rw [if_pos hk2]
            obtain ⟨x, hx⟩ := Option.isSome_iff_exists.mp (hs1.2.2.2 hk2)
            simp only [hx]
            exact ih hs' g hf' (s := { s with offset := x }) hp he hdb
          · rw [if_neg hk2]
            exact ih hs' g hf' hp he hdb
      | entry k v =>
        simp only [recAny, recOf, LState.apply]
        rw [sendExpire_any hp (by exact he)]
        obtain ⟨s', g1, g2⟩ := ih hs' g hf' (s := ⟨s.db, 0, s.id, s.offset, (s.send (recreate k.value v.data)).out ++
          (if p = 0 then [] else [(s.db, [b!"pExpire", k.value, itoaInt (if p < 2 ^ 63 then (p : Int) else p - 2 ^ 64)])])⟩)
          (p := 0) (db := db) (by omega) rfl hdb
        refine ⟨s', g1, ?_⟩
        rw [g2]
        simp [LState.send, arrives, hdb]

/-- C66, what is sent in every case: all times, in any file of records that are supported otherwise. -/
theorem C66_any_time (ord : MapOrd) (hord : ∀ n l, (ord n l).Perm l) (hdr : Bytes) (hh : Header hdr) (items : List Item)
    (hs : ∀ i ∈ items, AnyTime i) (rest : Bytes) (r : Rd) (h : Holds (filePieces hdr items) rest r) :
    ∃ s', load ord .init r = (.ok (), s') ∧ s'.out = arrives 0 0 items := by
  obtain ⟨r1, h1, h2⟩ := Holds.read h
  rw [hh] at h1
  have hl := items_length items
  have hfl := congrArg List.length h2.flat
  simp only [bytes_append, List.length_append] at hfl
  obtain ⟨s', g1, g2⟩ := loop_any hord hs h2 (fuel := r1.flat.length + 1) (by omega) (s := LState.init) (p := 0) (db := 0)
    (by omega) rfl rfl
  exact ⟨s', by simp only [load, h1]; exact g1, by simpa [LState.init] using g2⟩

theorem natText_inj {a b : Nat} (h : natText a = natText b) : a = b := by
  have := congrArg (digitsVal 0) h
  simpa [digitsVal_natText] using this

theorem arrives_head {p db : Nat} {items : List Item} {d : Int64} {args : List Bytes}
    (h : (arrives p db items)[0]? = some (d, args)) : args.head? ≠ some b!"pExpire" := by
  induction items generalizing p db with
  | nil => simp [arrives] at h
  | cons it items ih =>
    cases it with
    | entry k v =>
      simp only [arrives, List.getElem?_cons_zero, Option.some.injEq, Prod.mk.injEq] at h
      obtain ⟨_, rfl⟩ := h
      cases v.data <;> simp only [recreate, List.head?_cons, ne_eq, Option.some.injEq] <;> decide
    | _ => exact ih (by simpa only [arrives] using h)

/-- C66, exactly, for a time in seconds: the expire command behind the key is the right one if and only if the time is before
2^32 milliseconds (1970-02-19). -/
theorem C66_exact (ord : MapOrd) (hord : ∀ n l, (ord n l).Perm l) (hdr : Bytes) (hh : Header hdr) (t : Nat) (ht : 0 < t ∧ t < 2 ^ 32)
    (k : StrEnc) (v : Val) (hk : AnyTime (.entry k v)) (items : List Item) (hs : ∀ i ∈ items, AnyTime i) (rest : Bytes) (r : Rd)
    (h : Holds (filePieces hdr (.expireS t :: .entry k v :: items)) rest r) :
    (load ord .init r).2.out[1]? = some (0, [b!"pExpire", k.value, natText (1000 * t)]) ↔ 1000 * t < 2 ^ 32 := by
  obtain ⟨s', h1, h2⟩ := C66_any_time ord hord hdr hh _ (by
    intro i hi
    simp only [List.mem_cons] at hi
    rcases hi with rfl | rfl | hi
    · exact ht.2
    · exact hk
    · exact hs i hi) rest r h
  rw [h1]
  simp only [h2, arrives, List.getElem?_cons_succ]
  by_cases hp : 1000 * t % 2 ^ 32 = 0
  · rw [if_pos hp, List.nil_append]
    refine ⟨fun hx => absurd rfl (arrives_head hx), fun hx => by omega⟩
  · rw [if_neg hp, List.cons_append, List.getElem?_cons_zero, if_pos (by omega), itoaInt, if_neg (by omega), Int.natAbs_natCast]
    constructor
    · intro hx
      simp only [Option.some.injEq, Prod.mk.injEq, List.cons.injEq, true_and, and_true] at hx
      have := natText_inj hx.2
      omega
    · intro hx
      rw [Nat.mod_eq_of_lt hx]
      rfl

/-- A time in milliseconds is always right: 64 bits, taken as a signed number, none for zero. -/
theorem C66_millis_partial (ord : MapOrd) (hord : ∀ n l, (ord n l).Perm l) (hdr : Bytes) (hh : Header hdr) (t : Nat) (ht : t < 2 ^ 64)
    (k : StrEnc) (v : Val) (hk : AnyTime (.entry k v)) (items : List Item) (hs : ∀ i ∈ items, AnyTime i) (rest : Bytes) (r : Rd)
    (h : Holds (filePieces hdr (.expireMs t :: .entry k v :: items)) rest r) :
    ∃ s', load ord .init r = (.ok (), s') ∧ s'.out = (0, recreate k.value v.data) ::
      ((if t = 0 then [] else [(0, [b!"pExpire", k.value, itoaInt (if t < 2 ^ 63 then (t : Int) else t - 2 ^ 64)])]) ++ arrives 0 0 items) :=
  C66_any_time ord hord hdr hh _ (by
    intro i hi
    simp only [List.mem_cons] at hi
    rcases hi with rfl | rfl | hi
    · exact ht
    · exact hk
    · exact hs i hi) rest r h

/-- The first second that is too late: 4294968 s are 2^32 ms and some more, of which 704 ms are left. -/
example : (load idOrd .init (file (bytes (filePieces b!"REDIS0009" [.expireS 4294968, .entry (.raw .b6 b!"k") (.str (.raw .b6 b!"v"))])))).2.out =
      [(0, [b!"set", b!"k", b!"v"]), (0, [b!"pExpire", b!"k", b!"704"])] ∧
    (load idOrd .init (file (bytes (filePieces b!"REDIS0009" [.expireS 4294967, .entry (.raw .b6 b!"k") (.str (.raw .b6 b!"v"))])))).2.out =
      [(0, [b!"set", b!"k", b!"v"]), (0, [b!"pExpire", b!"k", b!"4294967000"])] := by decide +kernel

/-- A time of 2^29 seconds is lost altogether: it is 0 modulo 2^32 (536870912000 = 125 · 2^32). -/
example : (load idOrd .init (file (bytes (filePieces b!"REDIS0009" [.expireS 536870912, .entry (.raw .b6 b!"k") (.str (.raw .b6 b!"v"))])))).2.out =
      [(0, [b!"set", b!"k", b!"v"])] := by decide +kernel

/-- The hypotheses of `C66_exact` in these cases. -/
example (t : Nat) (ht : 0 < t ∧ t < 2 ^ 32) :
    (load idOrd .init (file (bytes (filePieces b!"REDIS0009" [.expireS t, .entry (.raw .b6 b!"k") (.str (.raw .b6 b!"v"))]) ++ []))).2.out[1]? =
      some (0, [b!"pExpire", b!"k", natText (1000 * t)]) ↔ 1000 * t < 2 ^ 32 :=
  C66_exact idOrd idOrd_perm b!"REDIS0009" rfl t ht (.raw .b6 b!"k") (.str (.raw .b6 b!"v"))
    ⟨by simp [Item.Supported, StrEnc.Supported, LenEnc.Supported, Val.Supported, StrEnc.value], by simp [Item.Valid, StrEnc.Valid, LenEnc.limit, Val.Valid]⟩
    [] (by simp) [] _ (holds_small _ _ (by simp [filePieces, Item.pieces, Piece.bytes, StrEnc.pieces, LenEnc.pieces, Val.pieces, bufSize]))

/-! ## C70: integer sets -/

/-- C70, exactly, for all three widths: a set is loaded as it was if and only if its elements take 64 bits or are not negative. -/
theorem C70_exact (w : Nat) (hw : w = 2 ∨ w = 4 ∨ w = 8) (xs : List Int) (hl : xs.length < 2 ^ 32) (hx : ∀ x ∈ xs, Signed w x) :
    (intsetLoad (encIntset w xs)).map (·.map Int64.toInt) = some xs ↔ w = 8 ∨ ∀ x ∈ xs, 0 ≤ x := by
  rcases hw with rfl | rfl | rfl
  · rw [C70_exactly_partial 2 (.inl rfl) xs hl hx]; simp
  · rw [C70_exactly_partial 4 (.inr rfl) xs hl hx]; simp
  · exact ⟨fun _ => .inl rfl, fun _ => C70_int64_partial xs hl hx⟩

example : (∀ x ∈ [(-5 : Int), 2], Signed 2 x) ∧ (∀ x ∈ [(-5 : Int), 2], Signed 8 x) := by decide

end Verif.Rdb

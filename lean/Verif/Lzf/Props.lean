import Verif.Lzf.Comp

/-!
# Properties of the LZF code: C57 - C61, C84

`over` ranges over what a read beyond the input does, `htab` over every initial content of the hash
table (it is not initialised by the code).
-/

namespace Verif.Lzf

/-! ## C60 -/

/-- C60: a stream made of any sequence of valid tokens, in a buffer with enough room, decodes to the
bytes the sequence denotes. -/
theorem C60_decodes (ts : List Tok) (hne : ts ≠ []) (hv : ValidFrom [] ts) (outLen : Nat)
    (hc : (denote ts).length ≤ outLen) :
    ∃ m, decompress (encodeAll ts) outLen = .ok ((denote ts).length, m) ∧ m.bytes (denote ts).length = denote ts := by
  obtain ⟨s, h1, h2, h3⟩ := dloop_toks (inp := encodeAll ts) (s := ⟨0, 0, Mem.fresh outLen⟩) (fuel := (encodeAll ts).length + 1)
    ts hne rfl (fresh_inv outLen) hv hc (by simp only; omega)
  refine ⟨s.out, ?_, sub_bytes h2.1⟩
  simp only [decompress, h1, R.bind_ok, R.pure_eq, h2.2.1]
  rfl

/-- The converse: the decompressor accepts nothing else. -/
theorem C60_only (inp : Bytes) (hne : inp ≠ []) (outLen n : Nat) (m : Mem) (h : decompress inp outLen = .ok (n, m)) :
    ∃ ts, ts ≠ [] ∧ ValidFrom [] ts ∧ inp = encodeAll ts ∧ n = (denote ts).length ∧ n ≤ outLen ∧ m.bytes n = denote ts := by
  rcases dloop_any (s := ⟨0, 0, Mem.fresh outLen⟩) (fuel := inp.length + 1) (List.length_pos_iff.mpr hne) (fresh_inv outLen)
    (by simp only; omega) with hf | ⟨ts, h0, h1, h2, h3⟩
  · simp [decompress, hf] at h
  · have he : inp = encodeAll ts := h1
    obtain ⟨m', a1, a2⟩ := C60_decodes ts h0 h2 outLen h3
    rw [← he, h] at a1
    simp only [R.ok.injEq, Prod.mk.injEq] at a1
    obtain ⟨rfl, rfl⟩ := a1
    exact ⟨ts, h0, h2, he, rfl, h3, a2⟩

/-- A stream with a literal run, an overlapping back reference and a long back reference. -/
example : ValidFrom [] [.lit b!"ab", .ref 2 7, .ref 9 20, .lit b!"!"] ∧
    denote [.lit b!"ab", .ref 2 7, .ref 9 20, .lit b!"!"] = b!"ababababaababababaababababaab!" := by
  refine ⟨⟨?_, ?_, ?_, ?_, trivial⟩, ?_⟩
  · simp [Valid]
  · simp [Valid, apply]
  · simp [Valid, apply, copyFrom_length]
  · simp [Valid]
  · decide +kernel

/-! ## C59 -/

/-- C59: on every input of at least one byte the decompressor stops and touches nothing outside its
buffers and no output byte it has not written (all of these are `fault`). -/
theorem C59_stays_inside (inp : Bytes) (hne : inp ≠ []) (outLen : Nat) : decompress inp outLen ≠ .fault := by
  intro h
  rcases dloop_any (s := ⟨0, 0, Mem.fresh outLen⟩) (fuel := inp.length + 1) (List.length_pos_iff.mpr hne) (fresh_inv outLen)
    (by simp only; omega) with hf | ⟨ts, h0, h1, h2, h3⟩
  · simp [decompress, hf] at h
  · obtain ⟨m', a1, _⟩ := C60_decodes ts h0 h2 outLen h3
    rw [show inp = encodeAll ts from h1] at h
    rw [h] at a1
    exact absurd a1 (by simp)

/-- C59 needs at least one byte: the loop reads a control byte before it tests for the end. -/
theorem C59_empty (outLen : Nat) : decompress [] outLen = .fault := rfl

/-- Corrupt inputs: a back reference before the start, a truncated run, a missing offset. -/
example : decompress [0x20, 0x00] 100 = .fail ∧ decompress [0x05, 0x61] 100 = .fail ∧ decompress [0xe0, 0x01] 100 = .fail :=
  ⟨rfl, rfl, rfl⟩

/-! ## C57 -/

/-- C57: if the compressor reports success, its output decompresses to the input, whatever the hash
table held before and whatever a read beyond the input yields. -/
theorem C57_inverse (over : Over) (htab : HTab) (inp : Bytes) (outLen n : Nat) (m : Mem)
    (h : compress over htab inp outLen = .ok (n, m)) (room : Nat) (hr : inp.length ≤ room) :
    ∃ m', decompress (m.bytes n) room = .ok (inp.length, m') ∧ m'.bytes inp.length = inp := by
  by_cases hne : inp = []
  · subst hne; simp [compress] at h
  by_cases ho : outLen = 0
  · subst ho; simp [compress] at h
  have h2 : 2 ≤ inp.length ∨ over ≠ none := by
    by_cases h2 : 2 ≤ inp.length
    · exact .inl h2
    · right
      intro e
      subst e
      have hl : inp.length = 1 := by have := List.length_pos_iff.mpr hne; omega
      obtain ⟨b, rfl⟩ := List.length_eq_one_iff.mp hl
      simp [compress, ho, frst, rdIn] at h
  rcases compress_ok over htab inp outLen hne ho h2 with ⟨hf, _⟩ | ⟨m', ts, a1, a2, a3, a4, _⟩
  · rw [hf] at h; exact absurd h (by simp)
  · rw [h] at a1
    simp only [R.ok.injEq, Prod.mk.injEq] at a1
    obtain ⟨rfl, rfl⟩ := a1
    rw [sub_bytes a4]
    have hts : ts ≠ [] := by
      intro e; subst e; exact hne a3.symm
    obtain ⟨m'', b1, b2⟩ := C60_decodes ts hts a2 room (by rw [a3]; exact hr)
    rw [a3] at b1 b2
    exact ⟨m'', b1, b2⟩

/-- A table of zeroes and a compressible input: the compressor succeeds, with a long overlapping back
reference. -/
example : (match compress none (fun _ => 0) (List.replicate 40 97) 40 with
    | .ok (n, m) => some (m.bytes n)
    | _ => none) = some [1, 97, 97, 224, 27, 0, 1, 97, 97] := by
  decide +kernel

/-! ## C58 -/

/-- C58 is false of the code: for an input of one byte `FRST` reads the byte behind it, before
anything is compared with `in_end`. -/
theorem C58_violated (htab : HTab) (b : UInt8) (outLen : Nat) (h : outLen ≠ 0) : compress none htab [b] outLen = .fault := by
  simp [compress, h, frst, rdIn]

/-- C58, as far as it holds: for every other input and every output size, no access is outside the
buffers (nor outside the hash table), whatever the hash table held. -/
theorem C58_stays_inside_partial (htab : HTab) (inp : Bytes) (hlen : inp.length ≠ 1) (outLen : Nat) :
    compress none htab inp outLen ≠ .fault := by
  by_cases hne : inp = []
  · subst hne; simp [compress]
  by_cases ho : outLen = 0
  · subst ho; simp [compress]
  have hpos := List.length_pos_iff.mpr hne
  rcases compress_ok none htab inp outLen hne ho (.inl (by omega)) with ⟨hf, _⟩ | ⟨m, ts, a1, _⟩
  · rw [hf]; simp
  · rw [a1]; simp

/-- Apart from that read, an input of one byte does no harm either. -/
theorem C58_one_byte_partial (over : UInt8) (htab : HTab) (b : UInt8) (outLen : Nat) :
    compress (some over) htab [b] outLen ≠ .fault := by
  by_cases ho : outLen = 0
  · subst ho; simp [compress]
  rcases compress_ok (some over) htab [b] outLen (by simp) ho (.inr (by simp)) with ⟨hf, _⟩ | ⟨m, ts, a1, _⟩
  · rw [hf]; simp
  · rw [a1]; simp

/-- What the compressor wrote fits the buffer. -/
theorem C58_fits (over : Over) (htab : HTab) (inp : Bytes) (outLen n : Nat) (m : Mem) (h2 : 2 ≤ inp.length)
    (h : compress over htab inp outLen = .ok (n, m)) : n ≤ outLen ∧ m.cap = outLen := by
  by_cases ho : outLen = 0
  · subst ho; simp [compress] at h
  rcases compress_ok over htab inp outLen (by intro e; subst e; simp at h2) ho (.inl h2) with ⟨hf, _⟩ | ⟨m', ts, a1, _, _, _, a5, a6, _⟩
  · rw [hf] at h; exact absurd h (by simp)
  · rw [h] at a1
    simp only [R.ok.injEq, Prod.mk.injEq] at a1
    obtain ⟨rfl, rfl⟩ := a1
    exact ⟨a6, a5⟩

/-! ## C84 -/

/-- C84, the size: a successful compression uses at most one extra byte per 32 bytes of input, rounded
up. -/
theorem C84_expansion (over : Over) (htab : HTab) (inp : Bytes) (outLen n : Nat) (m : Mem) (h2 : 2 ≤ inp.length)
    (h : compress over htab inp outLen = .ok (n, m)) : n ≤ inp.length + (inp.length + 31) / 32 := by
  by_cases ho : outLen = 0
  · subst ho; simp [compress] at h
  rcases compress_ok over htab inp outLen (by intro e; subst e; simp at h2) ho (.inl h2) with ⟨hf, _⟩ | ⟨m', ts, a1, _, _, _, _, _, a7⟩
  · rw [hf] at h; exact absurd h (by simp)
  · rw [h] at a1
    simp only [R.ok.injEq, Prod.mk.injEq] at a1
    obtain ⟨rfl, rfl⟩ := a1
    omega

/-- C84, success: with that much room and three bytes more the compressor never fails. -/
theorem C84_enough_room (over : Over) (htab : HTab) (inp : Bytes) (outLen : Nat) (h2 : 2 ≤ inp.length)
    (hr : inp.length + inp.length / 32 + 4 ≤ outLen) : ∃ n m, compress over htab inp outLen = .ok (n, m) := by
  rcases compress_ok over htab inp outLen (by intro e; subst e; simp at h2) (by omega) (.inl h2) with ⟨_, hc⟩ | ⟨m', ts, a1, _⟩
  · omega
  · exact ⟨_, _, a1⟩

/-- The documented bound "less than 104% of the original size" (lzf.h:57) is false for short inputs. -/
theorem C84_violated (htab : HTab) : ∃ m, compress none htab b!"ab" 100 = .ok (3, m) := ⟨_, rfl⟩

/-- From 160 bytes on the documented bound holds. -/
theorem C84_documented_partial (over : Over) (htab : HTab) (inp : Bytes) (outLen n : Nat) (m : Mem) (hl : 160 ≤ inp.length)
    (h : compress over htab inp outLen = .ok (n, m)) : 100 * n < 104 * inp.length := by
  have := C84_expansion over htab inp outLen n m (by omega) h
  omega

/-! ## C61 -/

/-- C61 is false of the code: text that does not compress is returned as it is, and `DeCompress` takes
it for a compressed stream. -/
theorem C61_violated (over : UInt8) (htab : HTab) :
    goCompress over htab [0, 97] = .ok [0, 97] ∧ goDecompress [0, 97] 2 = .ok [97, 0] := by
  constructor
  · rfl
  · decide +kernel

/-- Also, the empty string panics in both directions. -/
theorem C61_violated_empty (over : UInt8) (htab : HTab) (n : Int) :
    goCompress over htab [] = .panic ∧ goDecompress [] n = .panic := by
  simp [goCompress, goDecompress]

/-- C61, as far as it holds: when the text did compress, and is shorter than 4 GiB, `DeCompress` gives
it back. -/
theorem C61_compressed_partial (over : UInt8) (htab : HTab) (s : Bytes) (hs : s.length < 2 ^ 32) (z : Bytes)
    (hz : goCompress over htab s = .ok z) (hn : z ≠ s) : goDecompress z s.length = .ok s := by
  have hne : s ≠ [] := by
    intro e; subst e; simp [goCompress] at hz
  have hpos := List.length_pos_iff.mpr hne
  simp only [goCompress, if_neg hne, Nat.mod_eq_of_lt hs, List.take_length] at hz
  rcases compress_ok (some over) htab s s.length hne (by omega) (.inr (by simp)) with ⟨hf, _⟩ | ⟨m, ts, a1, a2, a3, a4, a5, a6, a7⟩
  · rw [hf] at hz
    simp only [GoRes.ok.injEq] at hz
    exact absurd hz.symm hn
  · have hpack : ∃ k, (encodeAll ts).length = k + 1 := by
      cases ts with
      | nil => exact absurd a3.symm hne
      | cons t ts =>
        have := encode_pos t
        refine ⟨(encodeAll (t :: ts)).length - 1, ?_⟩
        simp only [encodeAll, List.map_cons, List.flatten_cons, List.length_append]; omega
    obtain ⟨k, hk⟩ := hpack
    have hz' : z = m.bytes (encodeAll ts).length := by
      rw [a1, hk] at hz
      simp only [GoRes.ok.injEq] at hz
      rw [hk]; exact hz.symm
    obtain ⟨m', b1, b2⟩ := C57_inverse (some over) htab s s.length _ m a1 s.length (Nat.le_refl _)
    rw [← hz'] at b1
    have hzl : z.length = (encodeAll ts).length := by rw [hz', sub_bytes a4]
    have hzne : z ≠ [] := by intro e; rw [e] at hzl; simp at hzl; omega
    simp only [goDecompress, Int.toNat_natCast]
    rw [if_neg (by simp only [hzne, false_or]; omega), Nat.mod_eq_of_lt hs, Nat.mod_eq_of_lt (by omega), List.take_length, b1]
    obtain ⟨j, hj⟩ : ∃ j, s.length = j + 1 := ⟨s.length - 1, by omega⟩
    rw [hj] at b2 ⊢
    simp only [b2]

/-- When the text did not compress, it comes back only if it is not itself an LZF stream. -/
theorem C61_incompressible_partial (over : UInt8) (htab : HTab) (s : Bytes) (hs : s.length < 2 ^ 32)
    (hz : goCompress over htab s = .ok s)
    (hno : ∀ ts, ValidFrom [] ts → encodeAll ts = s → s.length < (denote ts).length) :
    goDecompress s s.length = .ok s := by
  have hne : s ≠ [] := by
    intro e; subst e; simp [goCompress] at hz
  have hpos := List.length_pos_iff.mpr hne
  simp only [goDecompress, Int.toNat_natCast]
  rw [if_neg (by simp only [hne, false_or]; omega), Nat.mod_eq_of_lt hs, List.take_length]
  cases hd : decompress s s.length with
  | fault => exact absurd hd (C59_stays_inside s hne _)
  | fail => rfl
  | ok p =>
    obtain ⟨n, m⟩ := p
    obtain ⟨ts, _, h1, h2, h3, h4, _⟩ := C60_only s hne _ _ _ hd
    have := hno ts h1 h2.symm
    omega

/-- `Compress` never panics on a non-empty string, and never returns more bytes than it got. -/
theorem C61_compress_total (over : UInt8) (htab : HTab) (s : Bytes) (hne : s ≠ []) (hs : s.length < 2 ^ 32) :
    ∃ z, goCompress over htab s = .ok z ∧ z.length ≤ s.length := by
  have hpos := List.length_pos_iff.mpr hne
  simp only [goCompress, if_neg hne, Nat.mod_eq_of_lt hs, List.take_length]
  rcases compress_ok (some over) htab s s.length hne (by omega) (.inr (by simp)) with ⟨hf, _⟩ | ⟨m, ts, a1, a2, a3, a4, a5, a6, a7⟩
  · rw [hf]; exact ⟨s, rfl, Nat.le_refl _⟩
  · rw [a1]
    cases hk : (encodeAll ts).length with
    | zero => exact ⟨s, rfl, Nat.le_refl _⟩
    | succ k => exact ⟨_, rfl, by simp only [Mem.bytes, List.length_map, List.length_range]; omega⟩

/-- A compressible string: what `Compress` returns is shorter and `DeCompress` gives it back. -/
example : ∃ z, goCompress 0 (fun _ => 0) b!"abcabcabcabcabcabcabcabcabcabcabcabc" = .ok z ∧ z ≠ b!"abcabcabcabcabcabcabcabcabcabcabcabc" ∧
    goDecompress z 36 = .ok b!"abcabcabcabcabcabcabcabcabcabcabcabc" := by
  refine ⟨_, rfl, ?_, ?_⟩ <;> decide +kernel

/-- A string that does not compress and is not a stream. -/
example : goCompress 0 (fun _ => 0) b!"hello" = .ok b!"hello" ∧ goDecompress b!"hello" 5 = .ok b!"hello" := by
  constructor <;> decide +kernel

end Verif.Lzf

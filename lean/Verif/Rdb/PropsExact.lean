import Verif.Rdb.PropsLoad

/-!
# C62, C63 and C69 exactly: which lengths, strings and scores are read right

For every way in which a server may write a length, a string or a score, whether the code reads it.
-/

namespace Verif.Rdb

open Verif.Resp

/-! ## C62 -/

/-- C62, exactly where it holds: a length is read right if and only if it takes one or two bytes, or
is zero. -/
theorem C62_exact (l : LenEnc) (n : Nat) (hn : n < l.limit) (rest : Bytes) (r : Rd) (hw : r.WF)
    (hr : r.flat = bytes (l.pieces n) ++ rest) : (loadLen r).1 = .ok (n, false) ↔ (l = .b6 ∨ l = .b14 ∨ n = 0) := by
  by_cases hl : l = .b6 ∨ l = .b14
  · obtain ⟨r', h1, _⟩ := C62_short_partial l hl n hn rest r hw hr
    rw [h1]
    simp only [true_iff]
    rcases hl with h | h
    · exact .inl h
    · exact .inr (.inl h)
  · have hl' : l = .b32 ∨ l = .b64 := by
      cases l <;> simp at hl ⊢
    obtain ⟨r', h1, _⟩ := C62_violated_always l hl' n rest r hw hr
    rw [h1]
    simp only [GoRes.ok.injEq, Prod.mk.injEq, and_true]
    constructor
    · intro h; exact .inr (.inr h.symm)
    · intro h
      rcases h with h | h | h
      · exact absurd (.inl h) hl
      · exact absurd (.inr h) hl
      · exact h.symm

example : (loadLen (file (bytes (LenEnc.pieces .b32 0)))).1 = .ok (0, false) :=
  (C62_exact .b32 0 (by decide) [] _ (file_wf _) (by simp [file_flat])).mpr (.inr (.inr rfl))

example : (loadLen (file (bytes (LenEnc.pieces .b32 5)))).1 ≠ .ok (5, false) := by
  intro h
  have := (C62_exact .b32 5 (by decide) [] _ (file_wf _) (by simp [file_flat])).mp h
  simp at this

/-! ## C63 -/

/-- The encoded strings that are read right. -/
def StrEnc.Read : StrEnc → Prop
  | .raw l s => l = .b6 ∨ l = .b14 ∨ s = []
  | .int8 _ => True
  | .int16 v => 0 ≤ v
  | .int32 v => 0 ≤ v
  | .lzf lc lu _ => (lc = .b6 ∨ lc = .b14) ∧ (lu = .b6 ∨ lu = .b14)

theorem natText_ne_negative {n : Nat} {v : Int} (hv : v < 0) : natText n ≠ itoaInt v := by
  intro h
  obtain ⟨c, cs, h1, h2⟩ := natText_head n
  rw [h1, itoaInt, if_pos hv] at h
  obtain ⟨rfl, _⟩ := List.cons.inj h
  exact absurd h2 (by decide)

/-- A compressed string with a length of four bytes does not even fail: the load panics. -/
theorem C63_violated_lzf (lc lu : LenEnc) (ts : List Lzf.Tok) (hv : StrEnc.Valid (.lzf lc lu ts)) (hs : ¬ (lc.Supported ∧ lu.Supported))
    (ps : List Piece) (rest : Bytes) (r : Rd) (h : Holds (StrEnc.pieces (.lzf lc lu ts) ++ ps) rest r) : (loadString r).1 = .panic := by
  obtain ⟨hv1, hv2, hv3, hv4⟩ := hv
  simp only [StrEnc.pieces, List.cons_append, List.append_assoc] at h
  obtain ⟨r1, h1, h⟩ := loadLen_tag (k := 3) (by decide) h
  by_cases hc : lc.Supported
  · have hu : ¬ lu.Supported := fun hu => hs ⟨hc, hu⟩
    obtain ⟨r2, h2, h⟩ := loadLen_at hc hv3 h
    obtain ⟨r3, h3, h⟩ := loadLen_wide hu h
    obtain ⟨r4, h4, h⟩ := Holds.readFull h
    simp [loadString, h1, loadLzf, h2, h3, h4, Lzf.goDecompress]
  · obtain ⟨r2, h2, h⟩ := loadLen_wide hc h
    have h3 : ∃ n r3, loadLen r2 = (.ok (n, false), r3) := by
      by_cases hu : lu.Supported
      · obtain ⟨r3, h3, h⟩ := loadLen_at hu hv4 h
        exact ⟨_, r3, h3⟩
      · obtain ⟨r3, h3, h⟩ := loadLen_wide hu h
        exact ⟨_, r3, h3⟩
    obtain ⟨n, r3, h3⟩ := h3
    simp [loadString, h1, loadLzf, h2, h3, readFull, readFullAux, Lzf.goDecompress]

/-- C63, exactly where it holds: of a string that does not cross the end of a block, whatever follows,
the result is the string if and only if the lengths take one or two bytes and integers of 16 or 32
bits are not negative (the empty string may have a length of any size). -/
theorem C63_exact (e : StrEnc) (hv : e.Valid) (ps : List Piece) (rest : Bytes) (r : Rd)
    (h : Holds (e.pieces ++ ps) rest r) : (loadString r).1 = .ok e.value ↔ e.Read := by
  cases e with
  | raw l s =>
    by_cases hl : l.Supported
    · obtain ⟨r', h1, _⟩ := loadString_at (e := .raw l s) hl hv h
      rw [h1]
      simp only [true_iff]
      rcases hl with h | h
      · exact .inl h
      · exact .inr (.inl h)
    · simp only [StrEnc.pieces, List.append_assoc] at h
      obtain ⟨r1, h1, h⟩ := loadLen_wide hl h
      have : loadString r = (.ok [], r1) := by simp [loadString, h1, Resp.read]
      rw [this]
      simp only [GoRes.ok.injEq, StrEnc.value, StrEnc.Read]
      constructor
      · intro h; exact .inr (.inr h.symm)
      · intro h
        rcases h with h | h | h
        · exact absurd (.inl h) hl
        · exact absurd (.inr h) hl
        · exact h.symm
  | int8 v =>
    obtain ⟨r', h1, _⟩ := loadString_at (e := .int8 v) trivial hv h
    rw [h1]
    simp [StrEnc.Read]
  | int16 v =>
    by_cases hs : 0 ≤ v
    · obtain ⟨r', h1, _⟩ := loadString_at (e := .int16 v) hs hv h
      rw [h1]
      simp [StrEnc.Read, hs]
    · obtain ⟨r1, h1, h⟩ := loadLen_tag (k := 1) (by decide) h
      obtain ⟨r2, h2, h⟩ := Holds.readFull h
      rw [leInt_length] at h2
      have : loadString r = (.ok (natText (le (leInt 2 v))), r2) := by simp [loadString, h1, h2]
      rw [this]
      simp only [GoRes.ok.injEq, StrEnc.value, StrEnc.Read, hs, iff_false]
      exact natText_ne_negative (by omega)
  | int32 v =>
    by_cases hs : 0 ≤ v
    · obtain ⟨r', h1, _⟩ := loadString_at (e := .int32 v) hs hv h
      rw [h1]
      simp [StrEnc.Read, hs]
    · obtain ⟨r1, h1, h⟩ := loadLen_tag (k := 2) (by decide) h
      obtain ⟨r2, h2, h⟩ := Holds.readFull h
      rw [leInt_length] at h2
      have : loadString r = (.ok (natText (le (leInt 4 v))), r2) := by simp [loadString, h1, h2]
      rw [this]
      simp only [GoRes.ok.injEq, StrEnc.value, StrEnc.Read, hs, iff_false]
      exact natText_ne_negative (by omega)
  | lzf lc lu ts =>
    by_cases hs : lc.Supported ∧ lu.Supported
    · obtain ⟨r', h1, _⟩ := loadString_at (e := .lzf lc lu ts) hs hv h
      rw [h1]
      simp only [true_iff]
      exact hs
    · rw [C63_violated_lzf lc lu ts hv hs ps rest r h]
      simp only [reduceCtorEq, StrEnc.Read, false_iff]
      exact hs

/-- Strings of each kind that are read right, and one that is not. -/
example : StrEnc.Read (.raw .b14 b!"abc") ∧ StrEnc.Read (.raw .b32 []) ∧ ¬ StrEnc.Read (.raw .b32 b!"abc") ∧
    StrEnc.Read (.int8 (-5)) ∧ ¬ StrEnc.Read (.int16 (-5)) ∧ StrEnc.Read (.int32 70000) := by
  simp [StrEnc.Read]

example : (loadString (file (bytes (StrEnc.pieces (.int32 (-5)))))).1 ≠ .ok b!"-5" := by
  have h := holds_small (StrEnc.pieces (.int32 (-5)) ++ []) [] (by simp [StrEnc.pieces, Piece.bytes, leInt_length, bufSize])
  intro hc
  have := (C63_exact (.int32 (-5)) (by simp [StrEnc.Valid, Signed]) [] [] _ h).mp (by simpa [file, show (StrEnc.int32 (-5)).value = b!"-5" from by decide] using hc)
  simp [StrEnc.Read] at this

/-! ## C69 -/

/-- The reader of a score: sorted sets of the newer type hold binary scores. -/
def loadScore : DblEnc → Rd → RRes F64 × Rd
  | .binary _ => loadBinaryDouble
  | _ => loadDouble

/-- C69, exactly where it holds: a score is read right if and only if it is written as text, or is a
binary (positive) zero. -/
theorem C69_exact (d : DblEnc) (x : F64) (hx : d.value = some x) (hl : ∀ t, d = .text t → t.length < 253) (rest : Bytes) (r : Rd)
    (hw : r.WF) (hr : r.flat = bytes d.pieces ++ rest) :
    (loadScore d r).1 = .ok x ↔ ((∃ t, d = .text t) ∨ d = .binary F64.zero) := by
  cases d with
  | text t =>
    obtain ⟨r', h1, _⟩ := C69_text_partial t (hl t rfl) x hx r hw rest hr
    simp [loadScore, h1]
  | nan =>
    simp only [DblEnc.value, Option.some.injEq] at hx
    subst hx
    rw [show loadScore .nan r = loadDouble r from rfl, (C69_violated_tags r hw rest).1 hr]
    simp only [GoRes.ok.injEq, reduceCtorEq, exists_false, or_self, iff_false]
    decide +kernel
  | posInf =>
    simp only [DblEnc.value, Option.some.injEq] at hx
    subst hx
    rw [show loadScore .posInf r = loadDouble r from rfl, (C69_violated_tags r hw rest).2.1 hr]
    simp only [GoRes.ok.injEq, reduceCtorEq, exists_false, or_self, iff_false]
    decide +kernel
  | negInf =>
    simp only [DblEnc.value, Option.some.injEq] at hx
    subst hx
    rw [show loadScore .negInf r = loadDouble r from rfl, (C69_violated_tags r hw rest).2.2 hr]
    simp only [GoRes.ok.injEq, reduceCtorEq, exists_false, or_self, iff_false]
    decide +kernel
  | binary y =>
    simp only [DblEnc.value, Option.some.injEq] at hx
    subst hx
    rw [show loadScore (.binary y) r = loadBinaryDouble r from rfl, C69_violated_binary y r hw rest hr]
    simp only [GoRes.ok.injEq, reduceCtorEq, exists_false, false_or, DblEnc.binary.injEq]
    exact eq_comm

example : (loadScore (.binary (F64.ofInt 1)) (file (bytes (DblEnc.pieces (.binary (F64.ofInt 1)))))).1 ≠ .ok (F64.ofInt 1) := by
  intro h
  have := (C69_exact (.binary (F64.ofInt 1)) _ rfl (by simp) [] _ (file_wf _) (by simp [file_flat])).mp h
  revert this
  simp only [reduceCtorEq, exists_false, false_or, DblEnc.binary.injEq]
  decide +kernel

/-! ## C67: what a file that loads must contain -/

/-- Whole records are read from the front. -/
theorem Trace.suffix {ord : MapOrd} {s s' : LState} {r r' : Rd} (h : Trace ord s r s' r') (hw : r.WF) : r'.flat <:+ r.flat := by
  induction h with
  | nil s r => exact List.suffix_refl _
  | @cons s _ _ r _ _ _ h1 _ _ ih =>
    have hm := (nice_loadRec ord s.out.length).mono r hw
    rw [h1] at hm
    exact (ih (loadRec_shrinks hw h1).2).trans hm

/-- C67: a file that has none of the bytes 255, 6, 7 and 15 is never loaded with success, whatever
the iteration order.  Missing: `C67_violated`. -/
theorem C67_byte_partial (ord : MapOrd) (s : LState) (r : Rd) (hw : r.WF)
    (h : ∀ b ∈ r.flat, b ≠ 255 ∧ b ≠ 6 ∧ b ≠ 7 ∧ b ≠ 15) : (load ord s r).1 ≠ .ok () := by
  intro hl
  rcases hx : load ord s r with ⟨y, s'⟩
  rw [hx] at hl
  simp only at hl
  subst hl
  obtain ⟨hdr, r0, s1, r1, b, rest, h1, h2, h3, h4⟩ := C67_marker_partial ord s s' r hw hx
  have m0 := (nice_read 9).mono r hw
  have w0 := (nice_read 9).wf r hw
  rw [h1] at m0 w0
  have := ((h2.suffix w0).trans m0).subset (a := b) (by rw [h3]; simp)
  have := h b this
  rcases h4 with h | h | h | h <;> simp_all

example : ∀ b ∈ (file (b!"REDIS0009" ++ [0, 1, 97, 1, 98])).flat, b ≠ 255 ∧ b ≠ 6 ∧ b ≠ 7 ∧ b ≠ 15 := by
  decide +kernel

end Verif.Rdb

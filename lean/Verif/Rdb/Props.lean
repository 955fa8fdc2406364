import Verif.Rdb.Lemmas
import Verif.PropsFloat

/-!
# Properties of reading a snapshot (C62 - C69)

A regular file is the reader `file f`: one chunk, which `bufio` takes in blocks of `bufSize`.
-/

namespace Verif.Rdb

open Verif.Resp

/-- A file that has just been opened. -/
def file (f : Bytes) : Rd := ⟨[], [f]⟩

theorem file_flat (f : Bytes) : (file f).flat = f := by simp [file, Rd.flat]

theorem file_wf (f : Bytes) : (file f).WF := by simp [file, Rd.WF]

/-! ## C62: lengths -/

/-- C62, full statement refuted: a length in four bytes is read as 0. -/
theorem C62_violated : ¬ ∀ (l : LenEnc) (n : Nat) (r : Rd), n < l.limit → r.WF → r.flat = bytes (l.pieces n) →
    (loadLen r).1 = .ok (n, false) := by
  intro h
  have := h .b32 70000 (file (bytes (LenEnc.pieces .b32 70000))) (by decide) (file_wf _) (file_flat _)
  revert this
  decide +kernel

/-- C62, how it fails: every length in four or eight bytes is read as 0. -/
theorem C62_violated_always (l : LenEnc) (hl : l = .b32 ∨ l = .b64) (n : Nat) (rest : Bytes) (r : Rd) (hw : r.WF)
    (hr : r.flat = bytes (l.pieces n) ++ rest) : ∃ r', loadLen r = (.ok (0, false), r') ∧ r'.flat = rest := by
  have h : Holds (l.pieces n ++ []) rest r := by
    refine holds_tiny _ rest r hw (by simpa using hr) ?_ ?_
    · intro bs hb; rcases hl with rfl | rfl <;> simp [LenEnc.pieces] at hb
    · intro p hp
      rcases hl with rfl | rfl <;> simp [LenEnc.pieces] at hp <;> rcases hp with rfl | rfl <;> simp [Piece.bytes, bufSize, beInt_length]
  obtain ⟨r', h1, h2⟩ := loadLen_wide (by rcases hl with rfl | rfl <;> simp [LenEnc.Supported]) h
  exact ⟨r', h1, by simpa using h2.flat⟩

/-- C62 for the one and two byte forms: the length is read, whatever the blocks, and nothing more.
Missing: the four and eight byte forms (`C62_violated`). -/
theorem C62_short_partial (l : LenEnc) (hl : l = .b6 ∨ l = .b14) (n : Nat) (hn : n < l.limit) (rest : Bytes) (r : Rd) (hw : r.WF)
    (hr : r.flat = bytes (l.pieces n) ++ rest) : ∃ r', loadLen r = (.ok (n, false), r') ∧ r'.flat = rest ∧ r'.WF := by
  have h : Holds (l.pieces n ++ []) rest r := by
    refine holds_tiny _ rest r hw (by simpa using hr) ?_ ?_
    · intro bs hb; rcases hl with rfl | rfl <;> simp [LenEnc.pieces] at hb
    · intro p hp
      rcases hl with rfl | rfl <;> simp [LenEnc.pieces] at hp
      · subst hp; simp [Piece.bytes, bufSize]
      · rcases hp with rfl | rfl <;> simp [Piece.bytes, bufSize]
  obtain ⟨r', h1, h2⟩ := loadLen_at hl hn h
  exact ⟨r', h1, by simpa using h2.flat, h2.wf⟩

example : ∃ r', loadLen ⟨[], [[65], [44, 7]]⟩ = (.ok (300, false), r') ∧ r'.flat = [7] ∧ r'.WF :=
  C62_short_partial .b14 (.inr rfl) 300 (by decide) [7] _ (by simp [Rd.WF]) rfl

/-! ## C63: strings -/

/-- C63, full statement refuted: a negative 16-bit integer. -/
theorem C63_violated : ¬ ∀ (e : StrEnc), e.Valid → (loadString (file (bytes e.pieces))).1 = .ok e.value := by
  intro h
  have := h (.int16 (-1)) (by simp [StrEnc.Valid, Signed])
  revert this
  decide +kernel

/-- C63, another way it fails: a plain string whose length takes four bytes is read as the empty
string (and its bytes are then taken for what follows). -/
theorem C63_violated_long (l : LenEnc) (hl : l = .b32 ∨ l = .b64) (s rest : Bytes) (r : Rd) (hw : r.WF)
    (hr : r.flat = bytes (StrEnc.pieces (.raw l s)) ++ rest) : ∃ r', loadString r = (.ok [], r') ∧ r'.flat = s ++ rest := by
  have hr' : r.flat = bytes (l.pieces s.length) ++ (s ++ rest) := by simpa [StrEnc.pieces, Piece.bytes] using hr
  obtain ⟨r', h1, h2⟩ := C62_violated_always l hl s.length (s ++ rest) r hw hr'
  exact ⟨r', by simp [loadString, h1, Resp.read], h2⟩

/-- C63, how it fails for integers: a negative one is read as the unsigned number with the same bits. -/
theorem C63_violated_negative (w : Nat) (v : Int) (hw : w = 2 ∨ w = 4) (hv : Signed w v) (hneg : v < 0) :
    (loadString (file (bytes (StrEnc.pieces (if w = 2 then .int16 v else .int32 v))))).1 = .ok (natText (256 ^ w + v).toNat) := by
  have key : ∀ w : Nat, w = 2 ∨ w = 4 → Signed w v → le (leInt w v) = (256 ^ w + v).toNat := by
    intro w hw hv
    have hl := le_leInt w v
    have : v % 256 ^ w = 256 ^ w + v := by
      have h1 : -(256 ^ w : Int) ≤ v := by
        rcases hw with rfl | rfl <;> (have := hv.1; simp only [Signed] at hv; omega)
      rw [← Int.add_emod_left]
      exact Int.emod_eq_of_lt (by omega) (by omega)
    rw [this] at hl
    omega
  rcases hw with rfl | rfl
  · have h := holds_small (StrEnc.pieces (.int16 v) ++ []) [] (by simp [StrEnc.pieces, Piece.bytes, leInt_length, bufSize])
    simp only [List.append_nil] at h
    obtain ⟨r1, h1, h⟩ := loadLen_tag (k := 1) (by decide) h
    obtain ⟨r2, h2, h⟩ := Holds.readFull h
    rw [leInt_length] at h2
    rw [if_pos rfl, file]
    simp [loadString, h1, h2, key 2 (.inl rfl) hv]
  · have h := holds_small (StrEnc.pieces (.int32 v) ++ []) [] (by simp [StrEnc.pieces, Piece.bytes, leInt_length, bufSize])
    simp only [List.append_nil] at h
    obtain ⟨r1, h1, h⟩ := loadLen_tag (k := 2) (by decide) h
    obtain ⟨r2, h2, h⟩ := Holds.readFull h
    rw [leInt_length] at h2
    rw [if_neg (by decide), file]
    simp [loadString, h1, h2, key 4 (.inr rfl) hv]

/-- C63 for plain and compressed strings with one or two byte lengths, all 8-bit integers and
non-negative 16 and 32-bit integers: the string is read, and nothing more, provided that a plain
string does not cross the end of a block (`Holds`).  Missing: `C63_violated`, `C63_violated_long`,
`C64_violated`. -/
theorem C63_supported_partial (e : StrEnc) (hs : e.Supported) (hv : e.Valid) (ps : List Piece) (rest : Bytes) (r : Rd)
    (h : Holds (e.pieces ++ ps) rest r) :
    ∃ r', loadString r = (.ok e.value, r') ∧ Holds ps rest r' := loadString_at hs hv h

/-- C63 for a small file. -/
theorem C63_small_partial (e : StrEnc) (hs : e.Supported) (hv : e.Valid) (rest : Bytes) (hl : (bytes e.pieces ++ rest).length ≤ bufSize) :
    ∃ r', loadString (file (bytes e.pieces ++ rest)) = (.ok e.value, r') ∧ r'.flat = rest := by
  obtain ⟨r', h1, h2⟩ := loadString_at (ps := []) hs hv (by simpa using holds_small e.pieces rest hl)
  exact ⟨r', h1, by simpa using h2.flat⟩

example : ∃ r', loadString (file (bytes (StrEnc.pieces (.lzf .b6 .b6 [.lit b!"ab", .ref 2 7])) ++ [1, 2])) = (.ok b!"ababababa", r') ∧
    r'.flat = [1, 2] :=
  C63_small_partial (.lzf .b6 .b6 [.lit b!"ab", .ref 2 7]) (by simp [StrEnc.Supported, LenEnc.Supported])
    ⟨by simp, by simp [Lzf.ValidFrom, Lzf.Valid, Lzf.apply], by decide, by decide⟩ [1, 2] (by decide)

/-! ## C64: blocks -/

/-- C64, full statement refuted: two readers deliver the same bytes, in different blocks. -/
theorem C64_violated : ¬ ∀ (r r' : Rd), r.WF → r'.WF → r.flat = r'.flat → (loadString r).1 = (loadString r').1 := by
  intro h
  have := h ⟨[], [[2, 104, 105]]⟩ ⟨[], [[2, 104], [105]]⟩ (by simp [Rd.WF]) (by simp [Rd.WF]) (by decide)
  revert this
  decide +kernel

/-- C64, how it fails in a regular file: of a plain string that begins the file and does not fit into
the first block, the rest is replaced by zeros. -/
theorem C64_violated_file (s : Bytes) (h1 : bufSize - 2 < s.length) (h2 : s.length < 16384) :
    (loadString (file (bytes (StrEnc.pieces (.raw .b14 s))))).1 =
      .ok (s.take (bufSize - 2) ++ List.replicate (s.length - (bufSize - 2)) 0) := by
  have h4 : bufSize = 4096 := rfl
  have hb := ofNat_toNat (n := 64 + s.length / 256) (by omega)
  have hb2 : (UInt8.ofNat s.length).toNat = s.length % 256 := by simp
  have e1 : readByte (file (bytes (StrEnc.pieces (.raw .b14 s)))) =
      (.ok (UInt8.ofNat (64 + s.length / 256)), ⟨UInt8.ofNat s.length :: s.take (bufSize - 2), [s.drop (bufSize - 2)]⟩) := by
    simp [readByte, file, fill, netRead, StrEnc.pieces, LenEnc.pieces, Piece.bytes, h4]
  have e2 : readByte ⟨UInt8.ofNat s.length :: s.take (bufSize - 2), [s.drop (bufSize - 2)]⟩ =
      (.ok (UInt8.ofNat s.length), ⟨s.take (bufSize - 2), [s.drop (bufSize - 2)]⟩) := by simp [readByte]
  have hne : (s.take (bufSize - 2)) ≠ [] := by
    intro e
    have := congrArg List.length e
    rw [List.length_take, List.length_nil] at this; omega
  have e3 : loadLen (file (bytes (StrEnc.pieces (.raw .b14 s)))) = (.ok (s.length, false), ⟨s.take (bufSize - 2), [s.drop (bufSize - 2)]⟩) := by
    simp only [loadLen, e1, andThen_ok, hb]
    rw [if_neg (by omega), if_neg (by omega), if_pos (by omega)]
    simp only [e2, hb2]
    congr 3
    omega
  simp only [loadString, e3, andThen_ok, Bool.false_eq_true, if_false]
  have e4 : Resp.read s.length ⟨s.take (bufSize - 2), [s.drop (bufSize - 2)]⟩ =
      (.ok ((s.take (bufSize - 2)).take s.length), ⟨(s.take (bufSize - 2)).drop s.length, [s.drop (bufSize - 2)]⟩) := by
    cases hc : s.take (bufSize - 2) with
    | nil => exact absurd hc hne
    | cons a as =>
      simp only [Resp.read]
      rw [if_neg (by omega)]
  rw [e4]
  simp only [andThen_ok]
  have : (s.take (bufSize - 2)).take s.length = s.take (bufSize - 2) := List.take_of_length_le (by simp; omega)
  rw [this]
  simp only [List.length_take, Nat.min_eq_left (Nat.le_of_lt h1)]

/-- `Read` fails only when nothing is left, and leaves nothing. -/
theorem read_eof_flat {n : Nat} {r : Rd} {e : RErr} (h : (Resp.read n r).1 = .err e) : (Resp.read n r).2.flat = [] := by
  unfold Resp.read at h ⊢
  by_cases h0 : n = 0
  · rw [if_pos h0] at h; cases h
  rw [if_neg h0] at h ⊢
  obtain ⟨buf, net⟩ := r
  cases buf with
  | cons b bs => cases h
  | nil =>
    simp only at h ⊢
    by_cases hb : bufSize ≤ n
    · rw [if_pos hb] at h ⊢
      cases hn : netRead n net with
      | none => rfl
      | some p => rw [hn] at h; cases h
    · rw [if_neg hb] at h ⊢
      cases hn : netRead bufSize net with
      | none => rfl
      | some p => rw [hn] at h; cases h

/-- What `io.ReadFull` does depends on the bytes only. -/
theorem readFullAux_flat {f n : Nat} {r : Rd} (hw : r.WF) (hf : n ≤ f) :
    (n ≤ r.flat.length → ∃ r', readFullAux f n r = (.ok (r.flat.take n), r') ∧ r'.flat = r.flat.drop n ∧ r'.WF) ∧
    (r.flat.length < n → ∃ r', readFullAux f n r = (.err .eof, r') ∧ r'.flat = [] ∧ r'.WF) := by
  induction f generalizing n r with
  | zero =>
    obtain rfl : n = 0 := by omega
    exact ⟨fun _ => ⟨r, by simp [readFullAux], by simp, hw⟩, fun h => by omega⟩
  | succ f ih =>
    cases n with
    | zero => exact ⟨fun _ => ⟨r, by simp [readFullAux], by simp, hw⟩, fun h => by omega⟩
    | succ n =>
      rcases hr : Resp.read (n + 1) r with ⟨x, r1⟩
      rcases read_flat (n + 1) r hw with ⟨⟨d, h1, h2, h3, h4⟩, h5⟩ | ⟨h1, h2, h3, h4⟩
      · rw [hr] at h1 h2 h5
        simp only at h1 h2 h5
        subst h1
        have hd : 0 < d.length := List.length_pos_iff.mpr (h4 (by omega))
        obtain ⟨i1, i2⟩ := ih (n := n + 1 - d.length) h5 (by omega)
        have hlen : r.flat.length = d.length + r1.flat.length := by rw [h2, List.length_append]
        refine ⟨fun h => ?_, fun h => ?_⟩
        · obtain ⟨r', a1, a2, a3⟩ := i1 (by omega)
          refine ⟨r', ?_, ?_, a3⟩
          · simp only [readFullAux, hr, andThen_ok, a1]
            rw [h2, List.take_append, List.take_of_length_le (l := d) h3]
          · rw [a2, h2, List.drop_append, List.drop_eq_nil_of_le (as := d) h3]; rfl
        · obtain ⟨r', a1, a2, a3⟩ := i2 (by omega)
          exact ⟨r', by simp only [readFullAux, hr, andThen_ok, a1, andThen_err], a2, a3⟩
      · have h6 := read_eof_flat h1
        rw [hr] at h1 h4 h6
        simp only at h1
        subst h1
        exact ⟨fun h => by rw [h2] at h; simp at h, fun h => ⟨r1, by simp only [readFullAux, hr, andThen_err], h6, h4⟩⟩

/-- Two results agree, and what is left to read agrees. -/
structure Same {α : Type} (x y : RRes α × Rd) : Prop where
  val : x.1 = y.1
  flat : x.2.flat = y.2.flat
  wf1 : x.2.WF
  wf2 : y.2.WF

theorem Same.bind {α β : Type} {x y : RRes α × Rd} {f : α → Rd → RRes β × Rd} (h : Same x y)
    (hf : ∀ a r r', r.WF → r'.WF → r.flat = r'.flat → Same (f a r) (f a r')) : Same (andThen x f) (andThen y f) := by
  obtain ⟨x1, x2⟩ := x
  obtain ⟨y1, y2⟩ := y
  obtain ⟨h1, h2, h3, h4⟩ := h
  simp only at h1
  subst h1
  cases x1 with
  | ok a => exact hf a x2 y2 h3 h4 h2
  | err e => exact ⟨rfl, h2, h3, h4⟩
  | panic => exact ⟨rfl, h2, h3, h4⟩

theorem same_readByte {r r' : Rd} (h1 : r.WF) (h2 : r'.WF) (h : r.flat = r'.flat) : Same (readByte r) (readByte r') := by
  obtain ⟨a1, a2⟩ := readByte_flat r h1
  obtain ⟨b1, b2⟩ := readByte_flat r' h2
  rw [h, ← b1] at a1
  obtain ⟨e1, e2⟩ := Prod.mk.inj a1
  exact ⟨e1, e2, a2, b2⟩

theorem same_readFull (n : Nat) {r r' : Rd} (h1 : r.WF) (h2 : r'.WF) (h : r.flat = r'.flat) : Same (readFull n r) (readFull n r') := by
  obtain ⟨a1, a2⟩ := readFullAux_flat (n := n) h1 (Nat.le_refl n)
  obtain ⟨b1, b2⟩ := readFullAux_flat (n := n) h2 (Nat.le_refl n)
  rw [← h] at b1 b2
  by_cases hl : n ≤ r.flat.length
  · obtain ⟨x, x1, x2, x3⟩ := a1 hl
    obtain ⟨y, y1, y2, y3⟩ := b1 hl
    rw [readFull, readFull, x1, y1]
    exact ⟨rfl, by rw [x2, y2], x3, y3⟩
  · obtain ⟨x, x1, x2, x3⟩ := a2 (by omega)
    obtain ⟨y, y1, y2, y3⟩ := b2 (by omega)
    rw [readFull, readFull, x1, y1]
    exact ⟨rfl, by rw [x2, y2], x3, y3⟩

/-- Reading a length does not depend on the blocks. -/
theorem same_loadLen {r r' : Rd} (h1 : r.WF) (h2 : r'.WF) (h : r.flat = r'.flat) : Same (loadLen r) (loadLen r') := by
  unfold loadLen
  refine (same_readByte h1 h2 h).bind fun b r r' g1 g2 g => ?_
  by_cases c1 : b.toNat / 64 = 3
  · rw [if_pos c1, if_pos c1]; exact ⟨rfl, g, g1, g2⟩
  rw [if_neg c1, if_neg c1]
  by_cases c2 : b.toNat / 64 = 0
  · rw [if_pos c2, if_pos c2]; exact ⟨rfl, g, g1, g2⟩
  rw [if_neg c2, if_neg c2]
  by_cases c3 : b.toNat / 64 = 1
  · rw [if_pos c3, if_pos c3]
    have hs := same_readByte g1 g2 g
    rcases hx : readByte r with ⟨u, u2⟩
    rcases hy : readByte r' with ⟨v, v2⟩
    rw [hx, hy] at hs
    obtain ⟨e, k1, k2, k3⟩ := hs
    simp only at e
    subst e
    cases u <;> exact ⟨rfl, k1, k2, k3⟩
  rw [if_neg c3, if_neg c3]
  by_cases c4 : b = 0x80
  · rw [if_pos c4, if_pos c4]
    obtain ⟨_, k1, k2, k3⟩ := same_readFull 4 g1 g2 g
    exact ⟨rfl, k1, k2, k3⟩
  rw [if_neg c4, if_neg c4]
  by_cases c5 : b = 0x81
  · rw [if_pos c5, if_pos c5]
    obtain ⟨_, k1, k2, k3⟩ := same_readFull 8 g1 g2 g
    exact ⟨rfl, k1, k2, k3⟩
  rw [if_neg c5, if_neg c5]
  exact ⟨rfl, g, g1, g2⟩

theorem same_loadLzf {r r' : Rd} (h1 : r.WF) (h2 : r'.WF) (h : r.flat = r'.flat) : Same (loadLzf r) (loadLzf r') := by
  unfold loadLzf
  refine (same_loadLen h1 h2 h).bind fun n r r' h1 h2 h => ?_
  refine (same_loadLen h1 h2 h).bind fun l r r' h1 h2 h => ?_
  refine (same_readFull _ h1 h2 h).bind fun c r r' h1 h2 h => ?_
  cases Lzf.goDecompress c l.1 with
  | ok s => exact ⟨rfl, h, h1, h2⟩
  | err e => exact e.elim
  | panic => exact ⟨rfl, h, h1, h2⟩

/-- C64 for the integer and compressed forms (the first byte is 0xc0 or more), on arbitrary bytes,
valid or not: the result does not depend on the blocks.  Missing: plain strings (`C64_violated`). -/
theorem C64_encoded_partial (b : UInt8) (hb : 0xc0 ≤ b) (f : Bytes) (r r' : Rd) (h1 : r.WF) (h2 : r'.WF) (hr : r.flat = b :: f)
    (hr' : r'.flat = b :: f) : (loadString r).1 = (loadString r').1 ∧ (loadString r).2.flat = (loadString r').2.flat := by
  have hb3 : b.toNat / 64 = 3 := by
    have := b.toNat_lt
    have h : (0xc0 : UInt8).toNat ≤ b.toNat := UInt8.le_iff_toNat_le.mp hb
    have e : (0xc0 : UInt8).toNat = 192 := rfl
    omega
  obtain ⟨x, x1, x2, x3⟩ := readByte_at h1 hr
  obtain ⟨y, y1, y2, y3⟩ := readByte_at h2 hr'
  have g : x.flat = y.flat := by rw [x2, y2]
  have lx : loadLen r = (.ok (b.toNat % 64, true), x) := by simp only [loadLen, x1, andThen_ok, if_pos hb3]
  have ly : loadLen r' = (.ok (b.toNat % 64, true), y) := by simp only [loadLen, y1, andThen_ok, if_pos hb3]
  have : Same (loadString r) (loadString r') := by
    simp only [loadString, lx, ly, andThen_ok, if_true]
    by_cases c0 : b.toNat % 64 = 0
    · rw [if_pos c0, if_pos c0]
      exact (same_readByte x3 y3 g).bind fun _ _ _ h1 h2 h => ⟨rfl, h, h1, h2⟩
    rw [if_neg c0, if_neg c0]
    by_cases c1 : b.toNat % 64 = 1
    · rw [if_pos c1, if_pos c1]
      exact (same_readFull 2 x3 y3 g).bind fun _ _ _ h1 h2 h => ⟨rfl, h, h1, h2⟩
    rw [if_neg c1, if_neg c1]
    by_cases c2 : b.toNat % 64 = 2
    · rw [if_pos c2, if_pos c2]
      have hs := same_readFull 4 x3 y3 g
      rcases hx : readFull 4 x with ⟨u, u2⟩
      rcases hy : readFull 4 y with ⟨v, v2⟩
      rw [hx, hy] at hs
      obtain ⟨e, k1, k2, k3⟩ := hs
      simp only at e
      subst e
      cases u <;> exact ⟨rfl, k1, k2, k3⟩
    rw [if_neg c2, if_neg c2]
    by_cases c3 : b.toNat % 64 = 3
    · rw [if_pos c3, if_pos c3]
      exact same_loadLzf x3 y3 g
    rw [if_neg c3, if_neg c3]
    exact ⟨rfl, g, x3, y3⟩
  exact ⟨this.val, this.flat⟩

example : (loadString ⟨[], [[0xc1], [1], [2]]⟩).1 = (loadString ⟨[], [[0xc1, 1, 2]]⟩).1 :=
  (C64_encoded_partial 0xc1 (by decide) [1, 2] _ _ (by simp [Rd.WF]) (by simp [Rd.WF]) (by decide) (by decide)).1

/-- C64 for plain strings that do not cross the end of a block: the result is the string. -/
theorem C64_uncut_partial (l : LenEnc) (hl : l = .b6 ∨ l = .b14) (s : Bytes) (hs : s.length < l.limit) (rest : Bytes) (r : Rd)
    (h : Holds (StrEnc.pieces (.raw l s)) rest r) : ∃ r', loadString r = (.ok s, r') ∧ r'.flat = rest := by
  obtain ⟨r', h1, h2⟩ := loadString_at (e := .raw l s) (ps := []) hl hs (by simpa using h)
  exact ⟨r', h1, by simpa using h2.flat⟩

example : ∃ r', loadString ⟨[], [[2], [104, 105], [1]]⟩ = (.ok b!"hi", r') ∧ r'.flat = [1] :=
  C64_uncut_partial .b6 (.inl rfl) b!"hi" (by decide) [1] _
    ⟨by simp [Rd.WF], by decide, by simp [Uncut, StrEnc.pieces, LenEnc.pieces, segs, blocks, consS, sdrop, Piece.bytes, bufSize], .inl (by simp [bufSize])⟩

end Verif.Rdb

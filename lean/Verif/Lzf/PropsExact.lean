import Verif.Lzf.Props

/-!
# C61 exactly: which texts come back from `Compress` and `DeCompress`

`DeCompress` fills a fresh buffer, so what it does not write stays zero.  With that the result of
`DeCompress` on any text is known, and with it the set of texts for which the round trip works.
-/

namespace Verif.Lzf

/-! ## What is not written stays zero -/

/-- Nothing has been written from `n` on. -/
def Blank (m : Mem) (n : Nat) : Prop := ∀ j, n ≤ j → m.cell j = none

theorem R.bind_eq_ok {α β : Type} {x : R α} {f : α → R β} {b : β} (h : (x >>= f) = .ok b) :
    ∃ a, x = .ok a ∧ f a = .ok b := by
  cases x with
  | ok a => exact ⟨a, rfl, h⟩
  | fail => cases h
  | fault => cases h

theorem blank_wr {m m' : Mem} {i : Nat} {b : UInt8} (hb : Blank m i) (h : m.wr i b = .ok m') : Blank m' (i + 1) := by
  simp only [Mem.wr] at h
  split at h
  · simp only [R.ok.injEq] at h
    subst h
    intro j hj
    have : j ≠ i := by omega
    simp [this, hb j (by omega)]
  · cases h

theorem blank_copyIn {inp : Bytes} (k : Nat) {s s' : DS} (hb : Blank s.out s.op) (h : copyIn inp k s = .ok s') :
    Blank s'.out s'.op := by
  induction k generalizing s with
  | zero => simp only [copyIn, R.ok.injEq] at h; subst h; exact hb
  | succ k ih =>
    obtain ⟨b, _, h⟩ := R.bind_eq_ok h
    obtain ⟨m, h1, h⟩ := R.bind_eq_ok h
    exact ih (blank_wr hb h1) h

theorem blank_copyOut (k : Nat) {m : Mem} {op ref : Nat} {p : Mem × Nat} (hb : Blank m op)
    (h : copyOut k m op ref = .ok p) : Blank p.1 p.2 := by
  induction k generalizing m op ref with
  | zero => simp only [copyOut, R.ok.injEq] at h; subst h; exact hb
  | succ k ih =>
    obtain ⟨b, _, h⟩ := R.bind_eq_ok h
    obtain ⟨m', h1, h⟩ := R.bind_eq_ok h
    exact ih (blank_wr hb h1) h

theorem readN_length (m : Mem) (k : Nat) {ref : Nat} {bs : Bytes} (h : readN m ref k = .ok bs) : bs.length = k := by
  induction k generalizing ref bs with
  | zero => simp only [readN, R.ok.injEq] at h; subst h; rfl
  | succ k ih =>
    obtain ⟨b, _, h⟩ := R.bind_eq_ok h
    obtain ⟨cs, h1, h⟩ := R.bind_eq_ok h
    simp only [R.pure_eq, R.ok.injEq] at h
    subst h
    simp [ih h1]

theorem blank_writeAll (bs : Bytes) {m m' : Mem} {op : Nat} (hb : Blank m op) (h : writeAll m op bs = .ok m') :
    Blank m' (op + bs.length) := by
  induction bs generalizing m op with
  | nil => simp only [writeAll, R.ok.injEq] at h; subst h; exact hb
  | cons b bs ih =>
    obtain ⟨m1, h1, h⟩ := R.bind_eq_ok h
    have := ih (blank_wr hb h1) h
    simpa [Nat.add_comm, Nat.add_left_comm] using this

theorem blank_copyRef {m : Mem} {op ref len : Nat} {p : Mem × Nat} (hb : Blank m op)
    (h : copyRef m op ref len = .ok p) : Blank p.1 p.2 := by
  simp only [copyRef] at h
  split at h
  · split at h
    · obtain ⟨m1, h1, h⟩ := R.bind_eq_ok h
      simp only [R.pure_eq, R.ok.injEq] at h
      subst h
      simp only [memcpy] at h1
      split at h1
      · obtain ⟨bs, h2, h1⟩ := R.bind_eq_ok h1
        have := blank_writeAll bs hb h1
        rwa [readN_length _ _ h2] at this
      · cases h1
    · exact blank_copyOut _ hb h
  · exact blank_copyOut _ hb h

theorem blank_dturn {inp : Bytes} {s s' : DS} (hb : Blank s.out s.op) (h : dturn inp s = .ok s') : Blank s'.out s'.op := by
  simp only [dturn] at h
  obtain ⟨c, _, h⟩ := R.bind_eq_ok h
  split at h
  · split at h
    · cases h
    · split at h
      · cases h
      · exact blank_copyIn _ (s := ⟨s.ip + 1, s.op, s.out⟩) hb h
  · split at h
    · cases h
    · obtain ⟨⟨len, ip⟩, _, h⟩ := R.bind_eq_ok h
      simp only at h
      split at h
      · cases h
      · obtain ⟨b, _, h⟩ := R.bind_eq_ok h
        split at h
        · cases h
        · split at h
          · cases h
          · obtain ⟨p, h1, h⟩ := R.bind_eq_ok h
            simp only [R.pure_eq, R.ok.injEq] at h
            subst h
            exact blank_copyRef hb h1

theorem blank_dloop {inp : Bytes} (fuel : Nat) {s s' : DS} (hb : Blank s.out s.op) (h : dloop inp fuel s = .ok s') :
    Blank s'.out s'.op := by
  induction fuel generalizing s with
  | zero => cases h
  | succ k ih =>
    obtain ⟨s1, h1, h⟩ := R.bind_eq_ok h
    have hb1 := blank_dturn hb h1
    split at h
    · exact ih hb1 h
    · simp only [R.pure_eq, R.ok.injEq] at h; subst h; exact hb1

theorem blank_decompress {inp : Bytes} {outLen n : Nat} {m : Mem} (h : decompress inp outLen = .ok (n, m)) : Blank m n := by
  obtain ⟨s, h1, h⟩ := R.bind_eq_ok h
  simp only [R.pure_eq, R.ok.injEq, Prod.mk.injEq] at h
  obtain ⟨rfl, rfl⟩ := h
  exact blank_dloop _ (fun _ _ => rfl) h1

theorem blank_bytes {m : Mem} {n : Nat} (hb : Blank m n) (k : Nat) :
    m.bytes (n + k) = m.bytes n ++ List.replicate k 0 := by
  induction k with
  | zero => simp
  | succ k ih =>
    have : m.bytes (n + k + 1) = m.bytes (n + k) ++ [(m.cell (n + k)).getD 0] := by
      simp [Mem.bytes, List.range_succ]
    rw [← Nat.add_assoc, this, ih, hb (n + k) (by omega), List.append_assoc, List.replicate_succ']
    rfl

/-! ## `DeCompress` -/

/-- `DeCompress` of any text, exactly: an LZF stream whose output fits gives that output, filled up
with zero bytes to the length asked for; every other text is returned as it is. -/
theorem C61_decompress_exact (s : Bytes) (hs : s.length < 2 ^ 32) (hne : s ≠ []) (n : Nat) (hn : 0 < n) (hn' : n < 2 ^ 32) :
    (∃ ts, ValidFrom [] ts ∧ encodeAll ts = s ∧ (denote ts).length ≤ n ∧
      goDecompress s n = .ok (denote ts ++ List.replicate (n - (denote ts).length) 0)) ∨
    ((∀ ts, ValidFrom [] ts → encodeAll ts = s → n < (denote ts).length) ∧ goDecompress s n = .ok s) := by
  simp only [goDecompress, Int.toNat_natCast]
  rw [if_neg (by simp only [hne, false_or]; omega), Nat.mod_eq_of_lt hs, List.take_length, Nat.mod_eq_of_lt hn']
  cases hd : decompress s n with
  | fault => exact absurd hd (C59_stays_inside s hne _)
  | fail =>
    refine .inr ⟨fun ts h1 h2 => ?_, rfl⟩
    have h0 : ts ≠ [] := by intro e; subst e; exact hne h2.symm
    apply Classical.byContradiction
    intro hc
    obtain ⟨m, a1, _⟩ := C60_decodes ts h0 h1 n (by omega)
    rw [h2, hd] at a1
    cases a1
  | ok p =>
    obtain ⟨k, m⟩ := p
    obtain ⟨ts, h0, h1, h2, h3, h4, h5⟩ := C60_only s hne _ _ _ hd
    have hk : ∃ j, k = j + 1 := by
      cases ts with
      | nil => exact absurd rfl h0
      | cons t ts =>
        have hv := h1.1
        have hpos : 0 < (denote (t :: ts)).length := by
          have hmono : ∀ (l : List Tok) (o : Bytes), o.length ≤ (denoteFrom o l).length := by
            intro l
            induction l with
            | nil => intro o; exact Nat.le_refl _
            | cons u l ih =>
              intro o
              refine Nat.le_trans ?_ (ih (apply o u))
              cases u with
              | lit bs => simp [apply]
              | ref d l => simp [apply, copyFrom_length]
          refine Nat.lt_of_lt_of_le ?_ (hmono ts (apply [] t))
          cases t with
          | lit bs => obtain ⟨v1, _⟩ := hv; simp only [apply, List.nil_append]; omega
          | ref d l => obtain ⟨v1, v2, v3, _⟩ := hv; simp at v3; omega
        exact ⟨k - 1, by omega⟩
    refine .inl ⟨ts, h1, h2.symm, by omega, ?_⟩
    have hb := blank_bytes (blank_decompress hd) (n - k)
    rw [show k + (n - k) = n by omega] at hb
    obtain ⟨j, rfl⟩ := hk
    show GoRes.ok (m.bytes n) = _
    rw [hb, h5, h3]

/-- C61, exactly where it holds for a non-empty text: the text compressed, or it is no LZF stream whose
output fits, or it happens to be its own output. -/
theorem C61_exact (over : UInt8) (htab : HTab) (s : Bytes) (hne : s ≠ []) (hs : s.length < 2 ^ 32) (z : Bytes)
    (hz : goCompress over htab s = .ok z) :
    goDecompress z s.length = .ok s ↔
      (z ≠ s ∨ ∀ ts, ValidFrom [] ts → encodeAll ts = s → (denote ts).length ≤ s.length →
        denote ts ++ List.replicate (s.length - (denote ts).length) 0 = s) := by
  have hpos := List.length_pos_iff.mpr hne
  by_cases hzs : z = s
  · subst hzs
    rcases C61_decompress_exact z hs hne z.length hpos hs with ⟨ts, h1, h2, h3, h4⟩ | ⟨h1, h2⟩
    · rw [h4]
      simp only [GoRes.ok.injEq, ne_eq, not_true_eq_false, false_or]
      constructor
      · intro h us u1 u2 u3
        have h0 : us ≠ [] := by intro e; subst e; exact hne u2.symm
        have h0' : ts ≠ [] := by intro e; subst e; exact hne h2.symm
        obtain ⟨m, a1, a2⟩ := C60_decodes us h0 u1 z.length u3
        obtain ⟨m', b1, b2⟩ := C60_decodes ts h0' h1 z.length h3
        rw [u2] at a1
        rw [h2, a1] at b1
        simp only [R.ok.injEq, Prod.mk.injEq] at b1
        obtain ⟨b3, rfl⟩ := b1
        have e : denote us = denote ts := by rw [← a2, ← b2, b3]
        rw [e]; exact h
      · intro h
        exact h ts h1 h2 h3
    · rw [h2]
      simp only [ne_eq, not_true_eq_false, false_or, true_iff]
      intro ts u1 u2 u3
      have := h1 ts u1 u2
      omega
  · simp only [ne_eq, hzs, not_false_eq_true, true_or, iff_true]
    exact C61_compressed_partial over htab s hs z hz hzs

/-- The two zero bytes are an LZF stream that gives them back. -/
example : goDecompress [0, 0] 2 = .ok [0, 0] ∧ ValidFrom [] [.lit [0]] ∧ encodeAll [.lit [0]] = [0, 0] := by
  refine ⟨by decide +kernel, ⟨⟨by simp, by simp⟩, trivial⟩, rfl⟩

/-- A stream whose output is shorter than asked for: the rest is zero bytes. -/
example : goDecompress [1, 97, 98] 5 = .ok [97, 98, 0, 0, 0] := by decide +kernel

/-- A text that is no stream comes back. -/
example : goDecompress b!"zz" 2 = .ok b!"zz" := by decide +kernel

/-- C58, exactly: the compressor reaches outside its buffers if and only if the input is a single byte and the
output buffer is not empty. -/
theorem C58_exact (htab : HTab) (inp : Bytes) (outLen : Nat) :
    compress none htab inp outLen = .fault ↔ inp.length = 1 ∧ outLen ≠ 0 := by
  constructor
  · intro h
    refine ⟨Decidable.byContradiction fun hl => C58_stays_inside_partial htab inp hl outLen h, fun ho => ?_⟩
    subst ho
    simp [compress] at h
  · rintro ⟨hl, ho⟩
    match inp, hl with
    | [b], _ => exact C58_violated htab b outLen ho

end Verif.Lzf

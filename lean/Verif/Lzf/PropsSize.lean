import Verif.Lzf.Props

/-!
# C84: the bound on the expansion is attained, and the exact lengths where 104% holds

Text in which no three bytes in a row come back within 8192 bytes cannot be shortened: the only tokens
that denote it are literal runs.  Such text exists at every length.
-/

namespace Verif.Lzf

/-- No three bytes in a row occur again within the reach of a back reference. -/
def Fresh (s : Bytes) : Prop :=
  ∀ i j, i < j → j ≤ i + 8192 → j + 2 < s.length → s[i]? = s[j]? → s[i + 1]? = s[j + 1]? → s[i + 2]? ≠ s[j + 2]?

/-! ## Only literal runs denote such text -/

theorem copyFrom_prefix (out : Bytes) (d k : Nat) : out <+: copyFrom out d k := by
  induction k generalizing out with
  | zero => exact List.prefix_rfl
  | succ k ih => exact (List.prefix_append _ _).trans (ih _)

theorem apply_prefix (out : Bytes) (t : Tok) : out <+: apply out t := by
  cases t with
  | lit bs => exact List.prefix_append _ _
  | ref d l => exact copyFrom_prefix out d l

theorem denoteFrom_prefix (out : Bytes) (ts : List Tok) : out <+: denoteFrom out ts := by
  induction ts generalizing out with
  | nil => exact List.prefix_rfl
  | cons t ts ih => exact (apply_prefix out t).trans (ih _)

theorem getElem?_of_prefix {a b : Bytes} (h : a <+: b) {i : Nat} (hi : i < a.length) : b[i]? = a[i]? := by
  obtain ⟨c, rfl⟩ := h
  rw [List.getElem?_append_left hi]

theorem copyFrom_get (out : Bytes) (d : Nat) (h1 : 1 ≤ d) (hd : d ≤ out.length) (k j : Nat) (hj : j < k) :
    (copyFrom out d k)[out.length + j]? = (copyFrom out d k)[out.length + j - d]? := by
  induction k with
  | zero => omega
  | succ k ih =>
    have hl := copyFrom_length out d k
    rw [copyFrom_last]
    by_cases h : j < k
    · rw [List.getElem?_append_left (by omega), List.getElem?_append_left (by omega)]
      exact ih h
    · obtain rfl : j = k := by omega
      have hlt : out.length + j - d < (copyFrom out d j).length := by rw [hl]; omega
      rw [List.getElem?_append_left hlt, List.getElem?_append_right (by rw [hl]; exact Nat.le_refl _), hl]
      rw [Nat.sub_self, List.getElem?_cons_zero, List.getD_eq_getElem?_getD, List.getElem?_eq_getElem hlt]
      rfl

theorem fresh_lits {out : Bytes} {ts : List Tok} (hv : ValidFrom out ts) {s : Bytes} (hp : denoteFrom out ts <+: s)
    (hf : Fresh s) : ∀ t ∈ ts, ∃ bs : Bytes, t = .lit bs ∧ bs.length ≤ 32 := by
  induction ts generalizing out with
  | nil => intro t ht; cases ht
  | cons t ts ih =>
    intro u hu
    rcases List.mem_cons.1 hu with rfl | hu
    · cases u with
      | lit bs => exact ⟨bs, rfl, hv.1.2⟩
      | ref d l =>
        obtain ⟨⟨v1, v2, v3, v4, v5⟩, _⟩ := hv
        have hpre : copyFrom out d l <+: s := (denoteFrom_prefix _ ts).trans hp
        have hl := copyFrom_length out d l
        have hle := hpre.length_le
        have key : ∀ j, j < 3 → s[out.length - d + j]? = s[out.length + j]? := by
          intro j hj
          rw [getElem?_of_prefix hpre (by omega), getElem?_of_prefix hpre (by omega), copyFrom_get out d v1 v3 l j (by omega)]
          congr 1
          omega
        exact absurd (key 2 (by omega))
          (hf (out.length - d) out.length (by omega) (by omega) (by omega) (key 0 (by omega)) (key 1 (by omega)))
    · exact ih hv.2 hp u hu

theorem lits_size {out : Bytes} {ts : List Tok} (h : ∀ t ∈ ts, ∃ bs : Bytes, t = .lit bs ∧ bs.length ≤ 32) :
    out.length + (encodeAll ts).length = (denoteFrom out ts).length + ts.length ∧
    (denoteFrom out ts).length ≤ out.length + 32 * ts.length := by
  induction ts generalizing out with
  | nil => simp [encodeAll, denoteFrom]
  | cons t ts ih =>
    obtain ⟨bs, rfl, hb⟩ := h _ List.mem_cons_self
    have := ih (out := out ++ bs) (fun t ht => h t (List.mem_cons_of_mem _ ht))
    simp only [encodeAll, List.map_cons, List.flatten_cons, List.length_append, List.length_cons, denoteFrom, apply, encode] at this ⊢
    omega

/-- C84: text without repetitions takes exactly the extra bytes C84_expansion allows, whatever the room
and the table. -/
theorem C84_fresh (over : Over) (htab : HTab) (inp : Bytes) (outLen n : Nat) (m : Mem) (h2 : 2 ≤ inp.length)
    (hf : Fresh inp) (h : compress over htab inp outLen = .ok (n, m)) :
    n = inp.length + (inp.length + 31) / 32 := by
  have hle := C84_expansion over htab inp outLen n m h2 h
  by_cases ho : outLen = 0
  · subst ho; simp [compress] at h
  rcases compress_ok over htab inp outLen (by intro e; subst e; simp at h2) ho (.inl h2) with ⟨hf, _⟩ | ⟨m', ts, a1, a2, a3, _⟩
  · rw [hf] at h; exact absurd h (by simp)
  · rw [h] at a1
    simp only [R.ok.injEq, Prod.mk.injEq] at a1
    obtain ⟨rfl, rfl⟩ := a1
    have hs := lits_size (out := []) (fresh_lits a2 (s := inp) (by rw [← a3]; exact List.prefix_rfl) hf)
    have e : denoteFrom [] ts = inp := a3
    rw [e] at hs
    simp only [List.length_nil] at hs
    omega

/-! ## Such text exists at every length -/

/-- Three interleaved digits in disjoint ranges, the first two counting to 4096. -/
def digit (i : Nat) : UInt8 :=
  if i % 3 = 0 then UInt8.ofNat (i / 3 % 64)
  else if i % 3 = 1 then UInt8.ofNat (64 + i / 3 / 64 % 64)
  else 128

/-- The first `n` of these bytes. -/
def digits (n : Nat) : Bytes := (List.range n).map digit

theorem digits_get {n i : Nat} (h : i < n) : (digits n)[i]? = some (digit i) := by
  simp [digits, h]

theorem digit_eq {i j : Nat} (h : digit i = digit j) :
    i % 3 = j % 3 ∧ (i % 3 = 0 → i / 3 % 64 = j / 3 % 64) ∧ (i % 3 = 1 → i / 3 / 64 % 64 = j / 3 / 64 % 64) := by
  have ht := congrArg UInt8.toNat h
  unfold digit at ht
  split at ht <;> split at ht <;> (try split at ht) <;> (try split at ht) <;>
    simp only [UInt8.toNat_ofNat', UInt8.reduceToNat] at ht <;> omega

theorem digits_fresh (n : Nat) : Fresh (digits n) := by
  intro i j hij hd hl h0 h1 h2
  have hn : (digits n).length = n := by simp [digits]
  rw [hn] at hl
  rw [digits_get (by omega), digits_get (by omega)] at h0 h1 h2
  have e0 := digit_eq (Option.some.inj h0)
  have e1 := digit_eq (Option.some.inj h1)
  have e2 := digit_eq (Option.some.inj h2)
  obtain ⟨a0, b0, c0⟩ := e0
  obtain ⟨a1, b1, c1⟩ := e1
  obtain ⟨a2, b2, c2⟩ := e2
  have hm : i % 3 = 0 ∨ i % 3 = 1 ∨ i % 3 = 2 := by omega
  rcases hm with hm | hm | hm
  · have := b0 hm; have := c1 (by omega); omega
  · have := c0 hm; have := b2 (by omega); omega
  · have := b1 (by omega); have := c2 (by omega); omega

/-- C84: at every length there is text that takes all the extra bytes C84_expansion allows, so that bound
cannot be lowered. -/
theorem C84_tight (n : Nat) (h : 2 ≤ n) : ∃ inp : Bytes, inp.length = n ∧ ∀ (over : Over) (htab : HTab) (outLen : Nat),
    n + n / 32 + 4 ≤ outLen → ∃ m, compress over htab inp outLen = .ok (n + (n + 31) / 32, m) := by
  have hl : (digits n).length = n := by simp [digits]
  refine ⟨digits n, hl, fun over htab outLen ho => ?_⟩
  obtain ⟨k, m, e⟩ := C84_enough_room over htab (digits n) outLen (by omega) (by omega)
  refine ⟨m, ?_⟩
  rw [e, C84_fresh over htab (digits n) outLen k m (by omega) (digits_fresh n) e, hl]

/-- C84, exactly: the documented 104% holds for all text of length `n` just when 25 times the extra bytes
stay below `n`. -/
theorem C84_exact (n : Nat) (h : 2 ≤ n) (over : Over) (htab : HTab) :
    (∀ (inp : Bytes) (outLen k : Nat) (m : Mem), inp.length = n → compress over htab inp outLen = .ok (k, m) →
      100 * k < 104 * n) ↔ 25 * ((n + 31) / 32) < n := by
  constructor
  · intro ha
    obtain ⟨inp, hl, he⟩ := C84_tight n h
    obtain ⟨m, e⟩ := he over htab (n + n / 32 + 4) (Nat.le_refl _)
    have := ha inp _ _ m hl e
    omega
  · intro hn inp outLen k m hl e
    have := C84_expansion over htab inp outLen k m (by omega) e
    rw [hl] at this
    omega

/-- The lengths from 2 on at which the documented 104% can fail. -/
theorem C84_exact_lengths (n : Nat) (h : 2 ≤ n) :
    ¬ 25 * ((n + 31) / 32) < n ↔ n ≤ 25 ∨ (33 ≤ n ∧ n ≤ 50) ∨ (65 ≤ n ∧ n ≤ 75) ∨ (97 ≤ n ∧ n ≤ 100) := by
  omega

/-- C84 is false of the room as well: at every length there is text for which the compressor fails with less
than `n + 2 + (n - 2)/32` bytes.  The `n + ⌈n/32⌉` bytes it would fill are less, unless `n` leaves 1 when
divided by 32: the check before the last bytes (lzf_c.c:272) asks for three bytes beyond what is written by
then. -/
theorem C84_violated_room (n : Nat) (h : 2 ≤ n) : ∃ inp : Bytes, inp.length = n ∧ ∀ (over : Over) (htab : HTab) (outLen : Nat),
    outLen < n + 2 + (n - 2) / 32 → compress over htab inp outLen = .fail := by
  have hl : (digits n).length = n := by simp [digits]
  refine ⟨digits n, hl, fun over htab outLen ho => ?_⟩
  unfold compress
  by_cases hz : (digits n).length = 0 ∨ outLen = 0
  · rw [if_pos hz]
  rw [if_neg hz]
  obtain ⟨v, e1⟩ : ∃ v, frst over (digits n) 0 = .ok v := frst_ok (by omega)
  rw [e1]
  simp only [R.bind_ok]
  have hinit : CInv (digits n) outLen ⟨0, 1, 0, v, htab, Mem.fresh outLen⟩ [] [] :=
    ⟨trivial, rfl, Nat.zero_le _, rfl, by decide, rfl, sub_nil _ _, sub_nil _ _, rfl, Nat.le_refl _⟩
  rcases mainLoop_ok (over := over) ((digits n).length + 1) hinit (by simp only; omega) with ⟨hf, _⟩ | ⟨s, ts, lits, a1, a2, a3⟩
  · rw [hf]; rfl
  · rw [a1]
    simp only [R.bind_ok]
    have hp : denote ts <+: digits n := by
      refine (List.prefix_append (denote ts) lits).trans ?_
      rw [a2.means]
      exact List.take_prefix _ _
    have hs := lits_size (out := []) (fresh_lits a2.valid hp (digits_fresh n))
    have hm := congrArg List.length a2.means
    have hop := a2.op
    have hlt := a2.litLt
    have hle := a2.ipLe
    rw [List.length_append, List.length_take] at hm
    have hd : (denote ts).length = (denoteFrom [] ts).length := rfl
    simp only [List.length_nil] at hs
    rw [if_pos (by omega)]

/-- The bytes it would fill are below that. -/
example (n : Nat) (h : 2 ≤ n) (h1 : n % 32 ≠ 1) : n + (n + 31) / 32 < n + 2 + (n - 2) / 32 := by omega

/-- The text for 4 bytes, and its 5 bytes. -/
example : digits 4 = [0, 64, 128, 1] ∧ ∃ m, compress none (fun _ => 0) (digits 4) 8 = .ok (5, m) := by
  constructor
  · decide +kernel
  · exact ⟨_, rfl⟩

end Verif.Lzf

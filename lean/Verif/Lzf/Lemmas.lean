import Verif.Lzf.Model
import Verif.Lzf.Spec

/-! # Lemmas about the LZF model -/

namespace Verif.Lzf

/-! ## Buffers -/

/-- The buffer holds `bs` from offset `a` on. -/
def Sub (m : Mem) (a : Nat) (bs : Bytes) : Prop := ∀ j, j < bs.length → m.cell (a + j) = bs[j]?

theorem sub_nil (m : Mem) (a : Nat) : Sub m a [] := fun j h => by simp at h

theorem wr_ok {m : Mem} {i : Nat} (b : UInt8) (h : i < m.cap) :
    m.wr i b = .ok { m with cell := fun j => if j = i then some b else m.cell j } := by
  simp [Mem.wr, h]

theorem sub_wr {m : Mem} {a i : Nat} {bs : Bytes} {b : UInt8} (h : Sub m a bs) (hi : i < a ∨ a + bs.length ≤ i) :
    Sub { m with cell := fun j => if j = i then some b else m.cell j } a bs := by
  intro j hj
  have : a + j ≠ i := by omega
  simp [this, h j hj]

theorem sub_snoc {m : Mem} {a : Nat} {bs : Bytes} {b : UInt8} (h : Sub m a bs) :
    Sub { m with cell := fun j => if j = a + bs.length then some b else m.cell j } a (bs ++ [b]) := by
  intro j hj
  rw [List.length_append] at hj
  simp only [List.length_singleton] at hj
  by_cases he : j = bs.length
  · subst he; simp
  · have : a + j ≠ a + bs.length := by omega
    simp only [this, if_false]
    rw [h j (by omega), List.getElem?_append_left (by omega)]

theorem sub_append {m : Mem} {a : Nat} {bs cs : Bytes} (h : Sub m a bs) (h2 : Sub m (a + bs.length) cs) :
    Sub m a (bs ++ cs) := by
  intro j hj
  by_cases he : j < bs.length
  · rw [h j he, List.getElem?_append_left he]
  · rw [List.length_append] at hj
    rw [List.getElem?_append_right (by omega), ← h2 (j - bs.length) (by omega)]
    congr 1; omega

theorem sub_bytes {m : Mem} {bs : Bytes} (h : Sub m 0 bs) : m.bytes bs.length = bs := by
  apply List.ext_getElem?
  intro i
  simp only [Mem.bytes, List.getElem?_map]
  by_cases hi : i < bs.length
  · rw [List.getElem?_range hi]
    have := h i hi
    simp only [Nat.zero_add] at this
    simp [this, List.getElem?_eq_getElem hi]
  · rw [List.getElem?_eq_none (by rw [List.length_range]; omega), List.getElem?_eq_none (by omega)]; rfl

theorem rd_sub {m : Mem} {bs : Bytes} (h : Sub m 0 bs) (hc : bs.length ≤ m.cap) {i : Nat} (hi : i < bs.length) :
    m.rd i = .ok (bs.getD i 0) := by
  have := h i hi
  simp only [Nat.zero_add] at this
  have h2 : i < m.cap := by omega
  simp [Mem.rd, h2, this, List.getElem?_eq_getElem hi, List.getD]

theorem rdIn_ok {over : Over} {inp : Bytes} {i : Nat} (h : i < inp.length) : rdIn over inp i = .ok inp[i] := by
  simp [rdIn, List.getElem?_eq_getElem h]

theorem rdIn_drop {over : Over} {inp : Bytes} {i : Nat} {b : UInt8} {rest : Bytes} (h : inp.drop i = b :: rest) :
    rdIn over inp i = .ok b ∧ inp.drop (i + 1) = rest ∧ i < inp.length := by
  have h1 : (inp.drop i)[0]? = some b := by rw [h]; rfl
  rw [List.getElem?_drop, Nat.add_zero] at h1
  refine ⟨by simp [rdIn, h1], ?_, (List.getElem?_eq_some_iff.mp h1).1⟩
  have h2 : (inp.drop i).drop 1 = rest := by rw [h]; rfl
  rw [List.drop_drop] at h2
  exact h2

theorem drop_lt {inp : Bytes} {i : Nat} (h : i < inp.length) : inp.drop i = inp[i] :: inp.drop (i + 1) :=
  List.drop_eq_getElem_cons h

theorem drop_len {inp : Bytes} {i : Nat} {l : Bytes} (h : inp.drop i = l) (hl : l ≠ []) : i + l.length = inp.length := by
  have h1 := congrArg List.length h
  rw [List.length_drop] at h1
  have : 0 < l.length := List.length_pos_iff.mpr hl
  omega

/-! ## Copying -/

theorem copyFrom_length (out : Bytes) (d k : Nat) : (copyFrom out d k).length = out.length + k := by
  induction k generalizing out with
  | zero => rfl
  | succ k ih => simp only [copyFrom]; rw [ih]; simp; omega

theorem copyFrom_last (out : Bytes) (d k : Nat) :
    copyFrom out d (k + 1) = copyFrom out d k ++ [(copyFrom out d k).getD ((copyFrom out d k).length - d) 0] := by
  induction k generalizing out with
  | zero => rfl
  | succ k ih =>
    rw [copyFrom, ih]
    rfl

/-- A copy that does not overlap its output. -/
theorem copyFrom_disjoint (out : Bytes) (d k : Nat) (hd : d ≤ out.length) (hk : k ≤ d) :
    copyFrom out d k = out ++ (out.drop (out.length - d)).take k := by
  induction k with
  | zero => simp [copyFrom]
  | succ k ih =>
    rw [copyFrom_last, ih (by omega), List.append_assoc]
    congr 1
    have hlt : out.length - d + k < out.length := by omega
    rw [List.take_add_one]
    congr 1
    have e : (out ++ List.take k (List.drop (out.length - d) out)).length - d = out.length - d + k := by
      simp only [List.length_append, List.length_take, List.length_drop]; omega
    rw [e, List.getElem?_drop, List.getElem?_eq_getElem hlt, List.getD_eq_getElem?_getD,
      List.getElem?_append_left hlt, List.getElem?_eq_getElem hlt]
    rfl

theorem copyIn_ok {inp : Bytes} (bs : Bytes) {rest out : Bytes} {s : DS} (hd : inp.drop s.ip = bs ++ rest)
    (hs : Sub s.out 0 out) (ho : s.op = out.length) (hc : s.op + bs.length ≤ s.out.cap) :
    ∃ s', copyIn inp bs.length s = .ok s' ∧ s'.ip = s.ip + bs.length ∧ s'.op = s.op + bs.length ∧
      s'.out.cap = s.out.cap ∧ inp.drop s'.ip = rest ∧ Sub s'.out 0 (out ++ bs) := by
  induction bs generalizing s out with
  | nil => exact ⟨s, rfl, rfl, rfl, rfl, hd, by simpa using hs⟩
  | cons b bs ih =>
    simp only [List.length_cons] at hc
    obtain ⟨h1, h2, _⟩ := rdIn_drop (over := none) hd
    simp only [List.length_cons, copyIn, h1, R.bind_ok, wr_ok b (show s.op < s.out.cap by omega)]
    have hs' := sub_snoc (b := b) hs
    rw [Nat.zero_add, ← ho] at hs'
    obtain ⟨s', a1, a2, a3, a4, a5, a6⟩ := ih (s := ⟨s.ip + 1, s.op + 1, _⟩) h2 hs' (by simp [ho]) (by simp only; omega)
    exact ⟨s', a1, by simp only at a2; omega, by simp only at a3; omega, a4, a5, by simpa using a6⟩

theorem copyOut_ok {m : Mem} {out : Bytes} {op d : Nat} (k : Nat) (hs : Sub m 0 out) (ho : op = out.length)
    (h1 : 1 ≤ d) (h2 : d ≤ out.length) (hc : op + k ≤ m.cap) :
    ∃ m', copyOut k m op (op - d) = .ok (m', op + k) ∧ m'.cap = m.cap ∧ Sub m' 0 (copyFrom out d k) := by
  induction k generalizing m out op with
  | zero => exact ⟨m, rfl, rfl, hs⟩
  | succ k ih =>
    simp only [copyOut, rd_sub hs (by omega) (show op - d < out.length by omega), R.bind_ok]
    rw [wr_ok _ (show op < m.cap by omega)]
    simp only [R.bind_ok]
    have hs' := sub_snoc (b := out.getD (op - d) 0) hs
    rw [Nat.zero_add, ← ho] at hs'
    obtain ⟨m', a1, a2, a3⟩ := ih (op := op + 1) hs' (by simp [ho]) (by simp; omega) (by simp only; omega)
    refine ⟨m', ?_, a2, ?_⟩
    · rw [show op + 1 - d = op - d + 1 by omega, show op + 1 + k = op + (k + 1) by omega] at a1
      exact a1
    · rw [copyFrom, ← ho]; exact a3

theorem readN_ok {m : Mem} {out : Bytes} (hs : Sub m 0 out) (hc : out.length ≤ m.cap) (k ref : Nat)
    (h : ref + k ≤ out.length) : readN m ref k = .ok ((out.drop ref).take k) := by
  induction k generalizing ref with
  | zero => simp [readN]
  | succ k ih =>
    have hlt : ref < out.length := by omega
    simp only [readN, rd_sub hs hc hlt, R.bind_ok, ih (ref + 1) (by omega), R.pure_eq]
    rw [drop_lt hlt, List.take_succ_cons, List.getD_eq_getElem?_getD, List.getElem?_eq_getElem hlt]
    rfl

theorem writeAll_ok {m : Mem} {out : Bytes} {op : Nat} (bs : Bytes) (hs : Sub m 0 out) (ho : op = out.length)
    (hc : op + bs.length ≤ m.cap) : ∃ m', writeAll m op bs = .ok m' ∧ m'.cap = m.cap ∧ Sub m' 0 (out ++ bs) := by
  induction bs generalizing m out op with
  | nil => exact ⟨m, rfl, rfl, by simpa using hs⟩
  | cons b bs ih =>
    simp only [List.length_cons] at hc
    simp only [writeAll, wr_ok b (show op < m.cap by omega), R.bind_ok]
    have hs' := sub_snoc (b := b) hs
    rw [Nat.zero_add, ← ho] at hs'
    obtain ⟨m', a1, a2, a3⟩ := ih (op := op + 1) hs' (by simp [ho]) (by simp only; omega)
    exact ⟨m', a1, a2, by simpa using a3⟩

theorem copyRef_ok {m : Mem} {out : Bytes} {op d len : Nat} (hs : Sub m 0 out) (ho : op = out.length)
    (h1 : 1 ≤ d) (h2 : d ≤ out.length) (hc : op + len + 2 ≤ m.cap) :
    ∃ m', copyRef m op (op - d) len = .ok (m', op + (len + 2)) ∧ m'.cap = m.cap ∧ Sub m' 0 (copyFrom out d (len + 2)) := by
  unfold copyRef
  by_cases h9 : 9 < len
  · rw [if_pos h9]
    by_cases hov : op ≥ op - d + (len + 2)
    · rw [if_pos hov]
      obtain ⟨m', a1, a2, a3⟩ := writeAll_ok ((out.drop (op - d)).take (len + 2)) hs ho (by
        simp only [List.length_take, List.length_drop]; omega)
      refine ⟨m', ?_, a2, ?_⟩
      · simp only [memcpy]
        rw [if_pos (.inl hov), readN_ok hs (by omega) _ _ (by omega)]
        simp only [R.bind_ok, a1, R.pure_eq]
      · rw [copyFrom_disjoint out d (len + 2) h2 (by omega), ← ho]; exact a3
    · rw [if_neg hov]
      exact copyOut_ok (len + 2) hs ho h1 h2 (by omega)
  · rw [if_neg h9]
    exact copyOut_ok (len + 2) hs ho h1 h2 (by omega)

/-! ## One token -/

/-- The decompressor has produced `out`. -/
def DInv (s : DS) (out : Bytes) : Prop := Sub s.out 0 out ∧ s.op = out.length ∧ out.length ≤ s.out.cap

theorem ofNat_toNat {n : Nat} (h : n < 256) : (UInt8.ofNat n).toNat = n := by
  simp [UInt8.toNat_ofNat']; omega

theorem encode_lit_ctrl {bs : Bytes} (h1 : 1 ≤ bs.length) (h2 : bs.length ≤ 32) :
    (UInt8.ofNat (bs.length - 1)).toNat + 1 = bs.length := by
  rw [ofNat_toNat (by omega)]; omega

theorem dturn_lit {inp : Bytes} {s : DS} {bs rest out : Bytes} (hd : inp.drop s.ip = encode (.lit bs) ++ rest)
    (hi : DInv s out) (hv : Valid out (.lit bs)) (hc : (out ++ bs).length ≤ s.out.cap) :
    ∃ s', dturn inp s = .ok s' ∧ s'.out.cap = s.out.cap ∧ inp.drop s'.ip = rest ∧ DInv s' (out ++ bs) ∧
      s'.ip = s.ip + (encode (.lit bs)).length := by
  obtain ⟨hs, ho, _⟩ := hi
  obtain ⟨v1, v2⟩ := hv
  simp only [encode, List.cons_append] at hd
  obtain ⟨r1, r2, r3⟩ := rdIn_drop (over := none) hd
  have hk := encode_lit_ctrl v1 v2
  rw [List.length_append] at hc
  have hlen : s.ip + 1 + bs.length ≤ inp.length := by
    have := congrArg List.length r2
    rw [List.length_drop, List.length_append] at this
    omega
  obtain ⟨s', a1, a2, a3, a4, a5, a6⟩ := copyIn_ok (inp := inp) bs (s := ⟨s.ip + 1, s.op, s.out⟩) r2 hs ho (by simp only; omega)
  refine ⟨s', ?_, a4, a5, ⟨a6, by simp only at a3; rw [List.length_append]; omega, by
    rw [List.length_append]; rw [a4]; simpa using hc⟩, by simp only [encode, List.length_cons] at *; omega⟩
  simp only [dturn, r1, R.bind_ok]
  rw [if_pos (by omega), hk, if_neg (by omega), if_neg (by omega)]
  exact a1

theorem and31 (n : Nat) : n &&& 0x1f = n % 32 := Nat.and_two_pow_sub_one_eq_mod n 5

theorem dturn_ref {inp : Bytes} {s : DS} {dist len : Nat} {rest out : Bytes}
    (hd : inp.drop s.ip = encode (.ref dist len) ++ rest)
    (hi : DInv s out) (hv : Valid out (.ref dist len)) (hc : out.length + len ≤ s.out.cap) :
    ∃ s', dturn inp s = .ok s' ∧ s'.out.cap = s.out.cap ∧ inp.drop s'.ip = rest ∧ DInv s' (copyFrom out dist len) ∧
      s'.ip = s.ip + (encode (.ref dist len)).length := by
  obtain ⟨hs, ho, _⟩ := hi
  obtain ⟨v1, v2, v3, v4, v5⟩ := hv
  obtain ⟨m', a1, a2, a3⟩ := copyRef_ok (len := len - 2) hs ho v1 v3 (by omega)
  rw [show len - 2 + 2 = len by omega] at a3
  have hout : (copyFrom out dist len).length = out.length + len := copyFrom_length _ _ _
  simp only [encode] at hd ⊢
  by_cases h9 : len < 9
  · rw [if_pos h9] at hd ⊢
    simp only [List.cons_append, List.nil_append] at hd
    obtain ⟨r1, r2, r3⟩ := rdIn_drop (over := none) hd
    obtain ⟨q1, q2, q3⟩ := rdIn_drop (over := none) r2
    have e1 : (UInt8.ofNat (32 * (len - 2) + (dist - 1) / 256)).toNat = 32 * (len - 2) + (dist - 1) / 256 :=
      ofNat_toNat (by omega)
    have e2 : (UInt8.ofNat ((dist - 1) % 256)).toNat = (dist - 1) % 256 := ofNat_toNat (by omega)
    refine ⟨⟨s.ip + 1 + 1, s.op + len, m'⟩, ?_, a2, q2, ⟨a3, by simp only; omega, by simp only; omega⟩, rfl⟩
    simp only [dturn, r1, R.bind_ok, e1]
    rw [if_neg (by omega), if_neg (by omega)]
    have e3 : (32 * (len - 2) + (dist - 1) / 256) >>> 5 = len - 2 := by rw [Nat.shiftRight_eq_div_pow]; omega
    have e4 : (32 * (len - 2) + (dist - 1) / 256) &&& 0x1f = (dist - 1) / 256 := by rw [and31]; omega
    have e5 : ((dist - 1) / 256) <<< 8 + 1 + (dist - 1) % 256 = dist := by rw [Nat.shiftLeft_eq]; omega
    rw [e3, if_neg (by omega)]
    simp only [R.pure_eq, R.bind_ok]
    rw [if_neg (by omega), q1]
    simp only [R.bind_ok, e4, e2, e5]
    rw [if_neg (by omega), if_neg (by omega), a1]
    simp only [R.bind_ok, R.ok.injEq, DS.mk.injEq, true_and, and_true]
    omega
  · rw [if_neg h9] at hd ⊢
    simp only [List.cons_append, List.nil_append] at hd
    obtain ⟨r1, r2, r3⟩ := rdIn_drop (over := none) hd
    obtain ⟨p1, p2, p3⟩ := rdIn_drop (over := none) r2
    obtain ⟨q1, q2, q3⟩ := rdIn_drop (over := none) p2
    have e1 : (UInt8.ofNat (224 + (dist - 1) / 256)).toNat = 224 + (dist - 1) / 256 := ofNat_toNat (by omega)
    have e2 : (UInt8.ofNat ((dist - 1) % 256)).toNat = (dist - 1) % 256 := ofNat_toNat (by omega)
    have e6 : (UInt8.ofNat (len - 9)).toNat = len - 9 := ofNat_toNat (by omega)
    refine ⟨⟨s.ip + 1 + 1 + 1, s.op + len, m'⟩, ?_, a2, q2, ⟨a3, by simp only; omega, by simp only; omega⟩, rfl⟩
    simp only [dturn, r1, R.bind_ok, e1]
    rw [if_neg (by omega), if_neg (by omega)]
    have e3 : (224 + (dist - 1) / 256) >>> 5 = 7 := by rw [Nat.shiftRight_eq_div_pow]; omega
    have e4 : (224 + (dist - 1) / 256) &&& 0x1f = (dist - 1) / 256 := by rw [and31]; omega
    have e5 : ((dist - 1) / 256) <<< 8 + 1 + (dist - 1) % 256 = dist := by rw [Nat.shiftLeft_eq]; omega
    rw [e3, if_pos rfl, p1]
    simp only [R.pure_eq, R.bind_ok, e6]
    rw [if_neg (by omega), q1]
    simp only [R.bind_ok, e4, e2, e5]
    rw [if_neg (by omega), if_neg (by omega), show 7 + (len - 9) = len - 2 by omega, a1]
    simp only [R.bind_ok, R.ok.injEq, DS.mk.injEq, true_and, and_true]
    omega

/-- A valid token that fits is decoded. -/
theorem dturn_tok {inp : Bytes} {s : DS} {t : Tok} {rest out : Bytes} (hd : inp.drop s.ip = encode t ++ rest)
    (hi : DInv s out) (hv : Valid out t) (hc : (apply out t).length ≤ s.out.cap) :
    ∃ s', dturn inp s = .ok s' ∧ s'.out.cap = s.out.cap ∧ inp.drop s'.ip = rest ∧ DInv s' (apply out t) ∧
      s'.ip = s.ip + (encode t).length := by
  cases t with
  | lit bs => exact dturn_lit hd hi hv hc
  | ref d l => exact dturn_ref hd hi hv (by simpa [apply, copyFrom_length] using hc)

theorem encode_pos (t : Tok) : 0 < (encode t).length := by
  cases t with
  | lit bs => simp [encode]
  | ref d l => simp only [encode]; split <;> simp

theorem byte_ofNat (b : UInt8) : UInt8.ofNat b.toNat = b := by simp

/-- Whatever byte comes next, one turn either fails or has decoded a valid token that fits. -/
theorem dturn_any {inp : Bytes} {s : DS} {out : Bytes} (hip : s.ip < inp.length) (hi : DInv s out) :
    dturn inp s = .fail ∨
    ∃ t rest, inp.drop s.ip = encode t ++ rest ∧ Valid out t ∧ (apply out t).length ≤ s.out.cap := by
  obtain ⟨hs, ho, hcap⟩ := hi
  have hd := drop_lt hip
  obtain ⟨r1, -, -⟩ := rdIn_drop (over := none) hd
  generalize hb : inp[s.ip] = c at *
  have hc := c.toNat_lt
  simp only [dturn, r1, R.bind_ok]
  by_cases h32 : c.toNat < 32
  · rw [if_pos h32]
    by_cases h1 : s.op + (c.toNat + 1) > s.out.cap
    · rw [if_pos h1]; exact .inl rfl
    · rw [if_neg h1]
      by_cases h2 : s.ip + 1 + (c.toNat + 1) > inp.length
      · rw [if_pos h2]; exact .inl rfl
      · refine .inr ⟨.lit ((inp.drop (s.ip + 1)).take (c.toNat + 1)), inp.drop (s.ip + 1 + (c.toNat + 1)), ?_, ?_, ?_⟩
        · have hl : ((inp.drop (s.ip + 1)).take (c.toNat + 1)).length = c.toNat + 1 := by
            rw [List.length_take, List.length_drop]; omega
          simp only [encode, hl, Nat.add_sub_cancel, byte_ofNat, List.cons_append]
          rw [hd, ← List.drop_drop (i := c.toNat + 1), List.take_append_drop]
        · simp only [Valid, List.length_take, List.length_drop]; omega
        · simp only [apply, List.length_append, List.length_take, List.length_drop]; omega
  · rw [if_neg h32]
    by_cases h1 : s.ip + 1 ≥ inp.length
    · rw [if_pos h1]; exact .inl rfl
    · rw [if_neg h1]
      have hd1 := drop_lt (show s.ip + 1 < inp.length by omega)
      obtain ⟨p1, -, -⟩ := rdIn_drop (over := none) hd1
      generalize hb1 : inp[s.ip + 1] = x at *
      have hx := x.toNat_lt
      have esh : c.toNat >>> 5 = c.toNat / 32 := Nat.shiftRight_eq_div_pow _ 5
      rw [esh]
      by_cases h7 : c.toNat / 32 = 7
      · rw [if_pos h7, p1]
        simp only [R.pure_eq, R.bind_ok]
        by_cases h2 : s.ip + 1 + 1 ≥ inp.length
        · rw [if_pos h2]; exact .inl rfl
        · rw [if_neg h2]
          have hd2 := drop_lt (show s.ip + 1 + 1 < inp.length by omega)
          obtain ⟨q1, -, -⟩ := rdIn_drop (over := none) hd2
          generalize hb2 : inp[s.ip + 1 + 1] = y at *
          have hy := y.toNat_lt
          rw [q1]
          simp only [R.bind_ok]
          by_cases h3 : s.op + (c.toNat / 32 + x.toNat) + 2 > s.out.cap
          · rw [if_pos h3]; exact .inl rfl
          · rw [if_neg h3, and31, Nat.shiftLeft_eq]
            by_cases h4 : s.op < c.toNat % 32 * 2 ^ 8 + 1 + y.toNat
            · rw [if_pos h4]; exact .inl rfl
            · refine .inr ⟨.ref (c.toNat % 32 * 2 ^ 8 + 1 + y.toNat) (x.toNat + 9), inp.drop (s.ip + 3), ?_, ?_, ?_⟩
              · simp only [encode]
                rw [if_neg (by omega), hd, hd1, hd2,
                  show 224 + (c.toNat % 32 * 2 ^ 8 + 1 + y.toNat - 1) / 256 = c.toNat by omega,
                  show x.toNat + 9 - 9 = x.toNat by omega,
                  show (c.toNat % 32 * 2 ^ 8 + 1 + y.toNat - 1) % 256 = y.toNat by omega, byte_ofNat, byte_ofNat, byte_ofNat]
                rfl
              · simp only [Valid]; omega
              · simp only [apply, copyFrom_length]; omega
      · rw [if_neg h7]
        simp only [R.pure_eq, R.bind_ok]
        rw [if_neg (by omega), p1]
        simp only [R.bind_ok]
        by_cases h3 : s.op + c.toNat / 32 + 2 > s.out.cap
        · rw [if_pos h3]; exact .inl rfl
        · rw [if_neg h3, and31, Nat.shiftLeft_eq]
          by_cases h4 : s.op < c.toNat % 32 * 2 ^ 8 + 1 + x.toNat
          · rw [if_pos h4]; exact .inl rfl
          · refine .inr ⟨.ref (c.toNat % 32 * 2 ^ 8 + 1 + x.toNat) (c.toNat / 32 + 2), inp.drop (s.ip + 2), ?_, ?_, ?_⟩
            · simp only [encode]
              rw [if_pos (by omega), hd, hd1,
                show 32 * (c.toNat / 32 + 2 - 2) + (c.toNat % 32 * 2 ^ 8 + 1 + x.toNat - 1) / 256 = c.toNat by omega,
                show (c.toNat % 32 * 2 ^ 8 + 1 + x.toNat - 1) % 256 = x.toNat by omega, byte_ofNat, byte_ofNat]
              rfl
            · simp only [Valid]; omega
            · simp only [apply, copyFrom_length]; omega

/-! ## The whole stream -/

theorem denoteFrom_length (out : Bytes) (ts : List Tok) : out.length ≤ (denoteFrom out ts).length := by
  induction ts generalizing out with
  | nil => exact Nat.le_refl _
  | cons t ts ih =>
    have h1 := ih (apply out t)
    have h2 : out.length ≤ (apply out t).length := by
      cases t with
      | lit bs => simp [apply]
      | ref d l => simp [apply, copyFrom_length]
    simp only [denoteFrom]; omega

theorem dloop_toks {inp : Bytes} (ts : List Tok) (hne : ts ≠ []) {s : DS} {out : Bytes} {fuel : Nat}
    (hd : inp.drop s.ip = encodeAll ts) (hi : DInv s out) (hv : ValidFrom out ts)
    (hc : (denoteFrom out ts).length ≤ s.out.cap) (hf : inp.length < fuel + s.ip) :
    ∃ s', dloop inp fuel s = .ok s' ∧ DInv s' (denoteFrom out ts) ∧ s'.out.cap = s.out.cap := by
  induction ts generalizing s out fuel with
  | nil => exact absurd rfl hne
  | cons t ts ih =>
    simp only [encodeAll, List.map_cons, List.flatten_cons] at hd
    obtain ⟨v1, v2⟩ := hv
    have hlt : s.ip < inp.length := by
      have := drop_len hd (by
        have := encode_pos t
        intro e; rw [List.append_eq_nil_iff] at e; rw [e.1] at this; simp at this)
      have h2 := encode_pos t
      rw [List.length_append] at this; omega
    obtain ⟨s', a1, a2, a3, a4, a5⟩ := dturn_tok hd hi v1 (by
      have := denoteFrom_length (apply out t) ts
      simp only [denoteFrom] at hc; omega)
    have hpos := encode_pos t
    cases fuel with
    | zero => omega
    | succ fuel =>
      simp only [dloop, a1, R.bind_ok]
      cases ts with
      | nil =>
        simp only [List.map_nil, List.flatten_nil, List.drop_eq_nil_iff] at a3
        rw [if_neg (by omega)]
        exact ⟨s', rfl, a4, a2⟩
      | cons t2 ts =>
        have hlt2 : s'.ip < inp.length := by
          have := drop_len a3 (by
            have := encode_pos t2
            intro e; simp only [List.map_cons, List.flatten_cons, List.append_eq_nil_iff] at e
            rw [e.1] at this; simp at this)
          have h2 := encode_pos t2
          simp only [List.map_cons, List.flatten_cons, List.length_append] at this; omega
        rw [if_pos hlt2]
        obtain ⟨u, b1, b2, b3⟩ := ih (by simp) (s := s') (fuel := fuel) a3 a4 v2 (by rw [a2]; exact hc) (by omega)
        exact ⟨u, b1, b2, by rw [b3, a2]⟩

/-- Whatever the bytes, the loop either fails or it has decoded valid tokens that fit. -/
theorem dloop_any {inp : Bytes} {s : DS} {out : Bytes} {fuel : Nat} (hip : s.ip < inp.length) (hi : DInv s out)
    (hf : inp.length < fuel + s.ip) :
    dloop inp fuel s = .fail ∨
    ∃ ts, ts ≠ [] ∧ inp.drop s.ip = encodeAll ts ∧ ValidFrom out ts ∧ (denoteFrom out ts).length ≤ s.out.cap := by
  induction fuel generalizing s out with
  | zero => omega
  | succ fuel ih =>
    rcases dturn_any hip hi with h | ⟨t, rest, h1, h2, h3⟩
    · left; simp [dloop, h]
    · obtain ⟨s', a1, a2, a3, a4, a5⟩ := dturn_tok h1 hi h2 h3
      have hpos := encode_pos t
      simp only [dloop, a1, R.bind_ok]
      by_cases hlt : s'.ip < inp.length
      · rw [if_pos hlt]
        rcases ih hlt a4 (by omega) with h | ⟨ts, _, b1, b2, b3⟩
        · exact .inl h
        · refine .inr ⟨t :: ts, by simp, ?_, ⟨h2, b2⟩, by rw [a2] at b3; exact b3⟩
          rw [h1, ← a3, b1]; rfl
      · rw [if_neg hlt]
        refine .inr ⟨[t], by simp, ?_, ⟨h2, trivial⟩, h3⟩
        rw [h1, ← a3, List.drop_eq_nil_of_le (by omega)]
        simp [encodeAll]

theorem fresh_inv (n : Nat) : DInv ⟨0, 0, Mem.fresh n⟩ [] := ⟨sub_nil _ _, rfl, Nat.zero_le _⟩

end Verif.Lzf

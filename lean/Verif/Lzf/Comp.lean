import Verif.Lzf.Lemmas

/-! # The compressor emits tokens that denote what it has read -/

namespace Verif.Lzf

theorem denoteFrom_append (out : Bytes) (ts us : List Tok) :
    denoteFrom out (ts ++ us) = denoteFrom (denoteFrom out ts) us := by
  induction ts generalizing out with
  | nil => rfl
  | cons t ts ih => exact ih _

theorem validFrom_append {out : Bytes} {ts us : List Tok} (h1 : ValidFrom out ts) (h2 : ValidFrom (denoteFrom out ts) us) :
    ValidFrom out (ts ++ us) := by
  induction ts generalizing out with
  | nil => exact h2
  | cons t ts ih => exact ⟨h1.1, ih h1.2 h2⟩

theorem encodeAll_snoc (ts : List Tok) (t : Tok) : encodeAll (ts ++ [t]) = encodeAll ts ++ encode t := by
  simp [encodeAll]

theorem denote_snoc (ts : List Tok) (t : Tok) : denote (ts ++ [t]) = apply (denote ts) t := by
  simp [denote, denoteFrom_append, denoteFrom]

theorem valid_snoc {ts : List Tok} {t : Tok} (h1 : ValidFrom [] ts) (h2 : Valid (denote ts) t) :
    ValidFrom [] (ts ++ [t]) := validFrom_append h1 ⟨h2, trivial⟩

/-! ## Hashing -/

theorem idx_lt (h : UInt32) : idx h < hsize := by
  unfold idx
  rw [UInt32.toNat_and]
  exact Nat.lt_of_le_of_lt Nat.and_le_right (by decide)

theorem hget_ok (t : HTab) (h : UInt32) : hget t (idx h) = .ok (t (idx h)).toNat := by
  simp [hget, idx_lt]

theorem hset_ok (t : HTab) (h : UInt32) (ip : Nat) : ∃ t', hset t (idx h) ip = .ok t' := by
  simp [hset, idx_lt]

theorem next_ok {over : Over} {inp : Bytes} (v : UInt32) {p : Nat} (h : p + 2 < inp.length) :
    ∃ v', next over inp v p = .ok v' := by
  simp [next, rdIn_ok h]

theorem frst_ok {over : Over} {inp : Bytes} {p : Nat} (h : p + 1 < inp.length) : ∃ v, frst over inp p = .ok v := by
  simp [frst, rdIn_ok h, rdIn_ok (show p < inp.length by omega)]

/-! ## Matches -/

/-- `k` bytes at `ref` and at `ip` agree. -/
def Agree (inp : Bytes) (ref ip k : Nat) : Prop := ∀ j, j < k → inp[ref + j]? = inp[ip + j]?

theorem Agree.snoc {inp : Bytes} {ref ip k : Nat} (h : Agree inp ref ip k) (h1 : inp[ref + k]? = inp[ip + k]?) :
    Agree inp ref ip (k + 1) := by
  intro j hj
  by_cases he : j = k
  · subst he; exact h1
  · exact h j (by omega)

theorem isMatch_ok {over : Over} {inp : Bytes} (ref : Nat) {ip : Nat} (h : ip + 2 < inp.length) :
    ∃ b, isMatch over inp ref ip = .ok b ∧
      (b = true → ref < ip ∧ ip - ref ≤ 8192 ∧ 0 < ref ∧ Agree inp ref ip 3) := by
  unfold isMatch
  by_cases hc : ref < ip ∧ ip - ref - 1 < maxOff ∧ 0 < ref
  · rw [if_pos hc]
    obtain ⟨c1, c2, c3⟩ := hc
    unfold maxOff at c2
    have g0 : ref < inp.length := by omega
    have g1 : ref + 1 < inp.length := by omega
    have g2 : ref + 2 < inp.length := by omega
    have i0 : ip < inp.length := by omega
    have i1 : ip + 1 < inp.length := by omega
    simp only [rdIn_ok g0, rdIn_ok g1, rdIn_ok g2, rdIn_ok i0, rdIn_ok i1, rdIn_ok h, R.bind_ok]
    by_cases he : inp[ref + 2] = inp[ip + 2]
    · rw [if_pos he]
      refine ⟨_, rfl, ?_⟩
      intro hb
      simp only [decide_eq_true_eq] at hb
      refine ⟨c1, by omega, c3, ?_⟩
      intro j hj
      match j, hj with
      | 0, _ => simp [g0, i0, hb.1]
      | 1, _ => simp [g1, i1, hb.2]
      | 2, _ => simp [g2, h, he]
    · rw [if_neg he]
      exact ⟨false, rfl, by simp⟩
  · rw [if_neg hc]
    exact ⟨false, rfl, by simp⟩

theorem scan_ok {over : Over} {inp : Bytes} {ref ip : Nat} (hr : ref < ip) (k len : Nat)
    (ha : Agree inp ref ip (len + 1)) (hb : ip + len + k < inp.length) :
    ∃ r b, scan over inp ref ip k len = .ok (r, b) ∧
      (b = true → len < r ∧ r ≤ len + k ∧ Agree inp ref ip r) ∧ (b = false → r = len + k ∧ Agree inp ref ip (r + 1)) := by
  induction k generalizing len with
  | zero => exact ⟨len, false, rfl, by simp, fun _ => ⟨rfl, ha⟩⟩
  | succ k ih =>
    have g1 : ref + (len + 1) < inp.length := by omega
    have g2 : ip + (len + 1) < inp.length := by omega
    simp only [scan, rdIn_ok g1, rdIn_ok g2, R.bind_ok]
    by_cases he : inp[ref + (len + 1)] = inp[ip + (len + 1)]
    · rw [if_neg (by simpa using he)]
      obtain ⟨r, b, a1, a2, a3⟩ := ih (len + 1) (ha.snoc (by simp [g1, g2, he])) (by omega)
      refine ⟨r, b, a1, fun h => ?_, fun h => ?_⟩
      · have := a2 h; exact ⟨by omega, by omega, this.2.2⟩
      · have := a3 h; exact ⟨by omega, this.2⟩
    · rw [if_pos (by simpa using he)]
      exact ⟨len + 1, true, rfl, fun _ => ⟨by omega, by omega, ha⟩, by simp⟩

theorem grow_ok {over : Over} {inp : Bytes} {ref ip maxlen : Nat} (hr : ref < ip) (fuel len : Nat)
    (ha : Agree inp ref ip (len + 1)) (hm : ip + maxlen ≤ inp.length) (hf : maxlen < len + 1 + fuel) (hf1 : 1 ≤ fuel) :
    ∃ r, grow over inp ref ip maxlen fuel len = .ok r ∧ len + 1 ≤ r ∧ (r ≤ len + 1 ∨ r ≤ maxlen) ∧ Agree inp ref ip r := by
  induction fuel generalizing len with
  | zero => omega
  | succ fuel ih =>
    simp only [grow]
    by_cases hl : len + 1 < maxlen
    · rw [if_pos hl]
      have g1 : ref + (len + 1) < inp.length := by omega
      have g2 : ip + (len + 1) < inp.length := by omega
      simp only [rdIn_ok g1, rdIn_ok g2, R.bind_ok]
      by_cases he : inp[ref + (len + 1)] = inp[ip + (len + 1)]
      · rw [if_pos he]
        obtain ⟨r, a1, a2, a3, a4⟩ := ih (len + 1) (ha.snoc (by simp [g1, g2, he])) (by omega) (by omega)
        exact ⟨r, a1, by omega, by omega, a4⟩
      · rw [if_neg he]
        exact ⟨len + 1, rfl, by omega, by omega, ha⟩
    · rw [if_neg hl]
      exact ⟨len + 1, rfl, by omega, by omega, ha⟩

theorem matchLen_ok {over : Over} {inp : Bytes} {ref ip : Nat} (hr : ref < ip) (hip : ip + 2 < inp.length)
    (ha : Agree inp ref ip 3) {maxlen : Nat}
    (hm : maxlen = if inp.length - ip - 2 > maxRef then maxRef else inp.length - ip - 2) :
    ∃ r, matchLen over inp ref ip maxlen = .ok r ∧ 3 ≤ r ∧ r ≤ 264 ∧ ip + r ≤ inp.length ∧ Agree inp ref ip r := by
  have hm' : maxlen ≤ inp.length - ip - 2 ∧ maxlen ≤ 264 := by
    rw [hm]; unfold maxRef; split <;> omega
  clear hm
  unfold matchLen
  by_cases h16 : maxlen > 16
  · rw [if_pos h16]
    obtain ⟨r, b, a1, a2, a3⟩ := scan_ok (over := over) hr 16 2 ha (by omega)
    rw [a1]
    simp only [R.bind_ok]
    cases b with
    | true =>
      have := a2 rfl
      exact ⟨r, rfl, by omega, by omega, by omega, this.2.2⟩
    | false =>
      have := a3 rfl
      obtain ⟨q, b1, b2, b3, b4⟩ := grow_ok (over := over) (maxlen := maxlen) hr (maxlen + 1) r this.2 (by omega) (by omega) (by omega)
      exact ⟨q, b1, by omega, by omega, by omega, b4⟩
  · rw [if_neg h16]
    obtain ⟨q, b1, b2, b3, b4⟩ := grow_ok (over := over) (maxlen := maxlen) hr (maxlen + 1) 2 ha (by omega) (by omega) (by omega)
    exact ⟨q, b1, by omega, by omega, by omega, b4⟩

/-- Copying a match reproduces the input. -/
theorem copy_match {inp : Bytes} {ref ip : Nat} (k : Nat) (hr : ref < ip) (ha : Agree inp ref ip k) (hk : ip + k ≤ inp.length) :
    copyFrom (inp.take ip) (ip - ref) k = inp.take (ip + k) := by
  induction k generalizing ip ref with
  | zero => rfl
  | succ k ih =>
    rw [copyFrom]
    have h1 : (inp.take ip).length = ip := by rw [List.length_take]; omega
    have hlt : ip < inp.length := by omega
    have e : inp.take ip ++ [(inp.take ip).getD ((inp.take ip).length - (ip - ref)) 0] = inp.take (ip + 1) := by
      rw [h1, show ip - (ip - ref) = ref by omega, List.take_add_one]
      congr 1
      rw [List.getD_eq_getElem?_getD, List.getElem?_take, if_pos hr]
      have := ha 0 (by omega)
      simp only [Nat.add_zero] at this
      rw [this, List.getElem?_eq_getElem hlt]
      rfl
    rw [e, show ip - ref = ip + 1 - (ref + 1) by omega, ih (ref := ref + 1) (ip := ip + 1) (by omega) ?_ (by omega)]
    · congr 1; omega
    · intro j hj
      have := ha (j + 1) (by omega)
      rw [show ref + 1 + j = ref + (j + 1) by omega, show ip + 1 + j = ip + (j + 1) by omega]
      exact this

/-! ## Writing tokens -/

theorem ofNat_wrap (n : Nat) (h : 1 ≤ n) : UInt8.ofNat (n + 255) = UInt8.ofNat (n - 1) := by
  apply UInt8.toNat.inj
  simp only [UInt8.toNat_ofNat']
  omega

theorem ofNat_mod (n : Nat) : UInt8.ofNat n = UInt8.ofNat (n % 256) := by
  apply UInt8.toNat.inj
  simp only [UInt8.toNat_ofNat']
  omega

theorem stopRun_ok {out : Mem} {enc lits : Bytes} {op : Nat} (hs : Sub out 0 enc) (hl : Sub out (enc.length + 1) lits)
    (ho : op = enc.length + 1 + lits.length) (hc : enc.length < out.cap) (h1 : 1 ≤ lits.length) :
    ∃ out', stopRun out op lits.length = .ok out' ∧ out'.cap = out.cap ∧ Sub out' 0 (enc ++ encode (.lit lits)) := by
  have e : op - lits.length - 1 = enc.length := by omega
  unfold stopRun
  rw [if_neg (by omega), e, wr_ok _ hc]
  refine ⟨_, rfl, rfl, ?_⟩
  rw [ofNat_wrap _ h1]
  have a1 := sub_snoc (b := UInt8.ofNat (lits.length - 1)) hs
  rw [Nat.zero_add] at a1
  have a2 := sub_wr (b := UInt8.ofNat (lits.length - 1)) hl (i := enc.length) (.inl (by omega))
  have := sub_append a1 (cs := lits) (by simpa using a2)
  simpa [encode] using this

theorem stopRun_zero {out : Mem} {enc : Bytes} {op : Nat} (hs : Sub out 0 enc)
    (ho : op = enc.length + 1) (hc : enc.length < out.cap) :
    ∃ out', stopRun out op 0 = .ok out' ∧ out'.cap = out.cap ∧ Sub out' 0 enc := by
  unfold stopRun
  rw [if_neg (by omega), show op - 0 - 1 = enc.length by omega, wr_ok _ hc]
  exact ⟨_, rfl, rfl, sub_wr hs (.inr (by omega))⟩

theorem writes_ok {m : Mem} {enc : Bytes} (bs : Bytes) (hs : Sub m 0 enc) (hc : enc.length + bs.length ≤ m.cap) :
    ∃ m', writeAll m enc.length bs = .ok m' ∧ m'.cap = m.cap ∧ Sub m' 0 (enc ++ bs) := writeAll_ok bs hs rfl hc

theorem putRef_ok {m : Mem} {enc : Bytes} {op dist len : Nat} (hs : Sub m 0 enc) (ho : op = enc.length)
    (hl : 3 ≤ len) (hc : op + 3 ≤ m.cap) :
    ∃ m', putRef m op (dist - 1) (len - 2) = .ok (m', op + (encode (.ref dist len)).length) ∧ m'.cap = m.cap ∧
      Sub m' 0 (enc ++ encode (.ref dist len)) := by
  subst ho
  simp only [putRef, encode, Nat.shiftRight_eq_div_pow, Nat.shiftLeft_eq]
  by_cases h9 : len < 9
  · rw [if_pos (by omega), if_pos h9]
    obtain ⟨m', a1, a2, a3⟩ := writes_ok [UInt8.ofNat (32 * (len - 2) + (dist - 1) / 256), UInt8.ofNat ((dist - 1) % 256)] hs
      (by simp only [List.length_cons, List.length_nil]; omega)
    refine ⟨m', ?_, a2, a3⟩
    rw [show (dist - 1) / 2 ^ 8 + (len - 2) * 2 ^ 5 = 32 * (len - 2) + (dist - 1) / 256 by omega, ofNat_mod (dist - 1)]
    simp only [writeAll] at a1
    cases hw : m.wr enc.length (UInt8.ofNat (32 * (len - 2) + (dist - 1) / 256)) with
    | fault => rw [hw] at a1; simp at a1
    | fail => rw [hw] at a1; simp at a1
    | ok m1 =>
      rw [hw] at a1
      simp only [R.bind_ok] at a1 ⊢
      cases hw2 : m1.wr (enc.length + 1) (UInt8.ofNat ((dist - 1) % 256)) with
      | fault => rw [hw2] at a1; simp at a1
      | fail => rw [hw2] at a1; simp at a1
      | ok m2 =>
        rw [hw2] at a1
        simp only [R.bind_ok, R.ok.injEq] at a1 ⊢
        subst a1
        rfl
  · rw [if_neg (by omega), if_neg h9]
    obtain ⟨m', a1, a2, a3⟩ := writes_ok [UInt8.ofNat (224 + (dist - 1) / 256), UInt8.ofNat (len - 9), UInt8.ofNat ((dist - 1) % 256)] hs
      (by simp only [List.length_cons, List.length_nil]; omega)
    refine ⟨m', ?_, a2, a3⟩
    rw [show (dist - 1) / 2 ^ 8 + 7 * 2 ^ 5 = 224 + (dist - 1) / 256 by omega, ofNat_mod (dist - 1),
      show len - 2 - 7 = len - 9 by omega]
    simp only [writeAll] at a1
    cases hw : m.wr enc.length (UInt8.ofNat (224 + (dist - 1) / 256)) with
    | fault => rw [hw] at a1; simp at a1
    | fail => rw [hw] at a1; simp at a1
    | ok m1 =>
      rw [hw] at a1
      simp only [R.bind_ok] at a1 ⊢
      cases hw2 : m1.wr (enc.length + 1) (UInt8.ofNat (len - 9)) with
      | fault => rw [hw2] at a1; simp at a1
      | fail => rw [hw2] at a1; simp at a1
      | ok m2 =>
        rw [hw2] at a1
        simp only [R.bind_ok] at a1 ⊢
        cases hw3 : m2.wr (enc.length + 1 + 1) (UInt8.ofNat ((dist - 1) % 256)) with
        | fault => rw [hw3] at a1; simp at a1
        | fail => rw [hw3] at a1; simp at a1
        | ok m3 =>
          rw [hw3] at a1
          simp only [R.bind_ok, R.ok.injEq] at a1
          subst a1
          first | (rw [hw3]; rfl) | rfl

/-! ## The invariant -/

/-- The tokens written so far and the pending literals denote the input read so far. -/
structure CInv (inp : Bytes) (cap : Nat) (s : CS) (ts : List Tok) (lits : Bytes) : Prop where
  valid : ValidFrom [] ts
  means : denote ts ++ lits = inp.take s.ip
  ipLe : s.ip ≤ inp.length
  lit : s.lit = lits.length
  litLt : lits.length < 32
  op : s.op = (encodeAll ts).length + 1 + lits.length
  done : Sub s.out 0 (encodeAll ts)
  pending : Sub s.out ((encodeAll ts).length + 1) lits
  cap : s.out.cap = cap
  small : 32 * (encodeAll ts).length ≤ 33 * (s.ip - lits.length)

theorem CInv.litLe {inp : Bytes} {cap : Nat} {s : CS} {ts : List Tok} {lits : Bytes} (h : CInv inp cap s ts lits) :
    lits.length ≤ s.ip := by
  have := congrArg List.length h.means
  rw [List.length_append, List.length_take] at this
  omega

theorem copyLit_ok {over : Over} {inp : Bytes} {cap : Nat} {s : CS} {ts : List Tok} {lits : Bytes}
    (h : CInv inp cap s ts lits) (hip : s.ip < inp.length) (ho : s.op < cap) :
    ∃ s' ts' lits', copyLit over inp s = .ok s' ∧ CInv inp cap s' ts' lits' ∧ s'.ip = s.ip + 1 ∧
      ((s'.op = s.op + 1 ∧ s'.lit = s.lit + 1 ∧ s.lit + 1 < 32) ∨ (s'.op = s.op + 2 ∧ s'.lit = 0 ∧ s.lit + 1 = 32)) := by
  have hll := h.litLe
  have hmeans : denote ts ++ (lits ++ [inp[s.ip]]) = inp.take (s.ip + 1) := by
    rw [List.take_add_one, ← h.means, List.getElem?_eq_getElem hip, ← List.append_assoc]; rfl
  have hlen : (lits ++ [inp[s.ip]]).length = s.lit + 1 := by rw [List.length_append, h.lit]; rfl
  have hcap := h.cap
  have hop := h.op
  have hlt := h.litLt
  have hlit := h.lit
  have hw := wr_ok (m := s.out) (i := s.op) inp[s.ip] (by omega)
  have hdone := sub_wr (b := inp[s.ip]) h.done (i := s.op) (.inr (by omega))
  have hpend := sub_snoc (b := inp[s.ip]) h.pending
  rw [← hop] at hpend
  simp only [copyLit, rdIn_ok hip, R.bind_ok, hw]
  by_cases hf : s.lit + 1 = maxLit
  · rw [if_pos hf]
    unfold maxLit at hf
    obtain ⟨out', a1, a2, a3⟩ := stopRun_ok (op := s.op + 1) hdone hpend (by rw [hlen]; omega) (by simp only; omega) (by omega)
    rw [hlen] at a1
    simp only [a1, R.bind_ok, R.pure_eq]
    have henc : (encode (.lit (lits ++ [inp[s.ip]]))).length = 33 := by simp only [encode, List.length_cons, hlen]; omega
    refine ⟨_, ts ++ [.lit (lits ++ [inp[s.ip]])], [], rfl, ?_, rfl, .inr ⟨rfl, rfl, hf⟩⟩
    have htot : (encodeAll (ts ++ [.lit (lits ++ [inp[s.ip]])])).length = (encodeAll ts).length + 33 := by
      rw [encodeAll_snoc, List.length_append, henc]
    exact { valid := valid_snoc h.valid ⟨by omega, by omega⟩
            means := by rw [denote_snoc]; simpa [apply] using hmeans
            ipLe := by simp only; omega
            lit := rfl
            litLt := by simp
            op := by rw [htot]; simp only [List.length_nil]; omega
            done := by rw [encodeAll_snoc]; exact a3
            pending := sub_nil _ _
            cap := by simp only [a2]; exact hcap
            small := by
              have := h.small
              rw [htot]; simp only [List.length_nil]; omega }
  · rw [if_neg hf]
    unfold maxLit at hf
    refine ⟨_, ts, lits ++ [inp[s.ip]], rfl, ?_, rfl, .inl ⟨rfl, rfl, by omega⟩⟩
    exact { valid := h.valid
            means := hmeans
            ipLe := by simp only; omega
            lit := hlen.symm
            litLt := by omega
            op := by rw [hlen]; simp only; omega
            done := hdone
            pending := hpend
            cap := hcap
            small := by
              have := h.small
              rw [hlen]; simp only; omega }

theorem encode_ref_length (d l : Nat) : (encode (.ref d l)).length = if l < 9 then 2 else 3 := by
  simp only [encode]; split <;> rfl

/-- Closing the pending run before a match. -/
theorem flush_ok {inp : Bytes} {cap : Nat} {s : CS} {ts : List Tok} {lits : Bytes}
    (h : CInv inp cap s ts lits) (hc : (encodeAll ts).length < cap) :
    ∃ out' ts', stopRun s.out s.op s.lit = .ok out' ∧ out'.cap = cap ∧ ValidFrom [] ts' ∧ denote ts' = inp.take s.ip ∧
      Sub out' 0 (encodeAll ts') ∧ s.op - notB s.lit = (encodeAll ts').length ∧
      32 * (encodeAll ts').length + lits.length ≤ 33 * s.ip + 32 ∧
      (lits = [] → 32 * (encodeAll ts').length ≤ 33 * s.ip) := by
  have hop := h.op
  have hsm := h.small
  have hle := h.litLe
  by_cases hl : lits = []
  · subst hl
    have hlit : s.lit = 0 := h.lit
    obtain ⟨out', a1, a2, a3⟩ := stopRun_zero (op := s.op) h.done (by simpa using hop) (by rw [h.cap]; exact hc)
    refine ⟨out', ts, by rw [hlit]; exact a1, a2.trans h.cap, h.valid, by simpa using h.means, a3, ?_, ?_, ?_⟩
    · simp only [notB, hlit, if_true]; simp only [List.length_nil] at hop; omega
    · simp only [List.length_nil] at hsm ⊢; omega
    · intro _; simpa using hsm
  · have hpos : 1 ≤ lits.length := List.length_pos_iff.mpr hl
    obtain ⟨out', a1, a2, a3⟩ := stopRun_ok h.done h.pending hop (by rw [h.cap]; exact hc) hpos
    have hlt := h.litLt
    have henc : (encodeAll (ts ++ [.lit lits])).length = (encodeAll ts).length + 1 + lits.length := by
      rw [encodeAll_snoc, List.length_append]; simp only [encode, List.length_cons]; omega
    refine ⟨out', ts ++ [.lit lits], by rw [h.lit]; exact a1, a2.trans h.cap, valid_snoc (t := .lit lits) h.valid ⟨hpos, by omega⟩, ?_, ?_, ?_, ?_, ?_⟩
    · rw [denote_snoc]; exact h.means
    · rw [encodeAll_snoc]; exact a3
    · have : notB s.lit = 0 := by unfold notB; rw [h.lit, if_neg (by omega)]
      rw [henc]; omega
    · rw [henc]; omega
    · intro e; exact absurd e hl

theorem onMatch_ok {over : Over} {inp : Bytes} {cap : Nat} {s : CS} {ts : List Tok} {lits : Bytes} {ref : Nat}
    (h : CInv inp cap s ts lits) (hip : s.ip + 2 < inp.length) (h1 : ref < s.ip) (h2 : s.ip - ref ≤ 8192)
    (ha : Agree inp ref s.ip 3) :
    (onMatch over inp s ref = .fail ∧ cap ≤ s.op + 4) ∨
    ∃ s' b ts', onMatch over inp s ref = .ok (s', b) ∧ CInv inp cap s' ts' [] ∧ s.ip < s'.ip ∧
      (b = true → inp.length ≤ s'.ip + 2) ∧ 32 * s'.op ≤ 33 * s'.ip + 28 := by
  have hcap := h.cap
  have hop := h.op
  have hlt := h.litLt
  unfold onMatch
  by_cases hroom : s.op + 3 + 1 ≥ s.out.cap ∧ s.op - notB s.lit + 3 + 1 ≥ s.out.cap
  · left
    simp only []
    rw [if_pos hroom]
    exact ⟨rfl, by omega⟩
  · right
    simp only []
    rw [if_neg hroom]
    have hnot : notB s.lit ≤ 1 := by unfold notB; split <;> omega
    have hroom' : s.op - notB s.lit + 4 < cap := by omega
    obtain ⟨out', ts', a1, a2, a3, a4, a5, a6, a7, a8⟩ := flush_ok h (by
      by_cases hl : s.lit = 0
      · have : notB s.lit = 1 := by simp [notB, hl]
        omega
      · have : notB s.lit = 0 := by simp [notB, hl]
        omega)
    rw [a1]
    simp only [R.bind_ok]
    obtain ⟨n, b1, b2, b3, b4, b5⟩ := matchLen_ok (over := over) h1 hip ha rfl
    rw [b1]
    simp only [R.bind_ok]
    have hd : s.ip - ref - 1 = (s.ip - ref) - 1 := rfl
    obtain ⟨m', c1, c2, c3⟩ := putRef_ok (dist := s.ip - ref) (len := n) a5 a6 b2 (by omega)
    rw [c1]
    simp only [R.bind_ok]
    have hden : denote (ts' ++ [.ref (s.ip - ref) n]) = inp.take (s.ip + n) := by
      rw [denote_snoc, a4]; exact copy_match n h1 b5 b4
    have hval : ValidFrom [] (ts' ++ [.ref (s.ip - ref) n]) := by
      refine valid_snoc a3 ⟨by omega, h2, ?_, b2, b3⟩
      rw [a4, List.length_take]; omega
    have henc : (encodeAll (ts' ++ [.ref (s.ip - ref) n])).length = (encodeAll ts').length + (encode (.ref (s.ip - ref) n)).length := by
      rw [encodeAll_snoc, List.length_append]
    have hel := encode_ref_length (s.ip - ref) n
    have hsmall : 32 * (encodeAll (ts' ++ [.ref (s.ip - ref) n])).length ≤ 33 * (s.ip + n) := by
      rw [henc, hel]
      by_cases h9 : n < 9
      · rw [if_pos h9]
        by_cases hl : lits = []
        · have := a8 hl; omega
        · have : 1 ≤ lits.length := List.length_pos_iff.mpr hl
          omega
      · rw [if_neg h9]; omega
    have htight : 32 * (s.op - notB s.lit + (encode (.ref (s.ip - ref) n)).length + 1) ≤ 33 * (s.ip + n) + 28 := by
      rw [a6, hel]
      by_cases h9 : n < 9
      · rw [if_pos h9]
        by_cases hl : lits = []
        · have := a8 hl; omega
        · have : 1 ≤ lits.length := List.length_pos_iff.mpr hl
          omega
      · rw [if_neg h9]; omega
    have hip' : s.ip + 1 + (n - 2 + 1) = s.ip + n := by omega
    rw [hip']
    have hinv : ∀ (hv : UInt32) (t : HTab),
        CInv inp cap ⟨s.ip + n, s.op - notB s.lit + (encode (.ref (s.ip - ref) n)).length + 1, 0, hv, t, m'⟩
          (ts' ++ [.ref (s.ip - ref) n]) [] := by
      intro hv t
      exact { valid := hval
              means := by rw [List.append_nil]; exact hden
              ipLe := b4
              lit := rfl
              litLt := by simp
              op := by rw [henc, a6]; rfl
              done := by rw [encodeAll_snoc]; exact c3
              pending := sub_nil _ _
              cap := c2.trans a2
              small := by simpa using hsmall }
    by_cases hend : s.ip + n + 2 ≥ inp.length
    · rw [if_pos hend]
      exact ⟨_, true, _, rfl, hinv _ _, by simp only; omega, fun _ => hend, htight⟩
    · rw [if_neg hend]
      obtain ⟨v1, e1⟩ := frst_ok (over := over) (inp := inp) (p := s.ip + n - 2) (by omega)
      obtain ⟨v2, e2⟩ := next_ok (over := over) (inp := inp) v1 (p := s.ip + n - 2) (by omega)
      obtain ⟨t1, e3⟩ := hset_ok s.htab v2 (s.ip + n - 2)
      obtain ⟨v3, e4⟩ := next_ok (over := over) (inp := inp) v2 (p := s.ip + n - 2 + 1) (by omega)
      obtain ⟨t2, e5⟩ := hset_ok t1 v3 (s.ip + n - 2 + 1)
      simp only [e1, e2, e3, e4, e5, R.bind_ok, R.pure_eq]
      rw [show s.ip + n - 2 + 1 + 1 = s.ip + n by omega]
      exact ⟨_, false, _, rfl, hinv _ _, by simp only; omega, by simp, htight⟩

theorem turn_ok {over : Over} {inp : Bytes} {cap : Nat} {s : CS} {ts : List Tok} {lits : Bytes}
    (h : CInv inp cap s ts lits) (hip : s.ip + 2 < inp.length) :
    (turn over inp s = .fail ∧ cap ≤ s.op + 4) ∨
    ∃ s' b ts' lits', turn over inp s = .ok (s', b) ∧ CInv inp cap s' ts' lits' ∧ s.ip < s'.ip ∧
      (b = true → inp.length ≤ s'.ip + 2) := by
  obtain ⟨v, e1⟩ := next_ok (over := over) (inp := inp) s.hval hip
  obtain ⟨t, e2⟩ := hset_ok s.htab v s.ip
  have hinv : CInv inp cap { s with hval := v, htab := t } ts lits :=
    ⟨h.valid, h.means, h.ipLe, h.lit, h.litLt, h.op, h.done, h.pending, h.cap, h.small⟩
  simp only [turn, e1, hget_ok, e2, R.bind_ok]
  obtain ⟨b, m1, m2⟩ := isMatch_ok (over := over) (s.htab (idx v)).toNat hip
  rw [m1]
  simp only [R.bind_ok]
  cases b with
  | true =>
    obtain ⟨k1, k2, k3, k4⟩ := m2 rfl
    rw [if_pos rfl]
    rcases onMatch_ok (over := over) hinv hip k1 k2 k4 with hf | ⟨s', b, ts', a1, a2, a3, a4, _⟩
    · exact .inl hf
    · exact .inr ⟨s', b, ts', [], a1, a2, a3, a4⟩
  | false =>
    rw [if_neg (by simp)]
    have hcap := h.cap
    by_cases hroom : s.op ≥ s.out.cap
    · rw [if_pos hroom]; exact .inl ⟨rfl, by omega⟩
    · rw [if_neg hroom]
      obtain ⟨s', ts', lits', a1, a2, a3, _⟩ := copyLit_ok (over := over) hinv (by simp only; omega) (by simp only; omega)
      rw [a1]
      simp only at a3
      exact .inr ⟨s', false, ts', lits', rfl, a2, by omega, by simp⟩

theorem mainLoop_ok {over : Over} {inp : Bytes} {cap : Nat} (fuel : Nat) {s : CS} {ts : List Tok} {lits : Bytes}
    (h : CInv inp cap s ts lits) (hf : inp.length < fuel + s.ip) :
    (mainLoop over inp fuel s = .fail ∧ 32 * cap ≤ 33 * inp.length + 96) ∨
    ∃ s' ts' lits', mainLoop over inp fuel s = .ok s' ∧ CInv inp cap s' ts' lits' ∧ inp.length ≤ s'.ip + 2 := by
  induction fuel generalizing s ts lits with
  | zero => have := h.ipLe; omega
  | succ fuel ih =>
    simp only [mainLoop]
    by_cases hip : s.ip + 2 < inp.length
    · rw [if_pos hip]
      rcases turn_ok (over := over) h hip with ⟨hf, hc⟩ | ⟨s', b, ts', lits', a1, a2, a3, a4⟩
      · rw [hf]
        refine .inl ⟨rfl, ?_⟩
        have := h.op
        have := h.small
        have := h.litLe
        omega
      · rw [a1]
        simp only [R.bind_ok]
        cases b with
        | true => exact .inr ⟨s', ts', lits', rfl, a2, a4 rfl⟩
        | false => exact ih a2 (by omega)
    · rw [if_neg hip]
      exact .inr ⟨s, ts, lits, rfl, h, by omega⟩

theorem tailLoop_ok {over : Over} {inp : Bytes} {cap : Nat} (fuel : Nat) {s : CS} {ts : List Tok} {lits : Bytes}
    (h : CInv inp cap s ts lits) (hf : inp.length < fuel + s.ip) (h2 : inp.length ≤ s.ip + 2)
    (hc : s.op + (inp.length - s.ip) + 1 ≤ cap ∨ (s.op + (inp.length - s.ip) ≤ cap ∧ s.lit + (inp.length - s.ip) < 32)) :
    ∃ s' ts' lits', tailLoop over inp fuel s = .ok s' ∧ CInv inp cap s' ts' lits' ∧ s'.ip = inp.length ∧ s'.op ≤ cap := by
  induction fuel generalizing s ts lits with
  | zero => have := h.ipLe; omega
  | succ fuel ih =>
    simp only [tailLoop]
    have hle := h.ipLe
    by_cases hip : s.ip < inp.length
    · rw [if_pos hip]
      obtain ⟨s', ts', lits', a1, a2, a3, a4⟩ := copyLit_ok (over := over) h hip (by omega)
      rw [a1]
      simp only [R.bind_ok]
      exact ih a2 (by omega) (by omega) (by omega)
    · rw [if_neg hip]
      exact ⟨s, ts, lits, rfl, h, by omega, by omega⟩

/-- What `lzf_compress` does, for every input of at least two bytes (or any input, if reading one byte
too many does no harm), whatever the hash table holds: it fails, for lack of room, or it writes valid
tokens that denote the input. -/
theorem compress_ok (over : Over) (htab : HTab) (inp : Bytes) (outLen : Nat) (hne : inp ≠ []) (ho : outLen ≠ 0)
    (h2 : 2 ≤ inp.length ∨ over ≠ none) :
    (compress over htab inp outLen = .fail ∧ 32 * outLen ≤ 33 * inp.length + 96) ∨
    ∃ m ts, compress over htab inp outLen = .ok ((encodeAll ts).length, m) ∧ ValidFrom [] ts ∧ denote ts = inp ∧
      Sub m 0 (encodeAll ts) ∧ m.cap = outLen ∧ (encodeAll ts).length ≤ outLen ∧
      32 * (encodeAll ts).length ≤ 33 * inp.length + 31 := by
  have hpos : 0 < inp.length := List.length_pos_iff.mpr hne
  obtain ⟨v, e1⟩ : ∃ v, frst over inp 0 = .ok v := by
    by_cases h : 1 < inp.length
    · exact frst_ok h
    · rcases h2 with h2 | h2
      · omega
      · cases over with
        | none => exact absurd rfl h2
        | some b =>
          simp only [frst, rdIn_ok hpos, R.bind_ok]
          have : inp[0 + 1]? = none := List.getElem?_eq_none (by omega)
          simp only [rdIn, this, R.bind_ok, R.pure_eq]
          exact ⟨_, rfl⟩
  have hinit : CInv inp outLen ⟨0, 1, 0, v, htab, Mem.fresh outLen⟩ [] [] :=
    ⟨trivial, rfl, Nat.zero_le _, rfl, by decide, rfl, sub_nil _ _, sub_nil _ _, rfl, Nat.le_refl _⟩
  unfold compress
  rw [if_neg (by omega), e1]
  simp only [R.bind_ok]
  rcases mainLoop_ok (over := over) (inp.length + 1) hinit (by simp only; omega) with ⟨hf, hc⟩ | ⟨s, ts, lits, a1, a2, a3⟩
  · rw [hf]; exact .inl ⟨rfl, hc⟩
  · rw [a1]
    simp only [R.bind_ok]
    have hop := a2.op
    have hsm := a2.small
    have hll := a2.litLe
    have hlt := a2.litLt
    have hle := a2.ipLe
    by_cases hroom : s.op + 3 > outLen
    · rw [if_pos hroom]
      exact .inl ⟨rfl, by omega⟩
    · rw [if_neg hroom]
      obtain ⟨s', ts', lits', b1, b2, b3, b4⟩ := tailLoop_ok (over := over) (inp.length + 1) a2 (by omega) a3 (by omega)
      rw [b1]
      simp only [R.bind_ok]
      have hop := b2.op
      have hll := b2.litLe
      obtain ⟨out', ts'', c1, c2, c3, c4, c5, c6, c7, c8⟩ := flush_ok b2 (by omega)
      rw [c1]
      simp only [R.bind_ok, R.pure_eq]
      rw [b3, List.take_length] at c4
      refine .inr ⟨out', ts'', by rw [c6], c3, c4, c5, c2, by omega, ?_⟩
      rw [b3] at c7 c8
      by_cases hl : lits' = []
      · have := c8 hl; omega
      · have : 1 ≤ lits'.length := List.length_pos_iff.mpr hl
        omega

end Verif.Lzf

import Verif.Lzf.Props
/-!
# Compressing a run of one byte

`lzf_compress` on `n` times the same byte, step by step, whatever its table and its buffer hold.
-/
namespace Verif.Lzf

/-- The running hash after three, and after four or more, equal bytes. -/
def h3 (b : UInt8) : UInt32 := (((b.toUInt32 <<< 8) ||| b.toUInt32) <<< 8) ||| b.toUInt32
def h4 (b : UInt8) : UInt32 := (h3 b <<< 8) ||| b.toUInt32

theorem every_byte {p : UInt8 → Prop} [DecidablePred p] (h : ∀ i : Fin 256, p (UInt8.ofNat i)) (b : UInt8) : p b := by
  have := h ⟨b.toNat, b.toNat_lt⟩
  simpa using this

theorem h4_next (b : UInt8) : (h4 b <<< 8) ||| b.toUInt32 = h4 b :=
  every_byte (p := fun b => (h4 b <<< 8) ||| b.toUInt32 = h4 b) (by decide +kernel) b

theorem idx_same (b : UInt8) : idx (h4 b) = idx (h3 b) :=
  every_byte (p := fun b => idx (h4 b) = idx (h3 b)) (by decide +kernel) b

section
variable {over : Over} {n : Nat} {b : UInt8}

theorem rd_run {i : Nat} (h : i < n) : rdIn over (List.replicate n b) i = .ok b := by
  simp [rdIn, List.getElem?_replicate, h]

theorem frst_run {p : Nat} (h : p + 1 < n) : frst over (List.replicate n b) p = .ok ((b.toUInt32 <<< 8) ||| b.toUInt32) := by
  simp [frst, rd_run h, rd_run (show p < n by omega)]

theorem next_run (v : UInt32) {p : Nat} (h : p + 2 < n) : next over (List.replicate n b) v p = .ok ((v <<< 8) ||| b.toUInt32) := by
  simp [next, rd_run h]

theorem scan_run {ref ip : Nat} (hr : ref < ip) (k len : Nat) (h : ip + len + k < n) :
    scan over (List.replicate n b) ref ip k len = .ok (len + k, false) := by
  induction k generalizing len with
  | zero => rfl
  | succ k ih =>
    simp only [scan, rd_run (show ref + (len + 1) < n by omega), rd_run (show ip + (len + 1) < n by omega), R.bind_ok]
    rw [if_neg (by simp), ih (len + 1) (by omega)]
    congr 2; omega

theorem grow_run {ref ip maxlen : Nat} (hr : ref < ip) (hm : ip + maxlen ≤ n) (fuel len : Nat) (hf : maxlen ≤ len + fuel)
    (h0 : 0 < fuel) : grow over (List.replicate n b) ref ip maxlen fuel len = .ok (max (len + 1) maxlen) := by
  induction fuel generalizing len with
  | zero => omega
  | succ fuel ih =>
    simp only [grow]
    by_cases hl : len + 1 < maxlen
    · rw [if_pos hl]
      simp only [rd_run (show ref + (len + 1) < n by omega), rd_run (show ip + (len + 1) < n by omega), R.bind_ok, if_true]
      rw [ih (len + 1) (by omega) (by omega)]
      congr 1; omega
    · rw [if_neg hl]
      congr 1; omega

/-- How long a match gets with the limit `maxlen`: the sixteen unrolled comparisons and the first turn of
the loop do not look at the limit. -/
def mlen (maxlen : Nat) : Nat := if maxlen > 16 then max 19 maxlen else max 3 maxlen

/-- A match runs to its limit. -/
theorem matchLen_run {ref ip maxlen : Nat} (hr : ref < ip) (hm : ip + maxlen + 2 ≤ n) :
    matchLen over (List.replicate n b) ref ip maxlen = .ok (mlen maxlen) := by
  unfold matchLen mlen
  by_cases h : maxlen > 16
  · rw [if_pos h, if_pos h, scan_run hr 16 2 (by omega)]
    simp only [R.bind_ok, Bool.false_eq_true, if_false]
    rw [grow_run hr (by omega) _ _ (by omega) (by omega)]
  · rw [if_neg h, if_neg h, grow_run hr (by omega) _ _ (by omega) (by omega)]

theorem isMatch_run {ip : Nat} (h1 : 2 ≤ ip) (h2 : ip + 2 < n) : isMatch over (List.replicate n b) (ip - 1) ip = .ok true := by
  unfold isMatch
  rw [if_pos (by unfold maxOff; omega)]
  simp only [rd_run (show ip - 1 + 2 < n by omega), rd_run (show ip + 2 < n by omega), rd_run (show ip - 1 < n by omega),
    rd_run (show ip - 1 + 1 < n by omega), rd_run (show ip < n by omega), rd_run (show ip + 1 < n by omega), R.bind_ok, R.pure_eq,
    if_true, and_self, decide_true]

end

theorem wr_any {m : Mem} {i : Nat} (x : UInt8) (h : i < m.cap) : ∃ m', m.wr i x = .ok m' ∧ m'.cap = m.cap := by
  simp [Mem.wr, h]

/-- A back reference takes 2 or 3 bytes. -/
theorem putRef_any {m : Mem} {op off len : Nat} (h : op + 3 ≤ m.cap) :
    ∃ m', putRef m op off len = .ok (m', op + if len < 7 then 2 else 3) ∧ m'.cap = m.cap := by
  unfold putRef
  by_cases hl : len < 7
  · rw [if_pos hl, if_pos hl]
    obtain ⟨m1, e1, c1⟩ := wr_any (m := m) (i := op) (UInt8.ofNat ((off >>> 8) + (len <<< 5))) (by omega)
    obtain ⟨m2, e2, c2⟩ := wr_any (m := m1) (i := op + 1) (UInt8.ofNat off) (by omega)
    exact ⟨m2, by rw [e1, R.bind_ok, e2]; rfl, by omega⟩
  · rw [if_neg hl, if_neg hl]
    obtain ⟨m1, e1, c1⟩ := wr_any (m := m) (i := op) (UInt8.ofNat ((off >>> 8) + (7 <<< 5))) (by omega)
    obtain ⟨m2, e2, c2⟩ := wr_any (m := m1) (i := op + 1) (UInt8.ofNat (len - 7)) (by omega)
    obtain ⟨m3, e3, c3⟩ := wr_any (m := m2) (i := op + 2) (UInt8.ofNat off) (by omega)
    exact ⟨m3, by rw [e1, R.bind_ok, e2, R.bind_ok, e3]; rfl, by omega⟩

theorem stopRun_any {m : Mem} {op lit : Nat} (h1 : lit + 1 ≤ op) (h2 : op ≤ m.cap) :
    ∃ m', stopRun m op lit = .ok m' ∧ m'.cap = m.cap := by
  unfold stopRun
  rw [if_neg (by omega)]
  exact wr_any _ (by omega)

/-- How far a match goes with `r` bytes left. -/
def stride (r : Nat) : Nat := mlen (min (r - 2) 264)

/-- Inside the run: the table knows the byte before `ip`. -/
structure InRun (n : Nat) (b : UInt8) (cap : Nat) (s : CS) : Prop where
  ip2 : 2 ≤ s.ip
  ipn : s.ip < n
  hv : s.hval = h3 b ∨ s.hval = h4 b
  tab : (s.htab (idx (h4 b))).toNat = s.ip - 1
  cap : s.out.cap = cap
  lit : s.lit < s.op
  op1 : 1 ≤ s.op

theorem hnext {b : UInt8} {v : UInt32} (h : v = h3 b ∨ v = h4 b) : (v <<< 8) ||| b.toUInt32 = h4 b := by
  rcases h with rfl | rfl
  · rfl
  · exact h4_next b

/-- One turn of the main loop inside the run writes one back reference. -/
theorem turn_run {over : Over} {n cap : Nat} {b : UInt8} {s : CS} (hn : n < 2 ^ 32) (h : InRun n b cap s) (hr : s.ip + 2 < n)
    (hroom : s.op - notB s.lit + 5 ≤ cap) :
    ∃ s' stop, turn over (List.replicate n b) s = .ok (s', stop) ∧
      s'.ip = s.ip + stride (n - s.ip) ∧
      s'.op = s.op - notB s.lit + (if stride (n - s.ip) < 9 then 2 else 3) + 1 ∧
      s'.lit = 0 ∧ s'.out.cap = cap ∧ (stop = true ↔ n ≤ s'.ip + 2) ∧ (stop = false → InRun n b cap s') := by
  obtain ⟨ip, op, lit, hval, htab, out⟩ := s
  simp only at hr hroom h ⊢
  have i2 := h.ip2; have o1 := h.op1; have hl := h.lit; have hc := h.cap; have hv := h.hv; have ht := h.tab
  simp only at i2 o1 hl hc hv ht
  have hmax : (if n - ip - 2 > maxRef then maxRef else n - ip - 2) = min (n - ip - 2) 264 := by
    unfold maxRef; split <;> omega
  have hst : mlen (min (n - ip - 2) 264) = stride (n - ip) := rfl
  have hst3 : 3 ≤ stride (n - ip) := by unfold stride mlen; split <;> omega
  have hstn : ip + stride (n - ip) ≤ n := by unfold stride mlen; split <;> omega
  have hnb : notB lit ≤ 1 := by unfold notB; split <;> omega
  obtain ⟨m1, e1, c1⟩ := stopRun_any (m := out) (op := op) (lit := lit) (by omega) (by rw [hc]; omega)
  obtain ⟨m2, e2, c2⟩ := putRef_any (m := m1) (op := op - notB lit) (off := ip - (ip - 1) - 1) (len := stride (n - ip) - 2)
    (by omega)
  have hlen : stride (n - ip) - 2 < 7 ↔ stride (n - ip) < 9 := by omega
  simp only [turn, next_run _ hr, R.bind_ok, hnext hv, hget_ok, ht, hset, idx_lt, if_true, isMatch_run i2 hr]
  simp only [onMatch, List.length_replicate, hmax]
  rw [if_neg (by rw [hc]; omega)]
  simp only [e1, R.bind_ok, matchLen_run (show ip - 1 < ip by omega) (show ip + min (n - ip - 2) 264 + 2 ≤ n by omega), hst, e2,
    hlen]
  have hip : ip + 1 + (stride (n - ip) - 2 + 1) = ip + stride (n - ip) := by omega
  rw [hip]
  by_cases hend : ip + stride (n - ip) + 2 ≥ n
  · rw [if_pos hend]
    exact ⟨_, true, rfl, rfl, rfl, rfl, by simp only; omega, by simpa using hend, by simp⟩
  · rw [if_neg hend]
    simp only [frst_run (show ip + stride (n - ip) - 2 + 1 < n by omega), next_run _ (show ip + stride (n - ip) - 2 + 2 < n by omega),
      next_run _ (show ip + stride (n - ip) - 2 + 1 + 2 < n by omega), R.bind_ok, R.pure_eq, hset, idx_lt, if_true]
    refine ⟨_, false, rfl, ?_, ?_, ?_, ?_, ?_, fun _ => ⟨?_, ?_, ?_, ?_, ?_, ?_, ?_⟩⟩
    · simp only; omega
    · simp only
    · rfl
    · simp only; omega
    · simp only [Bool.false_eq_true, false_iff]; omega
    · simp only; omega
    · simp only; omega
    · exact .inr (hnext (.inl rfl))
    · have e : (((((b.toUInt32 <<< 8) ||| b.toUInt32) <<< 8) ||| b.toUInt32) <<< 8) ||| b.toUInt32 = h4 b := rfl
      simp only [e, if_true, UInt32.toNat_ofNat']
      rw [Nat.mod_eq_of_lt (by omega)]
      omega
    · simp; omega
    · simp
    · simp

/-- Bytes of back references for `r` bytes of the run. -/
def refBytes (r : Nat) : Nat := 3 * ((r + 261) / 264)

theorem refBytes_step {r : Nat} (h : 3 ≤ r) :
    (if stride r < 9 then 2 else 3) + refBytes (r - stride r) ≤ refBytes r ∧ stride r ≤ r ∧ 3 ≤ stride r := by
  have hs : stride r ≤ r ∧ 3 ≤ stride r ∧ (r ≤ 266 → r - stride r ≤ 2) ∧ (266 < r → stride r = 264) := by
    unfold stride mlen; split <;> omega
  obtain ⟨s1, s2, s3, s4⟩ := hs
  refine ⟨?_, s1, s2⟩
  unfold refBytes
  by_cases h2 : r ≤ 266
  · have e1 : (r + 261) / 264 = 1 := by omega
    have e3 : (r - stride r + 261) / 264 = 0 := by have := s3 h2; omega
    rw [e1, e3]
    split <;> omega
  · rw [s4 (by omega), if_neg (by omega)]
    omega

/-- The main loop from inside the run. -/
theorem mainLoop_run {over : Over} {n cap : Nat} {b : UInt8} (hn : n < 2 ^ 32) (fuel : Nat) {s : CS} (h : InRun n b cap s)
    (hf : n < s.ip + fuel + 2) (hf0 : 0 < fuel) (hroom : s.op - notB s.lit + refBytes (n - s.ip) + 5 ≤ cap) (hr : s.ip + 2 < n) :
    ∃ s', mainLoop over (List.replicate n b) fuel s = .ok s' ∧ s'.ip ≤ n ∧ n ≤ s'.ip + 2 ∧ s'.lit = 0 ∧ 3 ≤ s'.op ∧
      s'.out.cap = cap ∧ s'.op ≤ s.op - notB s.lit + refBytes (n - s.ip) + 1 := by
  induction fuel generalizing s with
  | zero => omega
  | succ fuel ih =>
    obtain ⟨k1, k2, k3⟩ := refBytes_step (r := n - s.ip) (by omega)
    obtain ⟨s', stop, e, e1, e2, e3, e4, e5, e6⟩ := turn_run (over := over) hn h hr (by omega)
    simp only [mainLoop, List.length_replicate]
    rw [if_pos hr, e]
    simp only [R.bind_ok]
    have hip : n - s'.ip = n - s.ip - stride (n - s.ip) := by omega
    have hnb : notB s'.lit = 1 := by rw [e3]; rfl
    cases stop with
    | true =>
      have := e5.mp rfl
      refine ⟨s', by simp, by omega, this, e3, by split at e2 <;> omega, e4, by omega⟩
    | false =>
      have hlt : s'.ip + 2 < n := by
        refine Classical.byContradiction fun hc => ?_
        have := e5.mpr (by omega)
        cases this
      obtain ⟨t, f, f1, f2, f3, f4, f5, f6⟩ := ih (e6 rfl) (by omega) (by omega) (by rw [hip, hnb]; omega) hlt
      rw [hip, hnb] at f6
      exact ⟨t, by simpa using f, f1, f2, f3, f4, f5, by omega⟩

theorem copyLit_run {over : Over} {n : Nat} {b : UInt8} {s : CS} (h : s.ip < n) (hl : s.lit + 1 < 32) (hc : s.op < s.out.cap) :
    ∃ m, copyLit over (List.replicate n b) s = .ok { s with ip := s.ip + 1, op := s.op + 1, lit := s.lit + 1, out := m } ∧
      m.cap = s.out.cap := by
  obtain ⟨m, e, c⟩ := wr_any (m := s.out) (i := s.op) b hc
  refine ⟨m, ?_, c⟩
  simp only [copyLit, rd_run h, R.bind_ok, e]
  rw [if_neg (by unfold maxLit; omega)]
  rfl

/-- At most two bytes are left behind the last back reference. -/
theorem tailLoop_run {over : Over} {n : Nat} {b : UInt8} (fuel : Nat) {s : CS} (h1 : s.ip ≤ n) (h2 : n - s.ip < fuel)
    (hl : s.lit + (n - s.ip) < 32) (hc : s.op + (n - s.ip) ≤ s.out.cap) :
    ∃ t, tailLoop over (List.replicate n b) fuel s = .ok t ∧ t.lit = s.lit + (n - s.ip) ∧ t.op = s.op + (n - s.ip) ∧
      t.out.cap = s.out.cap := by
  induction fuel generalizing s with
  | zero => omega
  | succ fuel ih =>
    simp only [tailLoop, List.length_replicate]
    by_cases h : s.ip < n
    · rw [if_pos h]
      obtain ⟨m, e, c⟩ := copyLit_run (over := over) (b := b) h (by omega) (by omega)
      rw [e]
      obtain ⟨t, g, g1, g2, g3⟩ := ih (s := { s with ip := s.ip + 1, op := s.op + 1, lit := s.lit + 1, out := m })
        (by simp; omega) (by simp; omega) (by simp; omega) (by simp; omega)
      simp only at g1 g2 g3
      exact ⟨t, by simpa using g, by omega, by omega, by omega⟩
    · rw [if_neg h]
      exact ⟨s, rfl, by omega, by omega, rfl⟩

/-- The compressor on a run of five or more equal bytes. -/
theorem compress_run (over : Over) (htab : HTab) (b : UInt8) (n cap : Nat) (h5 : 5 ≤ n) (hn : n < 2 ^ 32)
    (hcap : refBytes (n - 2) + 8 ≤ cap) :
    ∃ k m, compress over htab (List.replicate n b) cap = .ok (k, m) ∧ 1 ≤ k ∧ k ≤ refBytes (n - 2) + 6 := by
  have r3 : 3 ≤ refBytes (n - 2) := by unfold refBytes; omega
  simp only [compress, List.length_replicate]
  rw [if_neg (by omega), frst_run (by omega)]
  simp only [R.bind_ok]
  -- the first two bytes are literals
  have no0 : ∀ r, isMatch over (List.replicate n b) r 0 = .ok false := by
    intro r; unfold isMatch; rw [if_neg (by omega)]; rfl
  have no1 : ∀ r, r = 0 → isMatch over (List.replicate n b) r 1 = .ok false := by
    intro r h; unfold isMatch; rw [if_neg (by omega)]; rfl
  obtain ⟨m0, e0, c0⟩ := copyLit_run (over := over) (b := b) (n := n)
    (s := ⟨0, 1, 0, h3 b, fun j => if j = idx (h3 b) then UInt32.ofNat 0 else htab j, Mem.fresh cap⟩) (by simp; omega) (by simp)
    (by simp [Mem.fresh]; omega)
  obtain ⟨m1, e1, c1⟩ := copyLit_run (over := over) (b := b) (n := n)
    (s := ⟨1, 2, 1, h4 b, fun j => if j = idx (h4 b) then UInt32.ofNat 1 else
      (if j = idx (h3 b) then UInt32.ofNat 0 else htab j), m0⟩) (by simp; omega) (by simp)
    (by rw [c0]; simp [Mem.fresh]; omega)
  simp only [Mem.fresh] at c0
  simp only at c1
  have t0 : turn over (List.replicate n b) ⟨0, 1, 0, (b.toUInt32 <<< 8) ||| b.toUInt32, htab, Mem.fresh cap⟩ =
      .ok (⟨1, 2, 1, h3 b, fun j => if j = idx (h3 b) then UInt32.ofNat 0 else htab j, m0⟩, false) := by
    have hh : (((b.toUInt32 <<< 8) ||| b.toUInt32) <<< 8) ||| b.toUInt32 = h3 b := rfl
    simp only [turn, next_run _ (show 0 + 2 < n by omega), R.bind_ok, hh, hget_ok, hset, idx_lt, if_true, no0, Bool.false_eq_true, if_false]
    rw [if_neg (by simp only [Mem.fresh]; omega), e0]
    rfl
  have t1 : turn over (List.replicate n b) ⟨1, 2, 1, h3 b, fun j => if j = idx (h3 b) then UInt32.ofNat 0 else htab j, m0⟩ =
      .ok (⟨2, 3, 2, h4 b, fun j => if j = idx (h4 b) then UInt32.ofNat 1 else
        (if j = idx (h3 b) then UInt32.ofNat 0 else htab j), m1⟩, false) := by
    simp only [turn, next_run _ (show 1 + 2 < n by omega), R.bind_ok, hnext (.inl rfl), hget_ok, hset, idx_lt, if_true, idx_same]
    rw [no1 _ (by rfl)]
    simp only [R.bind_ok, Bool.false_eq_true, if_false]
    rw [if_neg (by rw [c0]; omega)]
    simp only [idx_same] at e1
    rw [e1]
    rfl
  obtain ⟨f, hf⟩ : ∃ f, n + 1 = f + 1 + 1 := ⟨n - 1, by omega⟩
  have hin : InRun n b cap ⟨2, 3, 2, h4 b, fun j => if j = idx (h4 b) then UInt32.ofNat 1 else
        (if j = idx (h3 b) then UInt32.ofNat 0 else htab j), m1⟩ :=
    ⟨by simp, by simp; omega, .inr rfl, by simp, by simp; omega, by simp, by simp⟩
  obtain ⟨s, g, g1, g2, g3, g4, g5, g6⟩ := mainLoop_run (over := over) hn f hin (by simp; omega) (by omega)
    (by simp [notB]; omega) (by simp; omega)
  have hm : mainLoop over (List.replicate n b) (n + 1) ⟨0, 1, 0, (b.toUInt32 <<< 8) ||| b.toUInt32, htab, Mem.fresh cap⟩ = .ok s := by
    rw [hf]
    simp only [mainLoop, List.length_replicate]
    rw [if_pos (by omega), t0]
    simp only [R.bind_ok, Bool.false_eq_true, if_false]
    rw [if_pos (by omega), t1]
    simp only [R.bind_ok, Bool.false_eq_true, if_false]
    exact g
  simp only [notB] at g6
  rw [hm]
  simp only [R.bind_ok]
  simp only [show ¬ (2 = 0) by omega, if_false] at g6
  rw [if_neg (by omega)]
  obtain ⟨t, l, l1, l2, l3⟩ := tailLoop_run (over := over) (b := b) (n + 1) (s := s) g1 (by omega) (by omega) (by omega)
  rw [l]
  simp only [R.bind_ok]
  obtain ⟨m', q, q1⟩ := stopRun_any (m := t.out) (op := t.op) (lit := t.lit) (by omega) (by omega)
  rw [q]
  refine ⟨t.op - notB t.lit, m', rfl, ?_, ?_⟩
  · unfold notB; split <;> omega
  · unfold notB; split <;> omega

end Verif.Lzf

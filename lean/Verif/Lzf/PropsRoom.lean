import Verif.Lzf.PropsSize
import Verif.Lzf.Run
import Mathlib.Tactic.NormNum

/-!
# C84, the room exactly

How much room `lzf_compress` needs to succeed with every text of a given length.  Text that the
compressor copies up to its last three bytes, and in which it finds those three one byte earlier, needs
the most: three bytes for a reference and the start of a run that stays empty, and the three bytes that
the check before the last bytes (lzf_c.c:272) asks for.
-/

namespace Verif.Lzf

/-- The room `lzf_compress` needs for every text of `n` bytes. -/
def room (n : Nat) : Nat := if n < 5 then n + 2 else n + 3 + (n + 28) / 32

/-! ## It is enough -/

theorem turn_room {over : Over} {inp : Bytes} {cap : Nat} {s : CS} {ts : List Tok} {lits : Bytes}
    (h : CInv inp cap s ts lits) (hip : s.ip + 2 < inp.length) (hr : room inp.length ≤ cap) :
    ∃ s' b ts' lits', turn over inp s = .ok (s', b) ∧ CInv inp cap s' ts' lits' ∧ s.ip < s'.ip ∧
      (b = true → inp.length ≤ s'.ip + 2) ∧
      (s'.ip + 2 ≤ inp.length ∨ (5 ≤ inp.length ∧ 32 * s'.op ≤ 33 * s'.ip + 28)) := by
  obtain ⟨v, e1⟩ := next_ok (over := over) (inp := inp) s.hval hip
  obtain ⟨t, e2⟩ := hset_ok s.htab v s.ip
  have hinv : CInv inp cap { s with hval := v, htab := t } ts lits :=
    ⟨h.valid, h.means, h.ipLe, h.lit, h.litLt, h.op, h.done, h.pending, h.cap, h.small⟩
  have hop := h.op
  have hsm := h.small
  have hll := h.litLe
  have hlit := h.lit
  simp only [turn, e1, hget_ok, e2, R.bind_ok]
  obtain ⟨b, m1, m2⟩ := isMatch_ok (over := over) (s.htab (idx v)).toNat hip
  rw [m1]
  simp only [R.bind_ok]
  cases b with
  | true =>
    obtain ⟨k1, k2, k3, k4⟩ := m2 rfl
    rw [if_pos rfl]
    rcases onMatch_ok (over := over) hinv hip k1 k2 k4 with ⟨hf, hc⟩ | ⟨s', b, ts', a1, a2, a3, a4, a5⟩
    · exfalso
      simp only at hc
      unfold room at hr
      rw [if_neg (by omega)] at hr
      omega
    · exact ⟨s', b, ts', [], a1, a2, a3, a4, .inr ⟨by omega, a5⟩⟩
  | false =>
    rw [if_neg (by simp)]
    have hcap := h.cap
    have hroom : s.op < cap := by
      unfold room at hr
      split at hr <;> omega
    rw [if_neg (by omega)]
    obtain ⟨s', ts', lits', a1, a2, a3, _⟩ := copyLit_ok (over := over) hinv (by simp only; omega) (by simp only; omega)
    rw [a1]
    simp only at a3
    exact ⟨s', false, ts', lits', rfl, a2, by omega, by simp, .inl (by omega)⟩

theorem mainLoop_room {over : Over} {inp : Bytes} {cap : Nat} (fuel : Nat) {s : CS} {ts : List Tok} {lits : Bytes}
    (h : CInv inp cap s ts lits) (hf : inp.length < fuel + s.ip) (hr : room inp.length ≤ cap)
    (hs : s.ip + 2 ≤ inp.length ∨ (5 ≤ inp.length ∧ 32 * s.op ≤ 33 * s.ip + 28)) :
    ∃ s' ts' lits', mainLoop over inp fuel s = .ok s' ∧ CInv inp cap s' ts' lits' ∧ inp.length ≤ s'.ip + 2 ∧
      (s'.ip + 2 ≤ inp.length ∨ (5 ≤ inp.length ∧ 32 * s'.op ≤ 33 * s'.ip + 28)) := by
  induction fuel generalizing s ts lits with
  | zero => have := h.ipLe; omega
  | succ fuel ih =>
    simp only [mainLoop]
    by_cases hip : s.ip + 2 < inp.length
    · rw [if_pos hip]
      obtain ⟨s', b, ts', lits', a1, a2, a3, a4, a5⟩ := turn_room (over := over) h hip hr
      rw [a1]
      simp only [R.bind_ok]
      cases b with
      | true => exact ⟨s', ts', lits', rfl, a2, a4 rfl, a5⟩
      | false => exact ih a2 (by omega) a5
    · rw [if_neg hip]
      exact ⟨s, ts, lits, rfl, h, by omega, hs⟩

/-- C84: with `room n` bytes the compressor succeeds with every text of `n` bytes, whatever its table
holds. -/
theorem C84_room_enough (over : Over) (htab : HTab) (inp : Bytes) (outLen : Nat) (h2 : 2 ≤ inp.length)
    (hr : room inp.length ≤ outLen) : ∃ n m, compress over htab inp outLen = .ok (n, m) := by
  have hr' := hr
  unfold room at hr'
  obtain ⟨v, e1⟩ : ∃ v, frst over inp 0 = .ok v := frst_ok (by omega)
  have hinit : CInv inp outLen ⟨0, 1, 0, v, htab, Mem.fresh outLen⟩ [] [] :=
    ⟨trivial, rfl, Nat.zero_le _, rfl, by decide, rfl, sub_nil _ _, sub_nil _ _, rfl, Nat.le_refl _⟩
  unfold compress
  rw [if_neg (by split at hr' <;> omega), e1]
  simp only [R.bind_ok]
  obtain ⟨s, ts, lits, a1, a2, a3, a4⟩ := mainLoop_room (over := over) (inp.length + 1) hinit (by simp only; omega) hr
    (.inl (by simp only; omega))
  rw [a1]
  simp only [R.bind_ok]
  have hop := a2.op
  have hsm := a2.small
  have hll := a2.litLe
  have hlt := a2.litLt
  have hle := a2.ipLe
  have hlit := a2.lit
  rw [if_neg (by split at hr' <;> omega)]
  obtain ⟨s', ts', lits', b1, b2, b3, b4⟩ := tailLoop_ok (over := over) (inp.length + 1) a2 (by omega) a3
    (by split at hr' <;> omega)
  rw [b1]
  simp only [R.bind_ok]
  have hop := b2.op
  obtain ⟨out', ts'', c1, _⟩ := flush_ok b2 (by omega)
  rw [c1]
  exact ⟨_, _, rfl⟩

/-! ## Less is not enough -/

/-- What the running hash holds: `v <<< 8 ||| c` as a number. -/
theorem shift_or (v : UInt32) (c : UInt8) : ((v <<< 8) ||| c.toUInt32).toNat = (v.toNat * 256 + c.toNat) % 2 ^ 32 := by
  have hc := c.toNat_lt
  have h1 : ((v <<< 8) ||| c.toUInt32).toNat = (v.toNat <<< 8 % 2 ^ 32) ||| c.toNat := by
    simp [UInt32.toNat_or, UInt32.toNat_shiftLeft]
  rw [h1, Nat.shiftLeft_eq]
  have h2 : v.toNat * 2 ^ 8 % 2 ^ 32 = (v.toNat % 2 ^ 24) <<< 8 := by
    rw [Nat.shiftLeft_eq]; omega
  rw [h2, ← Nat.shiftLeft_add_eq_or_of_lt (by omega), Nat.shiftLeft_eq]
  omega

/-- The index depends on the last three bytes only. -/
theorem idx_congr {v w : UInt32} (h : v.toNat % 2 ^ 24 = w.toNat % 2 ^ 24) : idx v = idx w := by
  have e : ∀ u : UInt32, idx u = (2 ^ 32 - 5 * (u.toNat % 2 ^ 24) + u.toNat % 2 ^ 24 / 256) % 65536 := by
    intro u
    unfold idx
    have : (65535 : Nat) = 2 ^ 16 - 1 := rfl
    rw [UInt32.toNat_and, UInt32.toNat_sub, UInt32.toNat_mul, UInt32.toNat_shiftRight]
    simp only [UInt32.reduceToNat, Nat.shiftRight_eq_div_pow]
    rw [this, Nat.and_two_pow_sub_one_eq_mod]
    have hu := u.toNat_lt
    generalize u.toNat = x at hu ⊢
    obtain ⟨a, r, hr, rfl⟩ : ∃ a r, r < 2 ^ 24 ∧ x = a * 2 ^ 24 + r := ⟨x / 2 ^ 24, x % 2 ^ 24, by omega, by omega⟩
    have h1 : (a * 2 ^ 24 + r) % 2 ^ 24 = r := by omega
    have h2 : (a * 2 ^ 24 + r) / 2 ^ (8 % 32) = a * 65536 + r / 256 := by norm_num; omega
    rw [h1, h2]
    omega
  rw [e, e, h]

/-- The state after `p` literals and no match. -/
structure LInv (inp : Bytes) (cap p : Nat) (s : CS) : Prop where
  ip : s.ip = p
  op : s.op = 1 + p + p / 32
  lit : s.lit = p % 32
  cap : s.out.cap = cap
  hv : s.hval.toNat % 2 ^ 16 = (inp.getD p 0).toNat * 256 + (inp.getD (p + 1) 0).toNat

/-- No reference that the compressor could take up at `p`. -/
def NoMatch (inp : Bytes) (p : Nat) : Prop := ∀ ref, ref < p → p - ref ≤ 8192 → 0 < ref → ¬ Agree inp ref p 3

theorem next_val {over : Over} {inp : Bytes} {v : UInt32} {p : Nat} (h : p + 2 < inp.length)
    (hv : v.toNat % 2 ^ 16 = (inp.getD p 0).toNat * 256 + (inp.getD (p + 1) 0).toNat) :
    ∃ w, next over inp v p = .ok w ∧ w.toNat % 2 ^ 24 =
      (inp.getD p 0).toNat * 65536 + (inp.getD (p + 1) 0).toNat * 256 + (inp.getD (p + 2) 0).toNat := by
  refine ⟨_, by simp only [next, rdIn_ok h, R.bind_ok, R.pure_eq]; rfl, ?_⟩
  rw [shift_or]
  have hc := (inp[p + 2]'h).toNat_lt
  have e : inp.getD (p + 2) 0 = inp[p + 2]'h := by simp [List.getD_eq_getElem?_getD, List.getElem?_eq_getElem h]
  rw [e]
  omega

theorem literal_turn {over : Over} {inp : Bytes} {cap p : Nat} {s : CS} (h : LInv inp cap p s) (hp : p + 2 < inp.length)
    (hn : NoMatch inp p) :
    turn over inp s = .fail ∨ ∃ s' w, turn over inp s = .ok (s', false) ∧ LInv inp cap (p + 1) s' ∧
      (w.toNat % 2 ^ 24 = (inp.getD p 0).toNat * 65536 + (inp.getD (p + 1) 0).toNat * 256 + (inp.getD (p + 2) 0).toNat) ∧
      s'.htab (idx w) = UInt32.ofNat p := by
  obtain ⟨h1, h2, h3, h4, h5⟩ := h
  subst h1
  obtain ⟨w, e1, hw⟩ := next_val (over := over) hp h5
  have hi : idx w < hsize := by
    unfold idx hsize
    rw [UInt32.toNat_and]
    exact Nat.lt_of_le_of_lt Nat.and_le_right (by decide)
  simp only [turn, e1, hget, hset, if_pos hi, R.bind_ok]
  obtain ⟨b, m1, m2⟩ := isMatch_ok (over := over) (s.htab (idx w)).toNat hp
  rw [m1]
  simp only [R.bind_ok]
  cases b with
  | true => obtain ⟨k1, k2, k3, k4⟩ := m2 rfl; exact absurd k4 (hn _ k1 k2 k3)
  | false =>
    rw [if_neg (by simp)]
    by_cases ho : s.op ≥ s.out.cap
    · rw [if_pos ho]; exact .inl rfl
    · right
      rw [if_neg ho]
      obtain ⟨m1, x1, c1⟩ := wr_any (m := s.out) (i := s.op) (inp[s.ip]'(by omega)) (by omega)
      simp only [copyLit, rdIn_ok (show s.ip < inp.length by omega), R.bind_ok, x1]
      have hv' : w.toNat % 2 ^ 16 = (inp.getD (s.ip + 1) 0).toNat * 256 + (inp.getD (s.ip + 1 + 1) 0).toNat := by
        have := (inp.getD (s.ip + 1) 0).toNat_lt
        have := (inp.getD (s.ip + 2) 0).toNat_lt
        rw [show s.ip + 1 + 1 = s.ip + 2 by omega]
        omega
      by_cases hl : s.lit + 1 = maxLit
      · rw [if_pos hl]
        unfold maxLit at hl
        obtain ⟨m2, x2, c2⟩ := stopRun_any (m := m1) (op := s.op + 1) (lit := s.lit + 1) (by omega) (by omega)
        rw [x2]
        refine ⟨_, w, rfl, ⟨rfl, ?_, ?_, by simp only; omega, hv'⟩, hw, by simp⟩ <;> simp only <;> omega
      · rw [if_neg hl]
        unfold maxLit at hl
        refine ⟨_, w, rfl, ⟨rfl, ?_, ?_, by simp only; omega, hv'⟩, hw, by simp⟩ <;> simp only <;> omega

/-- The main loop on text without matches up to `p`. -/
theorem literal_loop {over : Over} {inp : Bytes} {cap : Nat} {s : CS} (h : LInv inp cap 0 s) (p : Nat) (hp : p + 2 ≤ inp.length)
    (hn : ∀ q, q < p → NoMatch inp q) (fuel : Nat) :
    mainLoop over inp (fuel + p) s = .fail ∨ ∃ s', mainLoop over inp (fuel + p) s = mainLoop over inp fuel s' ∧ LInv inp cap p s' := by
  induction p generalizing fuel with
  | zero => exact .inr ⟨s, rfl, h⟩
  | succ p ih =>
    rcases ih (by omega) (fun q hq => hn q (by omega)) (fuel + 1) with hf | ⟨s', e, h'⟩
    · exact .inl (by rw [← hf]; congr 1; omega)
    · have e' : mainLoop over inp (fuel + (p + 1)) s = mainLoop over inp (fuel + 1) s' := by rw [← e]; congr 1; omega
      rw [e']
      simp only [mainLoop]
      rw [if_pos (by rw [h'.ip]; omega)]
      rcases literal_turn (over := over) h' (by omega) (hn p (by omega)) with hf | ⟨s'', w, e1, e2, _⟩
      · rw [hf]; exact .inl rfl
      · rw [e1]; exact .inr ⟨s'', rfl, e2⟩

/-- Text that needs the most room: no repetition before the last four bytes, which are equal. -/
def worst (n : Nat) : Bytes := digits (n - 4) ++ [200, 200, 200, 200]

theorem worst_length {n : Nat} (h : 4 ≤ n) : (worst n).length = n := by simp [worst, digits]; omega

theorem worst_get {n i : Nat} (h4 : 4 ≤ n) (h : i < n) : (worst n)[i]? = some (if i < n - 4 then digit i else 200) := by
  have hl : (digits (n - 4)).length = n - 4 := by simp [digits]
  unfold worst
  by_cases hi : i < n - 4
  · rw [if_pos hi, List.getElem?_append_left (by omega), digits_get hi]
  · rw [if_neg hi, List.getElem?_append_right (by omega), hl]
    have : i - (n - 4) = 0 ∨ i - (n - 4) = 1 ∨ i - (n - 4) = 2 ∨ i - (n - 4) = 3 := by omega
    rcases this with e | e | e | e <;> rw [e] <;> rfl

theorem digit_ne (i : Nat) : digit i ≠ 200 := by
  intro h
  have ht := congrArg UInt8.toNat h
  unfold digit at ht
  split at ht <;> (try split at ht) <;> simp only [UInt8.toNat_ofNat', UInt8.reduceToNat] at ht <;> omega

theorem worst_noMatch {n q : Nat} (h4 : 4 ≤ n) (hq : q < n - 3) : NoMatch (worst n) q := by
  intro ref h1 h2 h3 ha
  have a0 := ha 0 (by omega)
  have a1 := ha 1 (by omega)
  have a2 := ha 2 (by omega)
  rw [worst_get h4 (by omega), worst_get h4 (by omega)] at a0 a1 a2
  have a0 := Option.some.inj a0
  have a1 := Option.some.inj a1
  have a2 := Option.some.inj a2
  by_cases hlast : q + 2 < n - 4
  · rw [if_pos (by omega), if_pos (by omega)] at a0 a1 a2
    refine digits_fresh (n - 4) ref q h1 (by omega) (by simpa [digits] using hlast) ?_ ?_ ?_ <;>
      (rw [digits_get (by omega), digits_get (by omega)]; congr 1)
  · rw [if_neg (show ¬ q + 2 < n - 4 from hlast)] at a2
    rw [if_pos (show ref + 0 < n - 4 by omega)] at a0
    by_cases hr : ref + 2 < n - 4
    · rw [if_pos hr] at a2; exact digit_ne _ a2
    · by_cases hr1 : ref + 1 < n - 4
      · rw [if_pos hr1] at a1
        by_cases hq1 : q + 1 < n - 4
        · omega
        · rw [if_neg hq1] at a1; exact digit_ne _ a1
      · by_cases hq0 : q + 0 < n - 4
        · omega
        · rw [if_neg hq0] at a0; exact digit_ne _ a0

/-- C84: at every length from 5 on there is text for which the compressor fails with less than `room n`,
whatever its table holds. -/
theorem worst_fails (over : Over) (htab : HTab) (n outLen : Nat) (h5 : 5 ≤ n) (hn : n < 2 ^ 32) (ho : outLen < room n) :
    compress over htab (worst n) outLen = .fail := by
  have hl := worst_length (n := n) (by omega)
  unfold compress
  by_cases hz : (worst n).length = 0 ∨ outLen = 0
  · rw [if_pos hz]
  rw [if_neg hz]
  have hf : frst over (worst n) 0 = .ok ((((worst n).getD 0 0).toUInt32 <<< 8) ||| ((worst n).getD 1 0).toUInt32) := by
    simp only [frst, rdIn_ok (show 0 < (worst n).length by omega), rdIn_ok (show 0 + 1 < (worst n).length by omega), R.bind_ok, R.pure_eq]
    simp [List.getD_eq_getElem?_getD, List.getElem?_eq_getElem (show 0 < (worst n).length by omega),
      List.getElem?_eq_getElem (show 1 < (worst n).length by omega)]
  rw [hf]
  simp only [R.bind_ok]
  have hinit : LInv (worst n) outLen 0 ⟨0, 1, 0, (((worst n).getD 0 0).toUInt32 <<< 8) ||| ((worst n).getD 1 0).toUInt32, htab,
      Mem.fresh outLen⟩ := by
    refine ⟨rfl, rfl, rfl, rfl, ?_⟩
    simp only [shift_or]
    have := ((worst n).getD 0 0).toNat_lt
    have := ((worst n).getD 1 0).toNat_lt
    simp only [UInt8.toNat_toUInt32, Nat.zero_add]
    omega
  rw [show (worst n).length + 1 = 5 + (n - 4) by omega]
  rcases literal_loop (over := over) hinit (n - 4) (by omega) (fun q hq => worst_noMatch (by omega) (by omega)) 5 with e | ⟨s, e, hs⟩
  · rw [e]; rfl
  rw [e]
  have hlast : ∀ i, n - 4 ≤ i → i < n → (worst n).getD i 0 = 200 := by
    intro i h1 h2
    rw [List.getD_eq_getElem?_getD, worst_get (by omega) h2, if_neg (by omega)]; rfl
  have hrd : ∀ i, n - 4 ≤ i → i < n → rdIn over (worst n) i = .ok 200 := by
    intro i h1 h2
    simp only [rdIn, worst_get (show 4 ≤ n by omega) h2, if_neg (show ¬ i < n - 4 by omega)]
  simp only [mainLoop]
  rw [if_pos (by rw [hs.ip]; omega)]
  rcases literal_turn (over := over) hs (by omega) (worst_noMatch (by omega) (by omega)) with e1 | ⟨s', w, e1, hs', hw, ht⟩
  · rw [e1]; rfl
  rw [e1]
  simp only [R.bind_ok, Bool.false_eq_true, if_false]
  rw [if_pos (by rw [hs'.ip]; omega)]
  obtain ⟨w', e2, hw'⟩ := next_val (over := over) (show n - 4 + 1 + 2 < (worst n).length by omega) hs'.hv
  rw [hlast _ (by omega) (by omega), hlast _ (by omega) (by omega), hlast _ (by omega) (by omega)] at hw hw'
  have hi : idx w' = idx w := idx_congr (by rw [hw, hw'])
  have hi' : idx w' < hsize := by
    unfold idx hsize
    rw [UInt32.toNat_and]
    exact Nat.lt_of_le_of_lt Nat.and_le_right (by decide)
  have href : (s'.htab (idx w')).toNat = n - 4 := by
    rw [hi, ht, UInt32.toNat_ofNat', Nat.mod_eq_of_lt (by omega)]
  have hip := hs'.ip
  have hm : isMatch over (worst n) (n - 4) (n - 4 + 1) = .ok true := by
    unfold isMatch
    rw [if_pos (by unfold maxOff; omega)]
    simp only [hrd (n - 4 + 2) (by omega) (by omega), hrd (n - 4 + 1 + 2) (by omega) (by omega), hrd (n - 4) (by omega) (by omega),
      hrd (n - 4 + 1) (by omega) (by omega), R.bind_ok, R.pure_eq, if_true, and_self,
      decide_true]
  have hop := hs'.op
  have hlit := hs'.lit
  have hcap := hs'.cap
  have hlen : matchLen over (worst n) (n - 4) (n - 4 + 1) 1 = .ok 3 := rfl
  have hturn : turn over (worst n) s' = .fail ∨ ∃ s'', turn over (worst n) s' = .ok (s'', true) ∧ s''.op = s'.op - notB s'.lit + 3 := by
    simp only [turn, e2, hget, hset, if_pos hi', R.bind_ok, href, hip, hm, if_true, onMatch, hl]
    rw [if_neg (show ¬ n - (n - 4 + 1) - 2 > maxRef by unfold maxRef; omega), show n - (n - 4 + 1) - 2 = 1 by omega]
    by_cases hc : s'.op + 3 + 1 ≥ s'.out.cap ∧ s'.op - notB s'.lit + 3 + 1 ≥ s'.out.cap
    · rw [if_pos hc]; exact .inl rfl
    · right
      rw [if_neg hc]
      have hnb : notB s'.lit ≤ 1 := by unfold notB; split <;> omega
      have hnb1 : s'.op < s'.out.cap + 1 := by omega
      obtain ⟨m1, x1, c1⟩ := stopRun_any (m := s'.out) (op := s'.op) (lit := s'.lit) (by omega) (by omega)
      rw [x1]
      simp only [R.bind_ok, hlen]
      obtain ⟨m2, x2, c2⟩ := putRef_any (m := m1) (op := s'.op - notB s'.lit) (off := n - 4 + 1 - (n - 4) - 1) (len := 3 - 2) (by omega)
      rw [x2]
      simp only [R.bind_ok]
      rw [if_pos (show n - 4 + 1 + 1 + (3 - 2 + 1) + 2 ≥ n by omega)]
      exact ⟨_, rfl, rfl⟩
  rcases hturn with e3 | ⟨s'', e3, hop''⟩
  · rw [e3]; rfl
  rw [e3]
  simp only [R.bind_ok, if_true, R.pure_eq]
  rw [if_pos]
  unfold room at ho
  rw [if_neg (by omega)] at ho
  rw [hop'', hop, hlit]
  unfold notB
  split <;> omega

/-- C84, the room exactly: for 2 bytes or more, the compressor succeeds with all text of length `n` just
when it has `room n` bytes, whatever its table holds. -/
theorem C84_room_exact (over : Over) (htab : HTab) (n outLen : Nat) (h2 : 2 ≤ n) (hn : n < 2 ^ 32) :
    (∀ inp : Bytes, inp.length = n → ∃ k m, compress over htab inp outLen = .ok (k, m)) ↔ room n ≤ outLen := by
  constructor
  · intro h
    apply Classical.byContradiction
    intro hc
    by_cases h5 : 5 ≤ n
    · obtain ⟨k, m, e⟩ := h (worst n) (worst_length (by omega))
      rw [worst_fails over htab n outLen h5 hn (by omega)] at e
      cases e
    · obtain ⟨inp, hl, hf⟩ := C84_violated_room n h2
      obtain ⟨k, m, e⟩ := h inp hl
      rw [hf over htab outLen (by unfold room at hc; rw [if_pos (by omega)] at hc; omega)] at e
      cases e
  · rintro hr inp rfl
    exact C84_room_enough over htab inp outLen h2 hr

/-- The room written out: it lies between the bytes that may be filled and the `n + n/32 + 4` of
`C84_enough_room`. -/
theorem C84_room_value (n : Nat) (h5 : 5 ≤ n) :
    room n = n + n / 32 + (if n % 32 < 4 then 3 else 4) ∧ n + (n + 31) / 32 + 2 ≤ room n ∧ room n ≤ n + n / 32 + 4 := by
  unfold room
  rw [if_neg (by omega)]
  split <;> omega

/-- Five bytes need nine: with eight the compressor fails, and with nine it fills five. -/
example : worst 5 = [0, 200, 200, 200, 200] ∧ compress none (fun _ => 7) (worst 5) 8 = .fail ∧
    (∃ m, compress none (fun _ => 7) (worst 5) 9 = .ok (5, m)) ∧ room 5 = 9 := by
  refine ⟨by decide +kernel, by rfl, ⟨_, rfl⟩, by decide⟩

end Verif.Lzf

import Verif.FloatGrammarLemmas
/-!
# C113: which texts are numbers, and which numbers they are
-/
namespace Verif
open F64 Cache

/-! ## Accepting -/

theorem mem_digsText {hex : Bool} {ds : List Dig} (h : ∀ d ∈ ds, (digitIndex hex d.c).isSome = true) {c : UInt8}
    (hc : c ∈ digsText ds) : MC hex c := by
  unfold digsText at hc
  rw [List.mem_flatMap] at hc
  obtain ⟨d, hd, hc⟩ := hc
  unfold Dig.text at hc
  split at hc
  · simp at hc
    rcases hc with hc | hc
    · exact .inl hc
    · exact .inr (by rw [hc]; exact h d hd)
  · simp at hc
    exact .inr (by rw [hc]; exact h d hd)

theorem digit_hex_of_dec {c : UInt8} (hex : Bool) (h : (digitIndex false c).isSome = true) :
    (digitIndex hex c).isSome = true := by
  cases hex
  · exact h
  · exact all_bytes (P := fun c => (digitIndex false c).isSome = true → (digitIndex true c).isSome = true)
      (by decide +kernel) c h

theorem marker_props {hex : Bool} {c : UInt8} (h : c ∈ if hex then b!"pP" else b!"eE") :
    digitIndex hex c = none ∧ c ≠ 95 ∧ c ≠ 46 := by
  cases hex
  · exact all_bytes (P := fun c => c ∈ b!"eE" → digitIndex false c = none ∧ c ≠ 95 ∧ c ≠ 46) (by decide +kernel) c
      (by simpa using h)
  · exact all_bytes (P := fun c => c ∈ b!"pP" → digitIndex true c = none ∧ c ≠ 95 ∧ c ≠ 46) (by decide +kernel) c
      (by simpa using h)

namespace Lit

/-- Sign and prefix removed. -/
def tail (l : Lit) : Bytes := digsText l.int ++ (l.fracText ++ l.expText)

/-- Exponent as the scanner keeps it. -/
def cap (l : Lit) : Nat := match l.exp with
  | none => 0
  | some (_, _, ds) => capExp 0 ds

/-- What the scanner rounds. -/
def mag (l : Lit) (e : Nat) : Nat :=
  roundMag (digsVal l.hex l.mant * (if l.hex then 2 else 10) ^ (if l.expNeg then 0 else e) * 2 ^ 1074)
    ((if l.hex then 16 else 10) ^ (l.frac.getD []).length *
      (if l.hex then 2 else 10) ^ (if l.expNeg then e else 0))

variable {l : Lit}

theorem body_eq (l : Lit) : l.body = l.pre ++ l.tail := rfl

theorem expText_stops (h : l.Valid) : Stops l.hex l.expText ∧ ∀ cs, l.expText ≠ 46 :: cs := by
  unfold expText
  cases he : l.exp with
  | none => exact ⟨fun c cs h => (by cases h), fun cs h => (by cases h)⟩
  | some p =>
    obtain ⟨c, s, ds⟩ := p
    obtain ⟨h1, _⟩ := h.exp c s ds he
    obtain ⟨m1, m2, m3⟩ := marker_props h1
    constructor
    · intro x xs hx
      cases hx
      exact ⟨m2, m1⟩
    · intro xs hx
      cases hx
      exact m3 rfl

theorem scanMant_tail (h : l.Valid) : ∃ m, scanMant l.hex {} l.tail = (m, l.expText) ∧
    m.val = digsVal l.hex l.mant ∧ m.nfrac = (l.frac.getD []).length ∧ m.digits = true := by
  obtain ⟨s1, s2⟩ := expText_stops h
  unfold tail fracText
  rw [scanMant_digs _ h.int.1]
  cases hf : l.frac with
  | none =>
    simp only
    rw [List.nil_append, scanMant_stop s1 s2]
    refine ⟨_, rfl, ?_, ?_, ?_⟩
    · simp [Mant.after, digsVal, valFrom, mant, hf]
    · simp [Mant.after]
    · have := h.some_digit
      simp [mant, hf] at this
      simp [Mant.after, this]
  | some f =>
    simp only
    have hstep : ∀ st : Mant, st.dot = false → ∀ cs, scanMant l.hex st (46 :: cs) =
        scanMant l.hex { st with dot := true } cs := by
      intro st hst cs
      rw [scanMant, if_neg (by decide), if_pos rfl, if_neg (by rw [hst]; decide)]
    rw [show b!"." ++ digsText f = 46 :: digsText f from rfl, List.cons_append, hstep _ rfl,
      scanMant_digs _ (h.frac f hf).1, scanMant_stop s1 s2]
    refine ⟨_, rfl, ?_, ?_, ?_⟩
    · simp [Mant.after, digsVal, valFrom, mant, hf]
    · simp [Mant.after]
    · have := h.some_digit
      simp only [mant, hf, Option.getD_some, ne_eq, List.append_eq_nil_iff] at this
      cases hi : l.int
      · cases hff : f
        · exact absurd ⟨hi, hff⟩ this
        · simp [Mant.after]
      · simp [Mant.after]

theorem head_us {hex : Bool} {ds : List Dig} (hne : ds ≠ []) (h : DigsOk hex false ds) :
    ∃ c cs, digsText ds = c :: cs ∧ (digitIndex hex c).isSome = true := by
  cases ds with
  | nil => exact absurd rfl hne
  | cons d ds =>
    have hu : d.us = false := by
      cases hd : d.us
      · rfl
      · exact absurd (h.2 d rfl hd) (by decide)
    refine ⟨d.c, digsText ds, ?_, h.1 d (by simp)⟩
    rw [digsText_cons]; simp [Dig.text, hu]

theorem readExp_fwd {s : Bytes} {ds : List Dig} (hs : s = [] ∨ s = b!"+" ∨ s = b!"-") (hne : ds ≠ [])
    (h : DigsOk false false ds) :
    ∃ us, readExp (s ++ digsText ds) =
      some (if decide (s = b!"-") = true then -(capExp 0 ds : Int) else (capExp 0 ds : Int), us, []) := by
  obtain ⟨c, cs, hc, hd⟩ := head_us hne h
  have hsp := splitSign_fwd (t := digsText ds) hs (by
    intro x xs hx
    rw [hc] at hx
    cases hx
    exact ⟨(isSome_ne hd).2.2.1, (isSome_ne hd).2.2.2⟩)
  have hdg : isDigit c = true := by
    rw [digitIndex_dec] at hd
    cases hi : isDigit c
    · rw [hi] at hd; cases hd
    · rfl
  have hex := scanExp_digs ds h.1 0 false
  unfold readExp
  rw [hsp]
  rw [hc] at hex ⊢
  simp only
  rw [if_pos hdg, hex]
  exact ⟨_, rfl⟩

theorem usScan_tail (h : l.Valid) (saw : Nat) (hs : saw = if l.hex then 1 else 0) :
    underscoreScan l.hex saw l.tail = true := by
  have hexp : ∀ saw, saw ≠ 2 → underscoreScan l.hex saw l.expText = true := by
    intro saw hsaw
    unfold expText
    cases he : l.exp with
    | none => simp [underscoreScan, hsaw]
    | some p =>
      obtain ⟨c, s, ds⟩ := p
      obtain ⟨h1, h2, h3, h4⟩ := h.exp c s ds he
      obtain ⟨m1, m2, _⟩ := marker_props h1
      have hd : ∀ saw, saw ≠ 2 → underscoreScan l.hex saw (digsText ds) = true := by
        intro saw hsaw
        have := usScan_digs (hex := l.hex) ds (fun d hd => digit_hex_of_dec _ (h4.1 d hd)) saw
          (fun d hd hu => absurd (h4.2 d hd hu) (by decide)) []
        rw [List.append_nil, if_neg h3] at this
        rw [this]; rfl
      simp only [List.cons_append, List.nil_append]
      rw [usScan_other m1 m2, if_neg hsaw]
      rcases h2 with h2 | h2 | h2 <;> subst h2
      · exact hd 3 (by decide)
      · rw [show b!"+" ++ digsText ds = 43 :: digsText ds from rfl,
          usScan_other (by cases l.hex <;> decide) (by decide), if_neg (by decide)]
        exact hd 3 (by decide)
      · rw [show b!"-" ++ digsText ds = 45 :: digsText ds from rfl,
          usScan_other (by cases l.hex <;> decide) (by decide), if_neg (by decide)]
        exact hd 3 (by decide)
  unfold tail
  rw [usScan_digs _ h.int.1 _ (fun d hd hu => by rw [hs, h.int.2 d hd hu]; rfl)]
  have hsaw : (if l.int = [] then saw else 1) ≠ 2 := by
    split
    · rw [hs]; split <;> decide
    · decide
  generalize (if l.int = [] then saw else 1) = sw at hsaw
  unfold fracText
  cases hf : l.frac with
  | none => exact hexp sw hsaw
  | some f =>
    simp only
    rw [show b!"." ++ digsText f = 46 :: digsText f from rfl, List.cons_append,
      usScan_other (by cases l.hex <;> decide) (by decide), if_neg hsaw,
      usScan_digs _ (h.frac f hf).1 _ (fun d hd hu => absurd ((h.frac f hf).2 d hd hu) (by decide))]
    apply hexp
    split <;> decide

/-- No letter of a base prefix occurs in a decimal literal. -/
theorem no_prefix_letter (h : l.Valid) (hh : l.hex = false) {c : UInt8} (hc : c ∈ l.tail) : c ∉ b!"xXbBoO" := by
  have hmc : MC false c → c ∉ b!"xXbBoO" := by
    intro hm
    rcases hm with hm | hm
    · subst hm; decide
    · exact all_bytes (P := fun c => (digitIndex false c).isSome = true → c ∉ b!"xXbBoO") (by decide +kernel) c hm
  unfold tail at hc
  simp only [List.mem_append] at hc
  rcases hc with hc | hc | hc
  · exact hmc (by rw [← hh]; exact mem_digsText h.int.1 hc)
  · unfold fracText at hc
    cases hf : l.frac with
    | none => rw [hf] at hc; cases hc
    | some f =>
      rw [hf] at hc
      simp only [List.cons_append, List.nil_append, List.mem_cons] at hc
      rcases hc with hc | hc
      · subst hc; decide
      · exact hmc (by rw [← hh]; exact mem_digsText (h.frac f hf).1 hc)
  · unfold expText at hc
    cases he : l.exp with
    | none => rw [he] at hc; cases hc
    | some p =>
      obtain ⟨m, s, ds⟩ := p
      obtain ⟨h1, h2, _, h4⟩ := h.exp m s ds he
      rw [he] at hc
      simp only [List.cons_append, List.nil_append, List.mem_cons, List.mem_append] at hc
      rcases hc with hc | hc | hc
      · subst hc
        rw [hh] at h1
        exact all_bytes (P := fun c => (c ∈ if false = true then b!"pP" else b!"eE") → c ∉ b!"xXbBoO")
          (by decide +kernel) c h1
      · rcases h2 with h2 | h2 | h2 <;> subst h2
        · cases hc
        · simp at hc; subst hc; decide
        · simp at hc; subst hc; decide
      · exact hmc (mem_digsText h4.1 hc)

theorem tail_ne_nil (h : l.Valid) : l.tail ≠ [] := by
  obtain ⟨m, h1, _, _, h4⟩ := scanMant_tail h
  intro h0
  rw [h0] at h1
  simp [scanMant] at h1
  rw [← h1.1] at h4
  cases h4

theorem pre_cases (h : l.Valid) : (l.hex = false ∧ l.pre = []) ∨
    (l.hex = true ∧ ∃ x, (x = 120 ∨ x = 88) ∧ l.pre = [48, x]) := by
  unfold hex
  rcases h.pre with h | h | h
  · left; rw [h]; exact ⟨rfl, rfl⟩
  · right; rw [h]; exact ⟨rfl, 120, .inl rfl, rfl⟩
  · right; rw [h]; exact ⟨rfl, 88, .inr rfl, rfl⟩

theorem splitHex_body (h : l.Valid) : splitHex l.body = (l.hex, l.tail) := by
  rw [body_eq]
  rcases pre_cases h with ⟨hh, hp⟩ | ⟨hh, x, hx, hp⟩
  · rw [hh, hp, List.nil_append]
    have hno := fun c (hc : c ∈ l.tail) => no_prefix_letter h hh hc
    generalize l.tail = s at hno
    unfold splitHex
    split
    · rename_i x c cs
      have := hno x (by simp)
      rw [if_neg]
      intro hx
      rcases (lower_x x).1 hx with hx | hx <;> (subst hx; exact this (by decide))
    · rfl
  · rw [hh, hp]
    have := tail_ne_nil h
    cases ht : l.tail with
    | nil => exact absurd ht this
    | cons c cs =>
      simp only [List.cons_append, List.nil_append, splitHex]
      rw [if_pos ((lower_x x).2 hx)]

theorem underscoreOK_body (h : l.Valid) : underscoreOK l.body = true := by
  have hu := usScan_tail h _ rfl
  rw [body_eq]
  rcases pre_cases h with ⟨hh, hp⟩ | ⟨hh, x, hx, hp⟩
  · rw [hh] at hu
    rw [hp, List.nil_append]
    have hno := fun c (hc : c ∈ l.tail) => no_prefix_letter h hh hc
    generalize l.tail = s at hno hu
    unfold underscoreOK
    split
    · rename_i x cs
      have := hno x (by simp)
      rw [if_neg, if_neg]
      · exact hu
      · intro hx
        simp only [Bool.or_eq_true, decide_eq_true_eq] at hx
        have hb := (lower_bo x).1 hx
        simp at hb this
        rcases hb with hb | hb | hb | hb <;> (subst hb; revert this; decide)
      · intro hx
        rcases (lower_x x).1 hx with hx | hx <;> (subst hx; exact this (by decide))
    · exact hu
  · rw [hh] at hu
    rw [hp]
    simp only [List.cons_append, List.nil_append, underscoreOK]
    rw [if_pos ((lower_x x).2 hx)]
    exact hu

theorem roundLit_eq (hex : Bool) (m P N : Nat) :
    roundLit hex m ((P : Int) - (N : Int)) =
      roundMag (m * (if hex then 2 else 10) ^ P * 2 ^ 1074) ((if hex then 2 else 10) ^ N) := by
  unfold roundLit
  simp only
  have hb : 0 < (if hex then 2 else 10) := by split <;> omega
  generalize (if hex then 2 else 10) = b at hb
  have hbp : ∀ n, 0 < b ^ n := fun n => Nat.pow_pos hb
  split
  · rename_i hle
    obtain ⟨k, hk⟩ : ∃ k, P = N + k := ⟨P - N, by omega⟩
    subst hk
    rw [show (((N + k : Nat) : Int) - (N : Int)).toNat = k by omega]
    refine roundMag_ratio (by omega) (hbp _) ?_
    rw [Nat.pow_add, Nat.mul_one]
    generalize 2 ^ 1074 = C
    ac_rfl
  · rename_i hle
    obtain ⟨k, hk⟩ : ∃ k, N = P + k := ⟨N - P, by omega⟩
    subst hk
    rw [show (-((P : Int) - ((P + k : Nat) : Int))).toNat = k by omega]
    refine roundMag_ratio (hbp _) (hbp _) ?_
    rw [Nat.pow_add]
    generalize 2 ^ 1074 = C
    ac_rfl

theorem roundLit_mag (l : Lit) (e : Nat) :
    roundLit l.hex (digsVal l.hex l.mant)
      ((if l.expNeg = true then -(e : Int) else (e : Int)) -
        ((if l.hex then 4 * (l.frac.getD []).length else (l.frac.getD []).length : Nat) : Int)) = l.mag e := by
  unfold mag
  generalize (l.frac.getD []).length = nf
  have h16 : (16 : Nat) ^ nf = 2 ^ (4 * nf) := by rw [Nat.pow_mul]
  cases l.expNeg <;> cases l.hex <;>
    simp only [if_true, if_false, Bool.false_eq_true, Nat.pow_zero, Nat.mul_one]
  · rw [roundLit_eq]; rfl
  · rw [roundLit_eq, h16]; rfl
  · have := roundLit_eq false (digsVal false l.mant) 0 (nf + e)
    rw [show (-(e : Int) - (nf : Int)) = ((0 : Nat) : Int) - ((nf + e : Nat) : Int) by omega, this]
    simp [Nat.pow_add]
  · have := roundLit_eq true (digsVal true l.mant) 0 (4 * nf + e)
    rw [show (-(e : Int) - ((4 * nf : Nat) : Int)) = ((0 : Nat) : Int) - ((4 * nf + e : Nat) : Int) by omega, this, h16]
    simp [Nat.pow_add]

theorem readFloatMag_lit (h : l.Valid) :
    readFloatMag l.body = if l.mag l.cap < infMag then some (l.mag l.cap) else none := by
  obtain ⟨m, m1, m2, m3, m4⟩ := scanMant_tail h
  have hu := underscoreOK_body h
  unfold readFloatMag
  rw [splitHex_body h]
  simp only
  rw [m1]
  simp only [m4]
  rw [if_neg (by decide)]
  have hround : ∀ e : Nat, e = l.cap → roundLit l.hex m.val ((if l.expNeg = true then -(e : Int) else (e : Int)) -
      (if l.hex then 4 * m.nfrac else m.nfrac)) = l.mag l.cap := by
    intro e he
    have := roundLit_mag l e
    rw [m2, m3, ← he, ← this]
  cases he : l.exp with
  | none =>
    have hh : l.hex = false := by
      cases hx : l.hex
      · rfl
      · exact absurd he (h.exp_hex hx)
    have ht : l.expText = [] := by simp [expText, he]
    have hc : l.cap = 0 := by simp [cap, he]
    have hn : l.expNeg = false := by simp [expNeg, he]
    have := hround 0 hc.symm
    rw [hn] at this
    simp only [Bool.false_eq_true, if_false] at this
    rw [ht]
    simp only [hh, hu, if_false, Bool.false_eq_true, Bool.not_true, Bool.and_false, ne_eq, not_true_eq_false]
    rw [hh] at this
    simp only [Bool.false_eq_true, if_false] at this
    rw [show ((0 : Int) - (m.nfrac : Int)) = (((0 : Nat) : Int) - (m.nfrac : Int)) from rfl, this]
  | some p =>
    obtain ⟨c, s, ds⟩ := p
    obtain ⟨h1, h2, h3, h4⟩ := h.exp c s ds he
    have ht : l.expText = c :: (s ++ digsText ds) := by simp [expText, he]
    have hc : l.cap = capExp 0 ds := by simp [cap, he]
    have hn : l.expNeg = decide (s = b!"-") := by simp [expNeg, he]
    obtain ⟨us, hr⟩ := readExp_fwd h2 h3 h4
    have := hround _ hc.symm
    rw [hn] at this
    rw [ht]
    simp only
    rw [if_pos ((marker_iff _ _).2 h1), hr]
    simp only [hu, Bool.not_true, Bool.and_false, ne_eq, not_true_eq_false, if_false, Bool.false_eq_true]
    rw [this]

/-- The first character after the sign. -/
theorem body_head (h : l.Valid) : ∃ c cs, l.body = c :: cs ∧ (isDigit c = true ∨ c = 46) := by
  rw [body_eq]
  rcases pre_cases h with ⟨hh, hp⟩ | ⟨_, x, _, hp⟩
  · rw [hp, List.nil_append]
    cases hi : l.int with
    | cons d ds =>
      have hok := h.int
      rw [hh] at hok
      obtain ⟨c, cs, h1, h2⟩ := head_us (ds := l.int) (by rw [hi]; simp) hok
      have hdg : isDigit c = true := by
        rw [digitIndex_dec] at h2
        cases hi : isDigit c
        · rw [hi] at h2; cases h2
        · rfl
      exact ⟨c, cs ++ (l.fracText ++ l.expText), by unfold tail; rw [h1]; rfl, .inl hdg⟩
    | nil =>
      have := h.some_digit
      cases hf : l.frac with
      | none => simp [mant, hi, hf] at this
      | some f =>
        refine ⟨46, digsText f ++ l.expText, ?_, .inr rfl⟩
        simp [tail, hi, digsText_nil, fracText, hf]
  · exact ⟨48, x :: l.tail, by rw [hp]; rfl, .inl rfl⟩

theorem parseFloat_lit (h : l.Valid) :
    parseFloat l.text = if l.mag l.cap < infMag then some (mk' (l.sign = b!"-") (l.mag l.cap)) else none := by
  obtain ⟨c, cs, hc, hcd⟩ := body_head h
  have hlow : lowerLetter c = c := by
    rcases hcd with h | h
    · exact lowerLetter_digit h
    · subst h; rfl
  have hne : c ≠ 105 ∧ c ≠ 110 ∧ c ≠ 43 ∧ c ≠ 45 := by
    refine ⟨?_, ?_, ?_, ?_⟩ <;> (rintro rfl; revert hcd; decide)
  have hsp := splitSign_fwd (t := l.body) h.sign (by
    intro x xs hx; rw [hc] at hx; cases hx; exact ⟨hne.2.2.1, hne.2.2.2⟩)
  have hnan : l.text.map lowerLetter ≠ b!"nan" := by
    unfold text
    rw [hc]
    intro e
    rcases h.sign with hs | hs | hs <;> rw [hs] at e
    · simp only [List.nil_append, List.map_cons, hlow] at e
      exact hne.2.1 (List.cons.inj e).1
    · simp only [List.cons_append, List.map_cons] at e
      exact absurd (List.cons.inj e).1 (by decide)
    · simp only [List.cons_append, List.map_cons] at e
      exact absurd (List.cons.inj e).1 (by decide)
  have hinf : isInfWord l.body = false := by
    rw [hc]
    unfold isInfWord
    simp only [List.map_cons, hlow, Bool.or_eq_false_iff, decide_eq_false_iff_not]
    exact ⟨fun e => hne.1 (List.cons.inj e).1, fun e => hne.1 (List.cons.inj e).1⟩
  unfold parseFloat
  rw [if_neg hnan]
  unfold text
  rw [hsp]
  simp only
  rw [if_neg (by rw [hinf]; decide), readFloatMag_lit h]
  split <;> rfl

theorem mag_of_nearest {m : Nat} (hm : Nearest l.num l.den m) : l.mag l.expVal = m := by
  have hd : 0 < l.den := by
    unfold den
    apply Nat.mul_pos <;> (apply Nat.pow_pos; split <;> omega)
  exact (roundMag_nearest _ _ hd).unique hd hm

theorem den_pos (l : Lit) : 0 < l.den := by
  unfold den
  apply Nat.mul_pos <;> (apply Nat.pow_pos; split <;> omega)

theorem cap_eq (h : l.expVal < 100000) : l.cap = l.expVal := by
  unfold cap expVal at *
  cases he : l.exp with
  | none => rfl
  | some p =>
    rw [he] at h
    exact (capExp_spec 0 p.2.2 (by omega)).1 h

end Lit

/-! ## Rejecting -/

theorem lit_of_scan {hex : Bool} {pre s : Bytes} (hpre : pre = [] ∧ hex = false ∨ (pre = b!"0x" ∨ pre = b!"0X") ∧ hex = true)
    {m : Mant} {rest : Bytes} (hm : scanMant hex {} s = (m, rest)) (hd : m.digits = true)
    (hrest : rest = [] ∧ hex = false ∨
      ∃ c cs e us, rest = c :: cs ∧ (c ∈ if hex then b!"pP" else b!"eE") ∧ readExp cs = some (e, us, []) ∧
        ((m.us || us) = false ∨ underscoreScan hex (if hex then 1 else 0) s = true))
    (hus : rest = [] → m.us = false ∨ underscoreScan hex (if hex then 1 else 0) s = true) :
    ∃ l : Lit, l.Valid ∧ l.sign = [] ∧ l.body = pre ++ s := by
  obtain ⟨A, B?, h1, h2, h3, h4, h5, h6⟩ := scanMant_inv0 s {} m rest rfl hm
  -- the exponent part
  obtain ⟨E, hE, hEus⟩ : ∃ E : Option (UInt8 × Bytes × Bytes),
      (match E with
        | none => rest = [] ∧ hex = false
        | some (c, sg, D) => rest = c :: (sg ++ D) ∧ (c ∈ if hex then b!"pP" else b!"eE") ∧
          (sg = [] ∨ sg = b!"+" ∨ sg = b!"-") ∧ D ≠ [] ∧ (∀ x ∈ D, MC false x) ∧
          (∀ y ys, D = y :: ys → y ≠ 95)) ∧
      underscoreScan hex (if hex then 1 else 0) s = true := by
    rcases hrest with ⟨hr, hx⟩ | ⟨c, cs, e, us, hr, hc, hre, hu⟩
    · refine ⟨none, ⟨hr, hx⟩, ?_⟩
      rcases hus hr with h | h
      · refine usScan_none s ?_ _ (by split <;> decide)
        intro x hxs
        rw [h1, hr, List.append_nil] at hxs
        obtain ⟨_, n1, n2⟩ := h5 h
        rcases List.mem_append.1 hxs with hxs | hxs
        · exact n1 x hxs
        · cases B? with
          | none => cases hxs
          | some B =>
            rcases List.mem_cons.1 hxs with hxs | hxs
            · subst hxs; decide
            · exact n2 B rfl x hxs
      · exact h
    · obtain ⟨sg, y, D, d1, d2, d3, d4, d5⟩ := readExp_inv hre
      refine ⟨some (c, sg, y :: D), ⟨by rw [hr, d1], hc, d2, by simp, d4, ?_⟩, ?_⟩
      · intro z zs hz
        cases hz
        exact (isSome_ne d3).1
      · rcases hu with h | h
        · rw [Bool.or_eq_false_iff] at h
          refine usScan_none s ?_ _ (by split <;> decide)
          intro x hxs
          rw [h1, hr] at hxs
          obtain ⟨_, n1, n2⟩ := h5 h.1
          rcases List.mem_append.1 hxs with hxs | hxs
          · exact n1 x hxs
          · rcases List.mem_append.1 hxs with hxs | hxs
            · cases B? with
              | none => cases hxs
              | some B =>
                rcases List.mem_cons.1 hxs with hxs | hxs
                · subst hxs; decide
                · exact n2 B rfl x hxs
            · rcases List.mem_cons.1 hxs with hxs | hxs
              · subst hxs; exact (marker_props hc).2.1
              · rw [d1] at hxs
                rcases List.mem_append.1 hxs with hxs | hxs
                · rcases d2 with d2 | d2 | d2 <;> subst d2
                  · cases hxs
                  · simp at hxs; subst hxs; decide
                  · simp at hxs; subst hxs; decide
                · exact d5 h.2 x hxs
        · exact h
  -- integer digits
  have hst1 : Stops hex (dotText B? ++ rest) := by
    cases B? with
    | none => exact h6
    | some B =>
      intro x xs hx
      cases hx
      exact ⟨by decide, by cases hex <;> decide⟩
  rw [h1] at hEus
  obtain ⟨ia, i1, i2, i3, i4⟩ := usScan_inv _ A _ (if hex then 1 else 0) (Nat.le_refl _) h2 hst1
    (by cases hex <;> decide) hEus
  have hsaw : (if ia = [] then (if hex then 1 else 0) else 1) ≠ 2 := by
    cases hex <;> (split <;> decide)
  generalize (if ia = [] then (if hex then 1 else 0) else 1) = sw at i4 hsaw
  -- fraction digits
  obtain ⟨fr, f1, f2, sw2, f3, f4⟩ : ∃ fr : Option (List Dig),
      dotText B? = Lit.fracText { frac := fr } ∧
      (∀ f, fr = some f → DigsOk hex false f) ∧ ∃ sw2, sw2 ≠ 2 ∧ underscoreScan hex sw2 rest = true := by
    cases B? with
    | none => exact ⟨none, rfl, (by intro f hf; cases hf), sw, hsaw, i4⟩
    | some B =>
      simp only [dotText, List.cons_append] at i4
      rw [usScan_other (by cases hex <;> decide) (by decide), if_neg hsaw] at i4
      obtain ⟨fa, g1, g2, g3, g4⟩ := usScan_inv _ B _ _ (Nat.le_refl _) (h3 B rfl) h6 (by decide) i4
      refine ⟨some fa, by rw [g1]; rfl, ?_, _, ?_, g4⟩
      · intro f hf
        cases hf
        exact ⟨g2, fun d hd hu => absurd (g3 d hd hu) (by decide)⟩
      · split <;> decide
  -- exponent digits
  obtain ⟨ex, e1, e2, e3⟩ : ∃ ex : Option (UInt8 × Bytes × List Dig),
      rest = Lit.expText { exp := ex } ∧
      (∀ c sg ds, ex = some (c, sg, ds) → (c ∈ if hex then b!"pP" else b!"eE") ∧
        (sg = [] ∨ sg = b!"+" ∨ sg = b!"-") ∧ ds ≠ [] ∧ DigsOk false false ds) ∧
      (hex = true → ex ≠ none) := by
    cases E with
    | none => exact ⟨none, hE.1, (by intro c sg ds h; cases h), by rw [hE.2]; decide⟩
    | some p =>
      obtain ⟨c, sg, D⟩ := p
      obtain ⟨p1, p2, p3, p4, p5, p6⟩ := hE
      obtain ⟨m1, m2, _⟩ := marker_props p2
      rw [p1, usScan_other m1 m2, if_neg f3] at f4
      have hD : ∃ sw3, sw3 ≠ 2 ∧ underscoreScan hex sw3 (D ++ []) = true := by
        rw [List.append_nil]
        rcases p3 with p3 | p3 | p3 <;> subst p3
        · exact ⟨3, by decide, f4⟩
        · refine ⟨3, by decide, ?_⟩
          rw [show b!"+" ++ D = 43 :: D from rfl, usScan_other (by cases hex <;> decide) (by decide),
            if_neg (by decide)] at f4
          exact f4
        · refine ⟨3, by decide, ?_⟩
          rw [show b!"-" ++ D = 45 :: D from rfl, usScan_other (by cases hex <;> decide) (by decide),
            if_neg (by decide)] at f4
          exact f4
      obtain ⟨sw3, k1, k2⟩ := hD
      obtain ⟨ds, q1, q2, q3, _⟩ := usScan_inv _ D [] sw3 (Nat.le_refl _)
        (fun x hx => (p5 x hx).imp id (digit_hex_of_dec hex)) (by intro c cs h; cases h) k1 k2
      refine ⟨some (c, sg, ds), by rw [p1, q1]; rfl, ?_, by simp⟩
      intro c' sg' ds' heq
      cases heq
      refine ⟨p2, p3, ?_, ?_, ?_⟩
      · rintro rfl; exact p4 (by rw [q1]; rfl)
      · intro d hd
        have hmem : d.c ∈ D := by
          rw [q1]
          unfold digsText
          rw [List.mem_flatMap]
          refine ⟨d, hd, ?_⟩
          unfold Dig.text
          split <;> simp
        rcases p5 _ hmem with h | h
        · exact absurd h (isSome_ne (q2 d hd)).1
        · exact h
      · intro d hd hu
        exfalso
        cases ds with
        | nil => cases hd
        | cons d' ds' =>
          simp at hd
          subst hd
          have : D = 95 :: (d'.c :: digsText ds') := by
            rw [q1, digsText_cons]; simp [Dig.text, hu]
          exact p6 _ _ this rfl
  have hhex : ∀ l : Lit, l.pre = pre → l.hex = hex := by
    intro l hl
    unfold Lit.hex
    rw [hl]
    rcases hpre with ⟨h, h'⟩ | ⟨h | h, h'⟩ <;> rw [h, h'] <;> rfl
  refine ⟨⟨[], pre, ia, fr, ex⟩, ?_, rfl, ?_⟩
  · have hx := hhex ⟨[], pre, ia, fr, ex⟩ rfl
    constructor
    · exact .inl rfl
    · rcases hpre with ⟨h, _⟩ | ⟨h | h, _⟩
      · exact .inl h
      · exact .inr (.inl h)
      · exact .inr (.inr h)
    · rw [hx]
      refine ⟨i2, fun d hd hu => ?_⟩
      have := i3 d hd hu
      cases hex
      · cases this
      · rfl
    · rw [hx]; exact f2
    · intro hnil
      simp only [Lit.mant, List.append_eq_nil_iff] at hnil
      obtain ⟨n1, n2⟩ := hnil
      subst n1
      rw [digsText_nil] at i1
      subst i1
      rcases h4 hd with h | ⟨c, hc, _⟩ | ⟨B, hB, c, hc, hcs⟩
      · cases h
      · cases hc
      · subst hB
        cases fr with
        | none => cases f1
        | some f =>
          simp at n2
          subst n2
          have := (List.cons.inj f1).2
          rw [this] at hc
          cases hc
    · rw [hx]; exact e2
    · rw [hx]; exact e3
  · rw [h1, i1, f1, e1]
    rfl

theorem lit_of_readFloatMag {s : Bytes} {mag : Nat} (h : readFloatMag s = some mag) :
    ∃ l : Lit, l.Valid ∧ l.sign = [] ∧ l.body = s := by
  unfold readFloatMag at h
  -- which base
  obtain ⟨hex, pre, body, hsp, hs, hpre⟩ : ∃ hex pre body, splitHex s = (hex, body) ∧ s = pre ++ body ∧
      (pre = [] ∧ hex = false ∨ (pre = b!"0x" ∨ pre = b!"0X") ∧ hex = true) := by
    unfold splitHex
    split
    · rename_i x c cs
      by_cases hx : lowerBit x = 120
      · rw [if_pos hx]
        refine ⟨true, [48, x], c :: cs, rfl, rfl, .inr ⟨?_, rfl⟩⟩
        rcases (lower_x x).1 hx with hx | hx <;> subst hx
        · exact .inl rfl
        · exact .inr rfl
      · rw [if_neg hx]
        exact ⟨false, [], _, rfl, rfl, .inl ⟨rfl, rfl⟩⟩
    · exact ⟨false, [], _, rfl, rfl, .inl ⟨rfl, rfl⟩⟩
  rw [hsp] at h
  simp only at h
  generalize hm : scanMant hex {} body = r at h
  obtain ⟨m, rest⟩ := r
  simp only at h
  cases hdg : m.digits with
  | false => rw [hdg, if_pos rfl] at h; cases h
  | true =>
    rw [hdg, if_neg (by decide)] at h
    -- what the underscore check means for the body
    have hus : underscoreOK s = true →
        (∀ x cs, hex = false → body = 48 :: x :: cs → x ∉ b!"xXbBoO") →
        underscoreScan hex (if hex then 1 else 0) body = true := by
      intro hu hno
      rcases hpre with ⟨h1, h2⟩ | ⟨h1, h2⟩
      · subst h1 h2
        rw [List.nil_append] at hs
        subst hs
        unfold underscoreOK at hu
        split at hu
        · rename_i x cs
          have := hno x cs rfl rfl
          rw [if_neg, if_neg] at hu
          · exact hu
          · intro hx
            simp only [Bool.or_eq_true, decide_eq_true_eq] at hx
            have hb := (lower_bo x).1 hx
            simp at hb this
            rcases hb with hb | hb | hb | hb <;> (subst hb; revert this; decide)
          · intro hx
            rcases (lower_x x).1 hx with hx | hx <;> (subst hx; exact this (by decide))
        · exact hu
      · subst h2
        rcases h1 with h1 | h1 <;> (subst h1; rw [hs] at hu; exact hu)
    -- after a zero, a letter of a base prefix is left unread
    have hleft : ∀ x cs, hex = false → body = 48 :: x :: cs → x ∈ b!"xXbBoO" → rest = x :: cs := by
      intro x cs hx hb hmem
      subst hx
      rw [hb, scanMant_digit (by decide), scanMant_stop] at hm
      · exact (Prod.mk.inj hm).2.symm
      · intro y ys hy
        cases hy
        exact all_bytes (P := fun c => c ∈ b!"xXbBoO" → c ≠ 95 ∧ digitIndex false c = none) (by decide +kernel) _ hmem
      · intro ys hy
        cases hy
        revert hmem
        decide
    rw [hs]
    cases hr : rest with
    | nil =>
      subst hr
      cases hexv : hex with
      | true => rw [hexv] at h; simp at h
      | false =>
        rw [hexv] at h hm hus hleft hpre
        simp only [if_false, Bool.false_eq_true, ne_eq, not_true_eq_false] at h
        have hno : ∀ x cs, body = 48 :: x :: cs → x ∉ b!"xXbBoO" := by
          intro x cs hb hmem
          exact absurd (hleft x cs rfl hb hmem) (by simp)
        refine lit_of_scan (hex := false) (m := m) (rest := []) (by rw [hexv] at *; exact hpre) hm hdg
          (.inl ⟨rfl, rfl⟩) (fun _ => ?_)
        cases hmu : m.us with
        | false => exact .inl rfl
        | true =>
          right
          apply hus _ (fun x cs _ => hno x cs)
          cases hu : underscoreOK s with
          | true => rfl
          | false =>
            rw [hmu] at h
            rw [hs] at hu
            simp [hu, hs] at h
    | cons c cs =>
      subst hr
      simp only at h
      by_cases hc : lowerBit c = (if hex then 112 else 101)
      · rw [if_pos hc] at h
        have hcm := (marker_iff hex c).1 hc
        cases hre : readExp cs with
        | none => rw [hre] at h; cases h
        | some t =>
          obtain ⟨e, us, rest2⟩ := t
          rw [hre] at h
          simp only at h
          by_cases hr2 : rest2 ≠ []
          · rw [if_pos hr2] at h; cases h
          · rw [if_neg hr2] at h
            have hr2 : rest2 = [] := Classical.not_not.1 hr2
            subst hr2
            refine lit_of_scan hpre hm hdg (.inr ⟨c, cs, e, us, rfl, hcm, hre, ?_⟩) (by simp)
            cases hmu : (m.us || us) with
            | false => exact .inl rfl
            | true =>
              right
              apply hus
              · cases hu : underscoreOK s with
                | true => rfl
                | false => rw [hmu, hu] at h; simp at h
              · intro x xs hx hb hmem
                have hl := hleft x xs hx hb hmem
                cases hl
                subst hx
                simp only [Bool.false_eq_true, if_false] at hcm
                revert hmem hcm
                exact all_bytes (P := fun c => c ∈ b!"xXbBoO" → c ∈ b!"eE" → False) (by decide +kernel) c
      · rw [if_neg hc] at h
        exfalso
        cases hex <;> simp at h

/-! ## Very large exponents -/

theorem roundMag_large {n d : Nat} (hd : 0 < d) (h : units infMag * d ≤ n) : infMag ≤ roundMag n d := by
  have h1 : Nearest (units infMag * d) d infMag := by
    have := roundMag_nearest (units infMag * d) d hd
    rwa [roundMag_units _ _ hd] at this
  exact Nearest.mono hd h1 (roundMag_nearest n d hd) h

theorem roundMag_small {n d : Nat} (h : 2 * n < d) : roundMag n d = 0 := by
  have hd : 0 < d := by omega
  refine (roundMag_nearest n d hd).unique hd ?_
  intro m'
  have e0 : units 0 = 0 := by decide
  rw [e0]
  have c1 : ((units m' : Int) * d) = ((units m' * d : Nat) : Int) := by push_cast; rfl
  rw [c1]
  rcases Nat.eq_zero_or_pos m' with h0 | h0
  · subst h0
    rw [e0]
    refine ⟨by simp, fun _ => .inl rfl⟩
  · have h1 : 1 ≤ units m' := by
      have := units_strictMono h0
      rw [e0] at this
      exact this
    have h2 := Nat.mul_le_mul_right d h1
    rw [Nat.one_mul] at h2
    generalize units m' * d = U at h2
    refine ⟨by omega, fun _ => .inr rfl⟩

theorem valFrom_lt (hex : Bool) (a : Nat) (ds : List Dig) :
    valFrom hex a ds < (a + 1) * (if hex then 16 else 10) ^ ds.length := by
  induction ds generalizing a with
  | nil => simp [valFrom]
  | cons d ds ih =>
    have h := ih (a * (if hex then 16 else 10) + (digitIndex hex d.c).getD 0)
    have h2 : valFrom hex a (d :: ds) =
      valFrom hex (a * (if hex then 16 else 10) + (digitIndex hex d.c).getD 0) ds := rfl
    have h3 := getD_lt hex d.c
    rw [h2]
    refine Nat.lt_of_lt_of_le h ?_
    rw [List.length_cons, Nat.pow_succ', ← Nat.mul_assoc]
    apply Nat.mul_le_mul_right
    rw [Nat.add_mul]
    omega

theorem digsVal_lt (hex : Bool) (ds : List Dig) : digsVal hex ds < (if hex then 16 else 10) ^ ds.length := by
  have := valFrom_lt hex 0 ds
  simpa [valFrom, digsVal] using this

theorem units_infMag : units infMag = 2 ^ 2098 := by decide +kernel

theorem pow_bound (B b k n : Nat) (hB : B = b ^ k) (n' : Nat) (h : n ≤ n') (hb : 0 < b) : B ^ n ≤ b ^ (k * n') := by
  rw [hB, ← Nat.pow_mul]
  exact Nat.pow_le_pow_right hb (Nat.mul_le_mul_left _ h)

/-- From exponent 10000 on, with at most 1000 digits, the exact exponent does not matter. -/
theorem Lit.mag_far (l : Lit) (hl : l.mant.length ≤ 1000) (e e' : Nat) (he : 10000 ≤ e) (he' : 10000 ≤ e') :
    l.mag e = l.mag e' ∨ (infMag ≤ l.mag e ∧ infMag ≤ l.mag e') := by
  have hnf : (l.frac.getD []).length ≤ 1000 := by
    have : l.mant.length = l.int.length + (l.frac.getD []).length := by simp [Lit.mant]
    omega
  have hM := digsVal_lt l.hex l.mant
  unfold Lit.mag
  generalize (l.frac.getD []).length = nf at hnf
  generalize digsVal l.hex l.mant = M at hM
  generalize l.mant.length = len at hl hM
  -- everything in terms of the exponent base b
  obtain ⟨b, k, hb, hBb, hk, hb2⟩ : ∃ b k, (if l.hex = true then 2 else 10) = b ∧
      (if l.hex = true then 16 else 10) = b ^ k ∧ k ≤ 4 ∧ 2 ≤ b := by
    cases l.hex
    · exact ⟨10, 1, rfl, rfl, by omega, by omega⟩
    · exact ⟨2, 4, rfl, rfl, by omega, by omega⟩
  rw [hBb, ← Nat.pow_mul] at hM
  rw [hb, hBb, ← Nat.pow_mul]
  have hb0 : 0 < b := by omega
  have hpos : ∀ n, 0 < b ^ n := fun n => Nat.pow_pos hb0
  have h2b : ∀ n, 2 ^ n ≤ b ^ n := fun n => Nat.pow_le_pow_left hb2 n
  have hkn : k * nf ≤ 4000 := Nat.le_trans (Nat.mul_le_mul hk hnf) (by omega)
  have hkl : k * len ≤ 4000 := Nat.le_trans (Nat.mul_le_mul hk hl) (by omega)
  have hM4 : M < b ^ 4000 := Nat.lt_of_lt_of_le hM (Nat.pow_le_pow_right hb0 hkl)
  have mono : ∀ {x y}, x ≤ y → b ^ x ≤ b ^ y := fun h => Nat.pow_le_pow_right hb0 h
  rcases Nat.eq_zero_or_pos M with h0 | h0
  · left
    subst h0
    have : ∀ x, 0 < x → roundMag 0 x = 0 := fun x hx => roundMag_small (by omega)
    simp only [Nat.zero_mul]
    rw [this _ (Nat.mul_pos (hpos _) (hpos _)), this _ (Nat.mul_pos (hpos _) (hpos _))]
  · cases l.expNeg
    · right
      simp only [Bool.false_eq_true, if_false, Nat.pow_zero, Nat.mul_one]
      have key : ∀ e, 10000 ≤ e → infMag ≤ roundMag (M * b ^ e * 2 ^ 1074) (b ^ (k * nf)) := by
        intro e he
        refine roundMag_large (hpos _) ?_
        rw [units_infMag]
        have s1 : 2 ^ 2098 * b ^ (k * nf) ≤ b ^ e := by
          refine Nat.le_trans (Nat.mul_le_mul (h2b 2098) (mono hkn)) ?_
          rw [← Nat.pow_add]
          exact mono (by omega)
        have s2 : b ^ e ≤ M * b ^ e := Nat.le_mul_of_pos_left _ h0
        have s3 : M * b ^ e ≤ M * b ^ e * 2 ^ 1074 := Nat.le_mul_of_pos_right _ (Nat.pow_pos (by omega))
        exact Nat.le_trans s1 (Nat.le_trans s2 s3)
      exact ⟨key e he, key e' he'⟩
    · left
      simp only [if_true, Nat.pow_zero, Nat.mul_one]
      have key : ∀ e, 10000 ≤ e → roundMag (M * 2 ^ 1074) (b ^ (k * nf) * b ^ e) = 0 := by
        intro e he
        apply roundMag_small
        have s0 : 2 * (M * 2 ^ 1074) = M * 2 ^ 1075 := by
          have hp : (2 : Nat) ^ 1075 = 2 ^ 1074 * 2 := Nat.pow_succ 2 1074
          rw [hp]
          generalize 2 ^ 1074 = C
          ac_rfl
        rw [s0]
        have s1 : M * 2 ^ 1075 < b ^ 4000 * b ^ 1075 :=
          Nat.lt_of_lt_of_le (Nat.mul_lt_mul_of_pos_right hM4 (Nat.pow_pos (by omega)))
            (Nat.mul_le_mul_left _ (h2b 1075))
        rw [← Nat.pow_add] at s1
        refine Nat.lt_of_lt_of_le s1 (Nat.le_trans (mono (show 4000 + 1075 ≤ e by omega)) ?_)
        exact Nat.le_mul_of_pos_left _ (hpos _)
      rw [key e he, key e' he']

theorem digsText_plain (ds : Bytes) : digsText (ds.map (fun c => (⟨false, c⟩ : Dig))) = ds := by
  induction ds with
  | nil => rfl
  | cons c cs ih => rw [List.map_cons, digsText_cons, ih]; rfl

/-! ## The property -/

/-- C113, accepting: every literal of the grammar is read as the nearest float64, or refused when
that is beyond the largest.  The exponent is below 100000, or the mantissa has at most 1000 digits
(with more digits than that and a larger exponent the library cuts the exponent off). -/
theorem C113_literal (l : Lit) (h : l.Valid) (hs : l.expVal < 100000 ∨ l.mant.length ≤ 1000) (r : Option F64)
    (hr : l.Denotes r) : parseFloat l.text = r := by
  obtain ⟨m, hm, rfl⟩ := hr
  have hmag := Lit.mag_of_nearest hm
  rw [Lit.parseFloat_lit h]
  rcases Nat.lt_or_ge l.expVal 100000 with hlt | hge
  · rw [Lit.cap_eq hlt, hmag]
  · have hl : l.mant.length ≤ 1000 := by
      rcases hs with hs | hs
      · omega
      · exact hs
    have hcap : 10000 ≤ l.cap := by
      unfold Lit.cap Lit.expVal at *
      cases he : l.exp with
      | none => rw [he] at hge; simp at hge
      | some p =>
        rw [he] at hge
        exact ((capExp_spec 0 p.2.2 (by omega)).2 hge).1
    rcases l.mag_far hl l.cap l.expVal hcap (by omega) with h | ⟨h1, h2⟩
    · rw [h, hmag]
    · rw [hmag] at h2
      rw [if_neg (by omega), if_neg (by omega)]

/-- Every literal stands for exactly one result. -/
theorem C113_denotes_unique (l : Lit) : ∃ r, l.Denotes r ∧ ∀ r', l.Denotes r' → r' = r := by
  refine ⟨_, ⟨roundMag l.num l.den, roundMag_nearest _ _ l.den_pos, rfl⟩, ?_⟩
  rintro r' ⟨m, hm, rfl⟩
  rw [(roundMag_nearest _ _ l.den_pos).unique l.den_pos hm]

/-- C113, the words: "nan", "inf" and "infinity" in any mixture of cases, the latter two signed. -/
theorem C113_words (s : Bytes) :
    (IsNanWord s → parseFloat s = some nan) ∧ (∀ neg, IsInfLit s neg → parseFloat s = some (inf neg)) := by
  constructor
  · intro h; unfold IsNanWord at h; unfold parseFloat; rw [if_pos h]
  · rintro neg ⟨sign, w, rfl, hw, hs⟩
    have hsg : (sign = [] ∨ sign = b!"+" ∨ sign = b!"-") ∧ decide (sign = b!"-") = neg := by
      rcases hs with ⟨h1, h2⟩ | ⟨h1, h2⟩ | ⟨h1, h2⟩ <;> (subst h1 h2; decide)
    have hhead : ∃ c cs, w = c :: cs ∧ lowerLetter c = 105 := by
      cases w with
      | nil => rcases hw with hw | hw <;> cases hw
      | cons c cs => refine ⟨c, cs, rfl, ?_⟩; rcases hw with hw | hw <;> exact (List.cons.inj hw).1
    obtain ⟨c, cs, rfl, hc⟩ := hhead
    have hne : c ≠ 43 ∧ c ≠ 45 := by
      constructor <;> (rintro rfl; revert hc; decide)
    have hsp := splitSign_fwd (t := c :: cs) hsg.1 (by intro x xs hx; cases hx; exact hne)
    unfold parseFloat
    rw [if_neg, hsp]
    · simp only
      rw [if_pos, hsg.2]
      unfold isInfWord
      rcases hw with hw | hw <;> rw [hw] <;> decide
    · intro e
      rcases hsg.1 with h | h | h <;> subst h
      · simp only [List.nil_append, List.map_cons, hc] at e
        exact absurd (List.cons.inj e).1 (by decide)
      · exact absurd (List.cons.inj e).1 (by decide)
      · exact absurd (List.cons.inj e).1 (by decide)

/-- C113, refusing: whatever is read as a number is one of the words or a literal of the grammar. -/
theorem C113_nothing_else (s : Bytes) (x : F64) (h : parseFloat s = some x) :
    IsNanWord s ∨ (∃ neg, IsInfLit s neg) ∨ ∃ l : Lit, l.Valid ∧ l.text = s := by
  unfold parseFloat at h
  by_cases hn : s.map lowerLetter = b!"nan"
  · exact .inl hn
  · rw [if_neg hn] at h
    obtain ⟨sg, t, h1, h2, h3⟩ := splitSign_inv s
    rw [h3] at h
    simp only at h
    by_cases hi : isInfWord t = true
    · right; left
      refine ⟨decide (sg = b!"-"), sg, t, h1, ?_, ?_⟩
      · simpa [isInfWord] using hi
      · rcases h2 with h | h | h <;> subst h
        · exact .inl ⟨rfl, rfl⟩
        · exact .inr (.inl ⟨rfl, rfl⟩)
        · exact .inr (.inr ⟨rfl, rfl⟩)
    · right; right
      rw [if_neg hi] at h
      cases hr : readFloatMag t with
      | none => rw [hr] at h; cases h
      | some mag =>
        obtain ⟨l, v, hs, hb⟩ := lit_of_readFloatMag hr
        refine ⟨{ l with sign := sg }, ?_, ?_⟩
        · exact ⟨h2, v.pre, v.int, v.frac, v.some_digit, v.exp, v.exp_hex⟩
        · rw [h1, ← hb]; rfl

/-- C113 at the API: what Get shows after Set depends on the text alone.  An integer that fits 64
bits shows in plain decimal; any other literal shows as the shortest decimal of the nearest float64;
the words show as "NaN", "+Inf", "-Inf"; everything else, and any literal beyond the largest
float64, shows as it was given. -/
theorem C113_get_set (c : Cache) (k v : Bytes) (s t : Int) (hd : NotPassed c t k) :
    (∀ n, atoi v = some n → (exec (exec c s (.set k v)).1 t (.get k)).2 = .str (.ok (itoa n))) ∧
    (∀ l : Lit, l.Valid → l.text = v → (l.expVal < 100000 ∨ l.mant.length ≤ 1000) → atoi v = none →
      (∀ x, l.Denotes (some x) → (exec (exec c s (.set k v)).1 t (.get k)).2 = .str (.ok (formatFloat x))) ∧
      (l.Denotes none → (exec (exec c s (.set k v)).1 t (.get k)).2 = .str (.ok v))) ∧
    (IsNanWord v → (exec (exec c s (.set k v)).1 t (.get k)).2 = .str (.ok b!"NaN")) ∧
    (∀ neg, IsInfLit v neg →
      (exec (exec c s (.set k v)).1 t (.get k)).2 = .str (.ok (if neg then b!"-Inf" else b!"+Inf"))) ∧
    (atoi v = none → ¬ IsNanWord v → (∀ neg, ¬ IsInfLit v neg) → (∀ l : Lit, l.Valid → l.text ≠ v) →
      (exec (exec c s (.set k v)).1 t (.get k)).2 = .str (.ok v)) := by
  have h1 := C02_get_set_canon c k v s t [] hd (by simp [NoWrite]) (by simp [Until])
  simp only [run] at h1
  rw [h1]
  -- letters are no integers
  have hai : ∀ x, parseFloat v = some x → x.isFinite = false → atoi v = none := by
    intro x hx hf
    cases ha : atoi v with
    | none => rfl
    | some n =>
      exfalso
      rw [C80_atoi_accepts] at ha
      obtain ⟨sign, ds, a1, a2, a3, a4, _⟩ := ha
      have hdig : ∀ c ∈ ds, (digitIndex false c).isSome = true := by
        intro c hc
        have := List.all_eq_true.1 a4 c hc
        rw [digitIndex_dec, if_pos this]; rfl
      have hv : (({ sign := sign, int := ds.map (fun c => ⟨false, c⟩) } : Lit)).Valid := by
        constructor
        · exact a2
        · exact .inl rfl
        · refine ⟨?_, ?_⟩
          · intro d hd
            simp only [List.mem_map] at hd
            obtain ⟨c, hc, rfl⟩ := hd
            exact hdig c hc
          · intro d hd hu
            cases ds with
            | nil => cases hd
            | cons c cs => cases hd; cases hu
        · intro f hf; cases hf
        · simp [Lit.mant, a3]
        · intro c s ds h; cases h
        · intro h; cases h
      have htext : (({ sign := sign, int := ds.map (fun c => ⟨false, c⟩) } : Lit)).text = v := by
        rw [a1]
        have : digsText (ds.map (fun c => (⟨false, c⟩ : Dig))) = ds := by
          exact digsText_plain ds
        simp [Lit.text, Lit.body, Lit.fracText, Lit.expText, this]
      have hp := Lit.parseFloat_lit hv
      rw [htext, hx] at hp
      split at hp
      · rename_i hlt
        have := Option.some.inj hp
        subst this
        simp [isFinite, mk', hlt] at hf
      · cases hp
  refine ⟨?_, ?_, ?_, ?_, ?_⟩
  · intro n hn; simp [canon, hn]
  · intro l hl ht hsm ha
    refine ⟨fun x hx => ?_, fun hx => ?_⟩
    · have := C113_literal l hl hsm _ hx
      rw [ht] at this
      simp [canon, ha, this]
    · have := C113_literal l hl hsm _ hx
      rw [ht] at this
      simp [canon, ha, this]
  · intro hn
    have hp := (C113_words v).1 hn
    have ha := hai _ hp (by decide)
    have : formatFloat nan = b!"NaN" := by decide
    simp [canon, ha, hp, this]
  · intro neg hn
    have hp := (C113_words v).2 neg hn
    have ha := hai _ hp (by cases neg <;> decide)
    have : formatFloat (inf neg) = if neg then b!"-Inf" else b!"+Inf" := by cases neg <;> decide
    simp [canon, ha, hp, this]
  · intro ha h2 h3 h4
    have hp : parseFloat v = none := by
      cases hp : parseFloat v with
      | none => rfl
      | some x =>
        exfalso
        rcases C113_nothing_else v x hp with h | ⟨neg, h⟩ | ⟨l, hl, ht⟩
        · exact h2 h
        · exact h3 neg h
        · exact h4 l hl ht
    simp [canon, ha, hp]

/-- A hexadecimal literal with underscores, fraction and exponent: 0X_1_f.8p-3 = 3.9375. -/
def demoLit : Lit :=
  { sign := b!"-", pre := b!"0X", int := [⟨true, 49⟩, ⟨true, 102⟩], frac := some [⟨false, 56⟩],
    exp := some (112, b!"-", [⟨false, 51⟩]) }

theorem demoLit_valid : demoLit.Valid := by
  constructor
  · exact .inr (.inr rfl)
  · exact .inr (.inr rfl)
  · refine ⟨by decide, fun _ _ _ => rfl⟩
  · intro f hf
    cases hf
    exact ⟨by decide, fun d hd hu => by cases hd; cases hu⟩
  · decide
  · intro c s ds h
    cases h
    exact ⟨by decide, .inr (.inr rfl), by simp, by decide, fun d hd hu => by cases hd; cases hu⟩
  · intro _ h; cases h

example : demoLit.Valid ∧ demoLit.text = b!"-0X_1_f.8p-3" ∧ demoLit.expVal < 100000 ∧ atoi demoLit.text = none ∧
    (∃ x, demoLit.Denotes (some x) ∧ formatFloat x = b!"-3.9375") := by
  refine ⟨demoLit_valid, by decide, by decide, by decide, mk' true (roundMag demoLit.num demoLit.den),
    ⟨roundMag demoLit.num demoLit.den, roundMag_nearest _ _ demoLit.den_pos, ?_⟩, ?_⟩
  · decide +kernel
  · decide +kernel

example : outs Cache.new [(0, .set b!"k" b!"-0X_1_f.8p-3"), (0, .get b!"k"), (0, .set b!"k" b!"1__0.5"), (0, .get b!"k"),
      (0, .set b!"k" b!"0x1.8"), (0, .get b!"k"), (0, .set b!"k" b!"+InFinity"), (0, .get b!"k")]
    = [.str (.ok OK), .str (.ok b!"-3.9375"), .str (.ok OK), .str (.ok b!"1__0.5"), .str (.ok OK),
      .str (.ok b!"0x1.8"), .str (.ok OK), .str (.ok b!"+Inf")] := by decide +kernel

end Verif

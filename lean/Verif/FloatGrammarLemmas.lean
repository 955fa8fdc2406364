import Verif.FloatGrammar
/-!
# Numeric literals: the scanner accepts the grammar and nothing else
-/
namespace Verif
open F64

/-- Number written by digits after `a`. -/
def valFrom (hex : Bool) (a : Nat) (ds : List Dig) : Nat :=
  ds.foldl (fun a d => a * (if hex then 16 else 10) + (digitIndex hex d.c).getD 0) a

theorem digsText_nil : digsText [] = [] := rfl
theorem digsText_cons (d : Dig) (ds : List Dig) : digsText (d :: ds) = d.text ++ digsText ds := rfl
theorem digsText_append (a b : List Dig) : digsText (a ++ b) = digsText a ++ digsText b := by
  simp [digsText]

/-! ## Forward -/

/-- Scanner state after some digits. -/
def Mant.after (hex : Bool) (st : Mant) (ds : List Dig) : Mant :=
  { val := valFrom hex st.val ds
    nfrac := if st.dot then st.nfrac + ds.length else st.nfrac
    dot := st.dot
    digits := st.digits || !ds.isEmpty
    us := st.us || ds.any (·.us) }

theorem scanMant_us (hex : Bool) (st : Mant) (cs : Bytes) :
    scanMant hex st (95 :: cs) = scanMant hex { st with us := true } cs := by
  rw [scanMant, if_pos rfl]

theorem scanMant_digit {hex : Bool} {c : UInt8} (h : (digitIndex hex c).isSome = true) (st : Mant) (cs : Bytes) :
    scanMant hex st (c :: cs) = scanMant hex { st with
          val := st.val * (if hex then 16 else 10) + (digitIndex hex c).getD 0
          nfrac := if st.dot then st.nfrac + 1 else st.nfrac
          digits := true } cs := by
  obtain ⟨h1, h2, _⟩ := isSome_ne h
  rw [scanMant, if_neg h1, if_neg h2, mantDigit_eq]
  cases hd : digitIndex hex c with
  | none => rw [hd] at h; cases h
  | some d => rfl

theorem scanMant_digs {hex : Bool} (ds : List Dig) (h : ∀ d ∈ ds, (digitIndex hex d.c).isSome = true) (st : Mant)
    (rest : Bytes) : scanMant hex st (digsText ds ++ rest) = scanMant hex (st.after hex ds) rest := by
  induction ds generalizing st with
  | nil => simp [digsText_nil, Mant.after, valFrom]
  | cons d ds ih =>
    have hd := h d (List.mem_cons_self ..)
    have ih := ih (fun x hx => h x (List.mem_cons_of_mem _ hx))
    rw [digsText_cons, List.append_assoc]
    unfold Dig.text
    have e : ∀ st : Mant, scanMant hex st (d.c :: (digsText ds ++ rest)) =
        scanMant hex (({ st with
          val := st.val * (if hex then 16 else 10) + (digitIndex hex d.c).getD 0
          nfrac := if st.dot then st.nfrac + 1 else st.nfrac
          digits := true } : Mant).after hex ds) rest := by
      intro st; rw [scanMant_digit hd, ih]
    split
    · rename_i hus
      rw [List.cons_append, List.cons_append, List.nil_append, scanMant_us, e]
      congr 1
      simp [Mant.after, valFrom, hus]
      split <;> omega
    · rename_i hus
      rw [List.cons_append, List.nil_append, e]
      congr 1
      simp [Mant.after, valFrom, hus]
      split <;> omega

/-- The scan stops here. -/
def Stops (hex : Bool) (s : Bytes) : Prop := ∀ c cs, s = c :: cs → c ≠ 95 ∧ (digitIndex hex c) = none

theorem scanMant_stop {hex : Bool} {s : Bytes} (h : Stops hex s) (hd : ∀ cs, s ≠ 46 :: cs) (st : Mant) :
    scanMant hex st s = (st, s) := by
  cases s with
  | nil => rfl
  | cons c cs =>
    obtain ⟨h1, h2⟩ := h c cs rfl
    have h3 : c ≠ 46 := fun e => hd cs (by rw [e])
    rw [scanMant, if_neg h1, if_neg h3, mantDigit_eq, h2]

/-- Exponent after some digits, stopping at 10000 as the library does. -/
def capExp (e : Nat) (ds : List Dig) : Nat :=
  ds.foldl (fun e d => if e < 10000 then e * 10 + (digitIndex false d.c).getD 0 else e) e

theorem scanExp_digs (ds : List Dig) (h : ∀ d ∈ ds, (digitIndex false d.c).isSome = true) (e : Nat) (us : Bool) :
    scanExp e us (digsText ds) = (capExp e ds, us || ds.any (·.us), []) := by
  induction ds generalizing e us with
  | nil => simp [digsText_nil, scanExp, capExp]
  | cons d ds ih =>
    have hd := h d (List.mem_cons_self ..)
    have ih := ih (fun x hx => h x (List.mem_cons_of_mem _ hx))
    have h1 := (isSome_ne hd).1
    have hdg : isDigit d.c = true := by
      rw [digitIndex_dec] at hd
      cases hi : isDigit d.c
      · rw [hi] at hd; cases hd
      · rfl
    have e1 : ∀ e us, scanExp e us (d.c :: digsText ds) =
        (capExp e (d :: ds), us || ds.any (·.us), []) := by
      intro e us
      rw [scanExp, if_neg h1, if_pos hdg, ih]
      simp [capExp, digitIndex_dec, hdg]
    rw [digsText_cons]
    unfold Dig.text
    split
    · rename_i hus
      rw [List.cons_append, List.cons_append, List.nil_append, scanExp, if_pos rfl, e1]
      simp [hus]
    · rename_i hus
      rw [List.cons_append, List.nil_append, e1]
      simp [hus]

theorem valFrom_ge (a : Nat) (ds : List Dig) : a ≤ valFrom false a ds := by
  induction ds generalizing a with
  | nil => exact Nat.le_refl _
  | cons d ds ih =>
    have := ih (a * (if false then 16 else 10) + (digitIndex false d.c).getD 0)
    have h2 : valFrom false a (d :: ds) =
      valFrom false (a * (if false then 16 else 10) + (digitIndex false d.c).getD 0) ds := rfl
    rw [h2]
    refine Nat.le_trans ?_ this
    simp only [Bool.false_eq_true, if_false]
    omega

theorem capExp_stop {e : Nat} (h : 10000 ≤ e) (ds : List Dig) : capExp e ds = e := by
  induction ds with
  | nil => rfl
  | cons d ds ih =>
    have : capExp e (d :: ds) = capExp (if e < 10000 then e * 10 + (digitIndex false d.c).getD 0 else e) ds := rfl
    rw [this, if_neg (by omega), ih]

theorem digitIndex_lt {hex : Bool} {c : UInt8} {d : Nat} (h : digitIndex hex c = some d) :
    d < if hex then 16 else 10 := by
  unfold digitIndex at h
  simp only at h
  generalize b!"0123456789abcdef".idxOf (lowerLetter c) = i at h
  cases hex
  · simp only [Bool.false_eq_true, if_false] at h ⊢
    by_cases hi : i < 10
    · rw [if_pos hi] at h; cases h; exact hi
    · rw [if_neg hi] at h; cases h
  · simp only [if_true] at h ⊢
    by_cases hi : i < 16
    · rw [if_pos hi] at h; cases h; exact hi
    · rw [if_neg hi] at h; cases h

theorem getD_lt (hex : Bool) (c : UInt8) : (digitIndex hex c).getD 0 < if hex then 16 else 10 := by
  cases h : digitIndex hex c with
  | none => cases hex <;> simp
  | some d => simpa using digitIndex_lt h

/-- The exponent is exact below 100000; above, what is kept is at least 10000. -/
theorem capExp_spec (e : Nat) (ds : List Dig) (he : e < 100000) :
    (valFrom false e ds < 100000 → capExp e ds = valFrom false e ds) ∧
    (100000 ≤ valFrom false e ds → 10000 ≤ capExp e ds ∧ capExp e ds < 100000) := by
  induction ds generalizing e with
  | nil => exact ⟨fun _ => rfl, fun h => by simp only [valFrom, List.foldl_nil] at h; omega⟩
  | cons d ds ih =>
    have h1 : capExp e (d :: ds) = capExp (if e < 10000 then e * 10 + (digitIndex false d.c).getD 0 else e) ds := rfl
    have h2 : valFrom false e (d :: ds) = valFrom false (e * 10 + (digitIndex false d.c).getD 0) ds := rfl
    have h3 := getD_lt false d.c
    simp only [Bool.false_eq_true, if_false] at h3
    rw [h1, h2]
    by_cases hc : e < 10000
    · rw [if_pos hc]; exact ih _ (by omega)
    · rw [if_neg hc, capExp_stop (by omega)]
      have := valFrom_ge (e * 10 + (digitIndex false d.c).getD 0) ds
      exact ⟨fun h => by omega, fun _ => ⟨by omega, he⟩⟩

/-! ## Underscores, forward -/

theorem usScan_digit {hex : Bool} {c : UInt8} (h : (digitIndex hex c).isSome = true) (saw : Nat) (cs : Bytes) :
    underscoreScan hex saw (c :: cs) = underscoreScan hex 1 cs := by
  rw [underscoreScan, usDigit_iff, if_pos h]

theorem usScan_us {hex : Bool} (saw : Nat) (cs : Bytes) :
    underscoreScan hex saw (95 :: cs) = if saw = 1 then underscoreScan hex 2 cs else false := by
  have h : (digitIndex hex 95).isSome = false := by cases hex <;> decide
  rw [underscoreScan, usDigit_iff, if_neg (by rw [h]; decide), if_pos rfl]

theorem usScan_other {hex : Bool} {c : UInt8} (h : digitIndex hex c = none) (h2 : c ≠ 95) (saw : Nat) (cs : Bytes) :
    underscoreScan hex saw (c :: cs) = if saw = 2 then false else underscoreScan hex 3 cs := by
  rw [underscoreScan, usDigit_iff, if_neg (by rw [h]; decide), if_neg h2]

theorem usScan_digs {hex : Bool} (ds : List Dig) (h : ∀ d ∈ ds, (digitIndex hex d.c).isSome = true) (saw : Nat)
    (hh : ∀ d, ds.head? = some d → d.us = true → saw = 1) (rest : Bytes) :
    underscoreScan hex saw (digsText ds ++ rest) = underscoreScan hex (if ds = [] then saw else 1) rest := by
  induction ds generalizing saw with
  | nil => simp [digsText_nil]
  | cons d ds ih =>
    have hd := h d (List.mem_cons_self ..)
    have ih := ih (fun x hx => h x (List.mem_cons_of_mem _ hx)) 1 (fun _ _ _ => rfl)
    have e : ∀ saw, underscoreScan hex saw (d.c :: (digsText ds ++ rest)) =
        underscoreScan hex 1 rest := by
      intro saw; rw [usScan_digit hd, ih]; split <;> rfl
    rw [digsText_cons, List.append_assoc, if_neg (by simp)]
    unfold Dig.text
    split
    · rename_i hus
      rw [List.cons_append, List.cons_append, List.nil_append, usScan_us, if_pos (hh d rfl hus), e]
    · rw [List.cons_append, List.nil_append, e]

/-! ## Underscores, backward -/

/-- Digit or underscore. -/
def MC (hex : Bool) (c : UInt8) : Prop := c = 95 ∨ (digitIndex hex c).isSome = true

theorem usScan_inv {hex : Bool} (n : Nat) : ∀ (X tail : Bytes) (saw : Nat), X.length ≤ n → (∀ c ∈ X, MC hex c) →
    Stops hex tail → saw ≠ 2 → underscoreScan hex saw (X ++ tail) = true →
    ∃ ds, X = digsText ds ∧ (∀ d ∈ ds, (digitIndex hex d.c).isSome = true) ∧
      (∀ d, ds.head? = some d → d.us = true → saw = 1) ∧
      underscoreScan hex (if ds = [] then saw else 1) tail = true := by
  induction n with
  | zero =>
    intro X tail saw hl _ _ _ h
    have : X = [] := List.eq_nil_of_length_eq_zero (by omega)
    subst this
    exact ⟨[], rfl, by simp, by simp, by simpa using h⟩
  | succ n ih =>
    intro X tail saw hl hX ht hs h
    cases X with
    | nil => exact ⟨[], rfl, by simp, by simp, by simpa using h⟩
    | cons c X =>
      rw [List.cons_append] at h
      rcases hX c (List.mem_cons_self ..) with hc | hc
      · subst hc
        rw [usScan_us] at h
        by_cases h1 : saw = 1
        · rw [if_pos h1] at h
          cases X with
          | nil =>
            exfalso
            rw [List.nil_append] at h
            cases tail with
            | nil => simp [underscoreScan] at h
            | cons t ts =>
              obtain ⟨t1, t2⟩ := ht t ts rfl
              rw [usScan_other t2 t1, if_pos rfl] at h
              cases h
          | cons c2 X2 =>
            rw [List.cons_append] at h
            rcases hX c2 (by simp) with hc2 | hc2
            · subst hc2
              rw [usScan_us, if_neg (by decide)] at h
              cases h
            · rw [usScan_digit hc2] at h
              obtain ⟨ds, d1, d2, _, d4⟩ := ih X2 tail 1 (by simp at hl; omega)
                (fun x hx => hX x (by simp [hx])) ht (by decide) h
              refine ⟨⟨true, c2⟩ :: ds, by rw [digsText_cons, ← d1]; rfl, ?_, fun _ _ _ => h1, ?_⟩
              · intro d hd
                rcases List.mem_cons.1 hd with hd | hd
                · subst hd; exact hc2
                · exact d2 d hd
              · rw [if_neg (by simp)]
                split at d4 <;> exact d4
        · rw [if_neg h1] at h; cases h
      · rw [usScan_digit hc] at h
        obtain ⟨ds, d1, d2, _, d4⟩ := ih X tail 1 (by simp at hl; omega)
          (fun x hx => hX x (by simp [hx])) ht (by decide) h
        refine ⟨⟨false, c⟩ :: ds, by rw [digsText_cons, ← d1]; rfl, ?_, ?_, ?_⟩
        · intro d hd
          rcases List.mem_cons.1 hd with hd | hd
          · subst hd; exact hc
          · exact d2 d hd
        · intro d hd hu
          simp at hd
          subst hd
          cases hu
        · rw [if_neg (by simp)]
          split at d4 <;> exact d4

/-- Without underscores there is nothing to complain about. -/
theorem usScan_none {hex : Bool} (s : Bytes) (h : ∀ c ∈ s, c ≠ 95) (saw : Nat) (hs : saw ≠ 2) :
    underscoreScan hex saw s = true := by
  induction s generalizing saw with
  | nil => simp [underscoreScan, hs]
  | cons c cs ih =>
    have ih := ih (fun x hx => h x (by simp [hx]))
    have hc := h c (by simp)
    cases hd : digitIndex hex c with
    | none => rw [usScan_other hd hc, if_neg hs]; exact ih 3 (by decide)
    | some d => rw [usScan_digit (by rw [hd]; rfl)]; exact ih 1 (by decide)

/-! ## Scanner, backward -/

theorem scanMant_inv1 {hex : Bool} (s : Bytes) : ∀ (st m : Mant) (rest : Bytes), st.dot = true →
    scanMant hex st s = (m, rest) →
    ∃ A, s = A ++ rest ∧ (∀ c ∈ A, MC hex c) ∧
      (m.digits = true → st.digits = true ∨ ∃ c ∈ A, (digitIndex hex c).isSome = true) ∧
      (m.us = false → st.us = false ∧ ∀ c ∈ A, c ≠ 95) ∧ Stops hex rest := by
  induction s with
  | nil =>
    intro st m rest _ h
    simp [scanMant] at h
    obtain ⟨rfl, rfl⟩ := h
    exact ⟨[], rfl, by simp, fun h => .inl h, fun h => ⟨h, by simp⟩, by intro c cs h; cases h⟩
  | cons c cs ih =>
    intro st m rest hst h
    by_cases h95 : c = 95
    · subst h95
      rw [scanMant_us] at h
      obtain ⟨A, a1, a2, a3, a4, a5⟩ := ih { st with us := true } m rest hst h
      refine ⟨95 :: A, by rw [a1]; rfl, ?_, ?_, ?_, a5⟩
      · intro x hx
        rcases List.mem_cons.1 hx with hx | hx
        · exact .inl hx
        · exact a2 x hx
      · intro hm
        rcases a3 hm with h | ⟨x, hx, hx2⟩
        · exact .inl h
        · exact .inr ⟨x, by simp [hx], hx2⟩
      · intro hm
        exact absurd (a4 hm).1 (by simp)
    · cases hd : digitIndex hex c with
      | some d =>
        have hsome : (digitIndex hex c).isSome = true := by rw [hd]; rfl
        rw [scanMant_digit hsome] at h
        obtain ⟨A, a1, a2, a3, a4, a5⟩ := ih { st with
          val := st.val * (if hex then 16 else 10) + (digitIndex hex c).getD 0
          nfrac := if st.dot then st.nfrac + 1 else st.nfrac
          digits := true } m rest hst h
        refine ⟨c :: A, by rw [a1]; rfl, ?_, fun _ => .inr ⟨c, by simp, hsome⟩, ?_, a5⟩
        · intro x hx
          rcases List.mem_cons.1 hx with hx | hx
          · exact .inr (by rw [hx]; exact hsome)
          · exact a2 x hx
        · intro hm
          refine ⟨(a4 hm).1, fun x hx => ?_⟩
          rcases List.mem_cons.1 hx with hx | hx
          · rw [hx]; exact h95
          · exact (a4 hm).2 x hx
      | none =>
        have hstop : Stops hex (c :: cs) := by
          intro x xs hx
          cases hx
          exact ⟨h95, hd⟩
        have : scanMant hex st (c :: cs) = (st, c :: cs) := by
          rw [scanMant, if_neg h95, mantDigit_eq, hd]
          by_cases h46 : c = 46
          · rw [if_pos h46, if_pos hst]
          · rw [if_neg h46]
        rw [this] at h
        cases h
        exact ⟨[], rfl, by simp, fun h => .inl h, fun h => ⟨h, by simp⟩, hstop⟩

/-- The point and what was read after it. -/
def dotText : Option Bytes → Bytes
  | none => []
  | some B => 46 :: B

theorem scanMant_inv0 {hex : Bool} (s : Bytes) : ∀ (st m : Mant) (rest : Bytes), st.dot = false →
    scanMant hex st s = (m, rest) →
    ∃ A B?, s = A ++ (dotText B? ++ rest) ∧ (∀ c ∈ A, MC hex c) ∧
      (∀ B, B? = some B → ∀ c ∈ B, MC hex c) ∧
      (m.digits = true → st.digits = true ∨ (∃ c ∈ A, (digitIndex hex c).isSome = true) ∨
        ∃ B, B? = some B ∧ ∃ c ∈ B, (digitIndex hex c).isSome = true) ∧
      (m.us = false → st.us = false ∧ (∀ c ∈ A, c ≠ 95) ∧ ∀ B, B? = some B → ∀ c ∈ B, c ≠ 95) ∧
      Stops hex rest := by
  induction s with
  | nil =>
    intro st m rest _ h
    simp [scanMant] at h
    obtain ⟨rfl, rfl⟩ := h
    exact ⟨[], none, rfl, by simp, by simp, fun h => .inl h, fun h => ⟨h, by simp, by simp⟩,
      by intro c cs h; cases h⟩
  | cons c cs ih =>
    intro st m rest hst h
    by_cases h95 : c = 95
    · subst h95
      rw [scanMant_us] at h
      obtain ⟨A, B?, a1, a2, ab, a3, a4, a5⟩ := ih { st with us := true } m rest hst h
      refine ⟨95 :: A, B?, by rw [a1]; rfl, ?_, ab, ?_, ?_, a5⟩
      · intro x hx
        rcases List.mem_cons.1 hx with hx | hx
        · exact .inl hx
        · exact a2 x hx
      · intro hm
        rcases a3 hm with h | ⟨x, hx, hx2⟩ | h
        · exact .inl h
        · exact .inr (.inl ⟨x, by simp [hx], hx2⟩)
        · exact .inr (.inr h)
      · intro hm
        exact absurd (a4 hm).1 (by simp)
    · cases hd : digitIndex hex c with
      | some d =>
        have hsome : (digitIndex hex c).isSome = true := by rw [hd]; rfl
        rw [scanMant_digit hsome] at h
        obtain ⟨A, B?, a1, a2, ab, a3, a4, a5⟩ := ih { st with
          val := st.val * (if hex then 16 else 10) + (digitIndex hex c).getD 0
          nfrac := if st.dot then st.nfrac + 1 else st.nfrac
          digits := true } m rest hst h
        refine ⟨c :: A, B?, by rw [a1]; rfl, ?_, ab, fun _ => .inr (.inl ⟨c, by simp, hsome⟩), ?_, a5⟩
        · intro x hx
          rcases List.mem_cons.1 hx with hx | hx
          · exact .inr (by rw [hx]; exact hsome)
          · exact a2 x hx
        · intro hm
          refine ⟨(a4 hm).1, fun x hx => ?_, (a4 hm).2.2⟩
          rcases List.mem_cons.1 hx with hx | hx
          · rw [hx]; exact h95
          · exact (a4 hm).2.1 x hx
      | none =>
        by_cases h46 : c = 46
        · subst h46
          have : scanMant hex st (46 :: cs) = scanMant hex { st with dot := true } cs := by
            rw [scanMant, if_neg h95, if_pos rfl, if_neg (by rw [hst]; decide)]
          rw [this] at h
          obtain ⟨B, a1, a2, a3, a4, a5⟩ := scanMant_inv1 cs { st with dot := true } m rest rfl h
          refine ⟨[], some B, by rw [a1]; rfl, by simp, ?_, ?_, ?_, a5⟩
          · intro B' hB; cases hB; exact a2
          · intro hm
            rcases a3 hm with h | h
            · exact .inl h
            · exact .inr (.inr ⟨B, rfl, h⟩)
          · intro hm
            refine ⟨(a4 hm).1, by simp, ?_⟩
            intro B' hB; cases hB; exact (a4 hm).2
        · have hstop : Stops hex (c :: cs) := by
            intro x xs hx
            cases hx
            exact ⟨h95, hd⟩
          rw [scanMant_stop hstop (by intro xs hx; cases hx; exact h46 rfl)] at h
          cases h
          exact ⟨[], none, rfl, by simp, by simp, fun h => .inl h, fun h => ⟨h, by simp, by simp⟩, hstop⟩

theorem scanExp_inv (s : Bytes) : ∀ (e e' : Nat) (us us' : Bool) (rest : Bytes),
    scanExp e us s = (e', us', rest) →
    ∃ A, s = A ++ rest ∧ (∀ c ∈ A, MC false c) ∧ (us' = false → us = false ∧ ∀ c ∈ A, c ≠ 95) := by
  induction s with
  | nil =>
    intro e e' us us' rest h
    simp [scanExp] at h
    obtain ⟨_, rfl, rfl⟩ := h
    exact ⟨[], rfl, by simp, fun h => ⟨h, by simp⟩⟩
  | cons c cs ih =>
    intro e e' us us' rest h
    rw [scanExp] at h
    by_cases h95 : c = 95
    · rw [if_pos h95] at h
      obtain ⟨A, a1, a2, a4⟩ := ih _ _ _ _ _ h
      refine ⟨c :: A, by rw [a1]; rfl, ?_, fun hm => absurd (a4 hm).1 (by simp)⟩
      intro x hx
      rcases List.mem_cons.1 hx with hx | hx
      · exact .inl (by rw [hx, h95])
      · exact a2 x hx
    · rw [if_neg h95] at h
      by_cases hd : isDigit c = true
      · rw [if_pos hd] at h
        obtain ⟨A, a1, a2, a4⟩ := ih _ _ _ _ _ h
        refine ⟨c :: A, by rw [a1]; rfl, ?_, fun hm => ⟨(a4 hm).1, ?_⟩⟩
        · intro x hx
          rcases List.mem_cons.1 hx with hx | hx
          · exact .inr (by rw [hx, digitIndex_dec, if_pos hd]; rfl)
          · exact a2 x hx
        · intro x hx
          rcases List.mem_cons.1 hx with hx | hx
          · rw [hx]; exact h95
          · exact (a4 hm).2 x hx
      · rw [if_neg hd] at h
        cases h
        exact ⟨[], rfl, by simp, fun h => ⟨h, by simp⟩⟩

theorem splitSign_inv (s : Bytes) :
    ∃ sg t, s = sg ++ t ∧ (sg = [] ∨ sg = b!"+" ∨ sg = b!"-") ∧ splitSign s = (decide (sg = b!"-"), t) := by
  unfold splitSign
  split
  · rename_i t; exact ⟨b!"+", t, rfl, by simp, rfl⟩
  · rename_i t; exact ⟨b!"-", t, rfl, by simp, rfl⟩
  · exact ⟨[], _, rfl, by simp, rfl⟩

theorem splitSign_fwd {sg t : Bytes} (h : sg = [] ∨ sg = b!"+" ∨ sg = b!"-")
    (ht : ∀ c cs, t = c :: cs → c ≠ 43 ∧ c ≠ 45) : splitSign (sg ++ t) = (decide (sg = b!"-"), t) := by
  rcases h with h | h | h <;> subst h
  · cases t with
    | nil => rfl
    | cons c cs =>
      obtain ⟨h1, h2⟩ := ht c cs rfl
      rw [List.nil_append]
      unfold splitSign
      split
      · rename_i h; cases h; exact absurd rfl h1
      · rename_i h; cases h; exact absurd rfl h2
      · rfl
  · rfl
  · rfl

theorem readExp_inv {s : Bytes} {e : Int} {us : Bool} (h : readExp s = some (e, us, [])) :
    ∃ sg c A, s = sg ++ c :: A ∧ (sg = [] ∨ sg = b!"+" ∨ sg = b!"-") ∧ (digitIndex false c).isSome = true ∧
      (∀ x ∈ c :: A, MC false x) ∧ (us = false → ∀ x ∈ c :: A, x ≠ 95) := by
  obtain ⟨sg, t, h1, h2, h3⟩ := splitSign_inv s
  unfold readExp at h
  rw [h3] at h
  cases t with
  | nil => simp at h
  | cons c cs =>
    simp only at h
    by_cases hd : isDigit c = true
    · rw [if_pos hd] at h
      generalize hq : scanExp 0 false (c :: cs) = r at h
      obtain ⟨e', us', rest⟩ := r
      simp at h
      obtain ⟨_, rfl, rfl⟩ := h
      obtain ⟨A, a1, a2, a3⟩ := scanExp_inv _ _ _ _ _ _ hq
      rw [List.append_nil] at a1
      rw [← a1] at a2 a3
      exact ⟨sg, c, cs, h1, h2, by rw [digitIndex_dec, if_pos hd]; rfl, a2, fun hu => (a3 hu).2⟩
    · rw [if_neg hd] at h; cases h

end Verif

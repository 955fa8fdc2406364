import Verif.PropsFloat
/-!
# The text of a float is the shortest one, the closest of those, and unique
-/
namespace Verif
open F64

/-! ## Specification -/

/-- `v` can be written with at most `n` significant decimal digits. -/
def AtMost (n v : Nat) : Prop := ∃ q i, v = q * 10 ^ i ∧ q < 10 ^ n

/-- The number `v · 10^-1074` reads as the float with magnitude field `mag`. -/
def ReadsAs (mag v : Nat) : Prop := Nearest (v * 2 ^ 1074) (10 ^ 1074) mag

/-- Distance of two numbers. -/
def dist (a b : Nat) : Nat := ((a : Int) - b).natAbs

/-- What the shortest text of a float stands for: `v · 10^-1074` reads as it; no number that reads
as it has fewer digits; among those with as few digits it is the closest to the float's exact
value, and of two equally close ones the one that is even in the last place. -/
structure IsShortest (mag v : Nat) : Prop where
  reads : ReadsAs mag v
  fewest : ∀ w n, ReadsAs mag w → AtMost n w → AtMost n v
  closest : ∀ w, ReadsAs mag w → (∀ n, AtMost n v → AtMost n w) →
    dist (units mag * 5 ^ 1074) v ≤ dist (units mag * 5 ^ 1074) w ∧
    (dist (units mag * 5 ^ 1074) v = dist (units mag * 5 ^ 1074) w →
      w = v ∨ ∃ q i, v = q * 10 ^ i ∧ q % 2 = 0 ∧ (w = (q + 1) * 10 ^ i ∨ v = w + 10 ^ i))

/-! ## Lemmas -/

theorem Nearest.mono {n n' d m m' : Nat} (hd : 0 < d) (h : Nearest n d m) (h' : Nearest n' d m')
    (hn : n ≤ n') : m ≤ m' := by
  apply Classical.byContradiction
  intro hlt
  have hlt : m' < m := by omega
  have s := Nat.mul_lt_mul_of_pos_right (units_strictMono hlt) hd
  have a := (h m').1
  have b := (h' m).1
  have c1 : ((units m : Int) * d) = ((units m * d : Nat) : Int) := by push_cast; rfl
  have c2 : ((units m' : Int) * d) = ((units m' * d : Nat) : Int) := by push_cast; rfl
  rw [c1, c2] at a b
  have hnn : n = n' := by omega
  subst hnn
  have := h.unique hd h'
  omega

theorem readsAs_iff {mag v : Nat} : ReadsAs mag v ↔ readsBack mag v = true := by
  rw [readsBack_iff]
  constructor
  · intro h; exact (roundMag_nearest _ _ (ten_pow_pos _)).unique (ten_pow_pos _) h
  · intro h; rw [ReadsAs, ← h]; exact roundMag_nearest _ _ (ten_pow_pos _)

theorem readsBack_convex {mag a b c : Nat} (ha : readsBack mag a = true) (hb : readsBack mag b = true)
    (h1 : a ≤ c) (h2 : c ≤ b) : readsBack mag c = true := by
  rw [← readsAs_iff] at ha hb
  rw [readsBack_iff]
  have hc := roundMag_nearest (c * 2 ^ 1074) (10 ^ 1074) (ten_pow_pos _)
  exact Nat.le_antisymm (Nearest.mono (ten_pow_pos _) hc hb (Nat.mul_le_mul_right _ h2))
    (Nearest.mono (ten_pow_pos _) ha hc (Nat.mul_le_mul_right _ h1))

theorem ndigitsAux_spec (f n : Nat) (h : n < f) (h0 : 0 < n) :
    0 < ndigitsAux f n ∧ 10 ^ (ndigitsAux f n - 1) ≤ n ∧ n < 10 ^ ndigitsAux f n := by
  induction f generalizing n with
  | zero => omega
  | succ f ih =>
    rw [ndigitsAux]
    by_cases h10 : n < 10
    · rw [if_pos h10]; exact ⟨by omega, by simp; omega, by simpa using h10⟩
    · rw [if_neg h10]
      obtain ⟨a, b, c⟩ := ih (n / 10) (by omega) (by omega)
      refine ⟨by omega, ?_, ?_⟩
      · rw [Nat.add_sub_cancel]
        have : ndigitsAux f (n / 10) = (ndigitsAux f (n / 10) - 1) + 1 := by omega
        rw [this, Nat.pow_succ]
        generalize 10 ^ (ndigitsAux f (n / 10) - 1) = x at b
        omega
      · rw [Nat.pow_succ]
        generalize 10 ^ ndigitsAux f (n / 10) = x at c
        omega

theorem floor_bounds {p D : Nat} (hp : 0 < p) : D / p * p ≤ D ∧ D < D / p * p + p := by
  have := Nat.div_add_mod D p
  have := Nat.mod_lt D hp
  rw [Nat.mul_comm]
  omega

/-- What the search finds, from the number of low digits it starts with. -/
theorem shortestAux_spec {mag D : Nat} (hD : readsBack mag D = true) (j : Nat) :
    ∃ i, i ≤ j ∧ (∃ q, shortestAux mag D j = q * 10 ^ i ∧
      (q = D / 10 ^ i ∨ (q = D / 10 ^ i + 1)) ∧
      (∀ k, readsBack mag (k * 10 ^ i) = true →
        dist D (q * 10 ^ i) ≤ dist D (k * 10 ^ i) ∧
        (dist D (q * 10 ^ i) = dist D (k * 10 ^ i) →
          k = q ∨ (q % 2 = 0 ∧ (k = q + 1 ∨ k + 1 = q))))) ∧
      ∀ i' k, i < i' → i' ≤ j → readsBack mag (k * 10 ^ i') = false := by
  induction j with
  | zero =>
    refine ⟨0, Nat.le_refl _, ⟨D, by simp [shortestAux], by simp, fun k hk => ?_⟩, by omega⟩
    simp only [dist, Nat.pow_zero, Nat.mul_one]
    exact ⟨by omega, fun h => .inl (by omega)⟩
  | succ j ih =>
    rw [shortestAux]
    have hp : 0 < 10 ^ (j + 1) := ten_pow_pos _
    generalize hpe : 10 ^ (j + 1) = p at hp ⊢
    obtain ⟨b1, b2⟩ := floor_bounds (D := D) hp
    generalize hlo : D / p * p = lo at b1 b2 ⊢
    -- multiples of p below and above
    have below : ∀ k, readsBack mag (k * p) = true → k * p ≤ lo → readsBack mag lo = true :=
      fun k hk hl => readsBack_convex hk hD hl b1
    have above : ∀ k, readsBack mag (k * p) = true → lo + p ≤ k * p → readsBack mag (lo + p) = true :=
      fun k hk hl => readsBack_convex hD hk (by omega) hl
    have cs : ∀ k, (k * p ≤ lo ∧ k ≤ D / p) ∨ (lo + p ≤ k * p ∧ D / p + 1 ≤ k) := by
      intro k
      rcases Nat.lt_or_ge (D / p) k with h | h
      · right
        have := Nat.mul_le_mul_right p h
        rw [Nat.succ_mul, hlo] at this
        exact ⟨this, h⟩
      · left
        have := Nat.mul_le_mul_right p h
        rw [hlo] at this
        exact ⟨this, h⟩
    have low_eq : ∀ k, k * p ≤ lo → lo < k * p + p → k = D / p := by
      intro k h1 h2
      rcases cs k with h | h
      · apply Nat.le_antisymm h.2
        apply Classical.byContradiction
        intro hc
        have := Nat.mul_le_mul_right p (show k + 1 ≤ D / p by omega)
        rw [Nat.succ_mul, hlo] at this
        omega
      · omega
    have high_eq : ∀ k, lo + p ≤ k * p → k * p < lo + p + p → k = D / p + 1 := by
      intro k h1 h2
      rcases cs k with h | h
      · omega
      · apply Nat.le_antisymm _ h.2
        apply Classical.byContradiction
        intro hc
        have := Nat.mul_le_mul_right p (show D / p + 2 ≤ k by omega)
        rw [Nat.add_mul, hlo] at this
        omega
    have hhi : (D / p + 1) * p = lo + p := by rw [Nat.succ_mul, hlo]
    have top : ∀ i' k, j + 1 < i' → i' ≤ j + 1 → readsBack mag (k * 10 ^ i') = false := by omega
    -- taking the lower neighbour
    have takeLo : (readsBack mag (lo + p) = true → 2 * (D - lo) ≤ p ∧ (2 * (D - lo) = p → D / p % 2 = 0)) →
        ∃ i, i ≤ j + 1 ∧ (∃ q, lo = q * 10 ^ i ∧ (q = D / 10 ^ i ∨ (q = D / 10 ^ i + 1)) ∧
          (∀ k, readsBack mag (k * 10 ^ i) = true →
            dist D (q * 10 ^ i) ≤ dist D (k * 10 ^ i) ∧
            (dist D (q * 10 ^ i) = dist D (k * 10 ^ i) →
              k = q ∨ (q % 2 = 0 ∧ (k = q + 1 ∨ k + 1 = q))))) ∧
          ∀ i' k, i < i' → i' ≤ j + 1 → readsBack mag (k * 10 ^ i') = false := by
      intro hyp
      refine ⟨j + 1, Nat.le_refl _, ⟨D / p, by rw [hpe, hlo], by rw [hpe]; exact .inl rfl, ?_⟩, top⟩
      intro k hk
      rw [hpe] at hk ⊢
      rw [hlo]
      unfold dist
      rcases cs k with h | h
      · refine ⟨by omega, fun e => .inl (low_eq k h.1 (by omega))⟩
      · have a := hyp (above k hk h.1)
        refine ⟨by omega, fun e => .inr ⟨a.2 (by omega), .inl (high_eq k h.1 (by omega))⟩⟩
    have takeHi : readsBack mag (lo + p) = true →
        (readsBack mag lo = true → p ≤ 2 * (D - lo) ∧ (2 * (D - lo) = p → D / p % 2 = 1)) →
        ∃ i, i ≤ j + 1 ∧ (∃ q, lo + p = q * 10 ^ i ∧ (q = D / 10 ^ i ∨ (q = D / 10 ^ i + 1)) ∧
          (∀ k, readsBack mag (k * 10 ^ i) = true →
            dist D (q * 10 ^ i) ≤ dist D (k * 10 ^ i) ∧
            (dist D (q * 10 ^ i) = dist D (k * 10 ^ i) →
              k = q ∨ (q % 2 = 0 ∧ (k = q + 1 ∨ k + 1 = q))))) ∧
          ∀ i' k, i < i' → i' ≤ j + 1 → readsBack mag (k * 10 ^ i') = false := by
      intro _ hyp
      refine ⟨j + 1, Nat.le_refl _, ⟨D / p + 1, by rw [hpe, hhi], by rw [hpe]; exact .inr rfl, ?_⟩, top⟩
      intro k hk
      rw [hpe] at hk ⊢
      rw [hhi]
      unfold dist
      rcases cs k with h | h
      · have a := hyp (below k hk h.1)
        refine ⟨by omega, fun e => .inr ⟨?_, .inr ?_⟩⟩
        · have := a.2 (by omega)
          omega
        · have := low_eq k h.1 (by omega)
          omega
      · refine ⟨by omega, fun e => .inl (high_eq k h.1 (by omega))⟩
    by_cases h1 : readsBack mag lo = true
    · rw [if_pos h1]
      by_cases h2 : readsBack mag (lo + p) = true
      · rw [if_pos h2]
        by_cases c1 : 2 * (D - lo) < p
        · rw [if_pos c1]; exact takeLo (fun _ => ⟨by omega, by omega⟩)
        · rw [if_neg c1]
          by_cases c2 : p < 2 * (D - lo)
          · rw [if_pos c2]; exact takeHi h2 (fun _ => ⟨by omega, by omega⟩)
          · rw [if_neg c2]
            by_cases c3 : D / p % 2 = 0
            · rw [if_pos c3]; exact takeLo (fun _ => ⟨by omega, fun _ => c3⟩)
            · rw [if_neg c3]; exact takeHi h2 (fun _ => ⟨by omega, fun _ => by omega⟩)
      · rw [if_neg h2]; exact takeLo (fun h => absurd h h2)
    · rw [if_neg h1]
      by_cases h2 : readsBack mag (lo + p) = true
      · rw [if_pos h2]; exact takeHi h2 (fun h => absurd h h1)
      · rw [if_neg h2]
        obtain ⟨i, hi, hq, hn⟩ := ih
        refine ⟨i, by omega, hq, fun i' k hlt hle => ?_⟩
        rcases Nat.lt_or_ge i' (j + 1) with hl | hl
        · exact hn i' k hlt (by omega)
        · have : i' = j + 1 := by omega
          subst this
          rw [hpe]
          apply Bool.eq_false_iff.2
          intro hk
          rcases cs k with h | h
          · exact h1 (below k hk h.1)
          · exact h2 (above k hk h.1)

theorem AtMost.mono {n n' v : Nat} (h : AtMost n v) (hn : n ≤ n') : AtMost n' v := by
  obtain ⟨q, i, h1, h2⟩ := h
  exact ⟨q, i, h1, Nat.lt_of_lt_of_le h2 (Nat.pow_le_pow_right (by omega) hn)⟩

theorem pow_split {a b : Nat} (h : a ≤ b) : 10 ^ b = 10 ^ (b - a) * 10 ^ a := by
  rw [← Nat.pow_add, Nat.sub_add_cancel h]

/-- The shortest text for a positive exact value, whatever the float. -/
theorem shortest_core {mag D : Nat} (hD : readsBack mag D = true) (h0 : 0 < D)
    (hz : readsBack mag 0 = false) :
    let v := shortestAux mag D (ndigitsAux (D + 1) D - 1)
    (∀ w n, readsBack mag w = true → AtMost n w → AtMost n v) ∧
    (∀ w, readsBack mag w = true → (∀ n, AtMost n v → AtMost n w) →
      dist D v ≤ dist D w ∧
      (dist D v = dist D w →
        w = v ∨ ∃ q i, v = q * 10 ^ i ∧ q % 2 = 0 ∧ (w = (q + 1) * 10 ^ i ∨ v = w + 10 ^ i))) := by
  obtain ⟨nd0, nd1, nd2⟩ := ndigitsAux_spec (D + 1) D (by omega) h0
  generalize ndigitsAux (D + 1) D = nd at *
  obtain ⟨i, hi, ⟨q, hv, hq, hcl⟩, hno⟩ := shortestAux_spec hD (nd - 1)
  intro v
  have hv : v = q * 10 ^ i := hv
  have hpp : 0 < 10 ^ i := ten_pow_pos i
  obtain ⟨fb1, fb2⟩ := floor_bounds (D := D) hpp
  -- v has at most nd - i digits
  have hDq : D / 10 ^ i < 10 ^ (nd - i) := by
    rw [Nat.div_lt_iff_lt_mul hpp, ← pow_split (by omega)]
    exact nd2
  have hat : AtMost (nd - i) v := by
    rcases Nat.lt_or_ge q (10 ^ (nd - i)) with hl | hl
    · exact ⟨q, i, hv, hl⟩
    · have : q = 10 ^ (nd - i) := by omega
      refine ⟨1, nd, ?_, Nat.one_lt_pow (by omega) (by omega)⟩
      rw [hv, this, ← pow_split (by omega), Nat.one_mul]
  -- if 10^(nd-1) reads back, i = nd - 1
  have htop : ∀ k, readsBack mag (k * 10 ^ (nd - 1)) = true → i = nd - 1 := by
    intro k hk
    apply Classical.byContradiction
    intro hne
    rw [hno (nd - 1) k (by omega) (Nat.le_refl _)] at hk
    cases hk
  have hsmall : ∀ w, readsBack mag w = true → w < 10 ^ (nd - 1) → i = nd - 1 := by
    intro w hw hl
    apply htop 1
    rw [Nat.one_mul]
    exact readsBack_convex hw hD (by omega) nd1
  refine ⟨?_, ?_⟩
  · rintro w n hw ⟨q', i', rfl, hq'⟩
    have hn1 : 1 ≤ n := by
      apply Classical.byContradiction
      intro hn
      have : n = 0 := by omega
      subst this
      have : q' = 0 := by simpa using hq'
      subst this
      rw [Nat.zero_mul, hz] at hw
      cases hw
    rcases Nat.lt_or_ge (q' * 10 ^ i') (10 ^ (nd - 1)) with hl | hl
    · have := hsmall _ hw hl
      exact hat.mono (by omega)
    · rcases Nat.lt_or_ge i i' with hii | hii
      · rcases Nat.lt_or_ge (nd - 1) i' with hx | hx
        · have := htop (q' * 10 ^ (i' - (nd - 1))) (by
            rw [Nat.mul_assoc, ← pow_split (by omega)]; exact hw)
          exact hat.mono (by omega)
        · rw [hno i' q' hii hx] at hw; cases hw
      · have h3 : 10 ^ (nd - 1) < 10 ^ (n + i') := by
          rw [Nat.pow_add]
          exact Nat.lt_of_le_of_lt hl (Nat.mul_lt_mul_of_pos_right hq' (ten_pow_pos _))
        have h4 := (Nat.pow_lt_pow_iff_right (by omega : 1 < 10)).1 h3
        exact hat.mono (by omega)
  · intro w hw hfew
    obtain ⟨q', i', hwe, hq'⟩ := hfew _ hat
    rcases Nat.lt_or_ge i' i with hlt | hge
    · have h3 : w < 10 ^ (nd - 1) := by
        have : w < 10 ^ (nd - i) * 10 ^ i' := by
          rw [hwe]; exact Nat.mul_lt_mul_of_pos_right hq' (ten_pow_pos _)
        rw [← Nat.pow_add] at this
        exact Nat.lt_of_lt_of_le this (Nat.pow_le_pow_right (by omega) (by omega))
      have h4 := hsmall w hw h3
      have h5 : 10 ^ i ≤ D / 10 ^ i * 10 ^ i := by
        have : 1 ≤ D / 10 ^ i := by
          rw [Nat.le_div_iff_mul_le hpp, Nat.one_mul, h4]; exact nd1
        have := Nat.mul_le_mul_right (10 ^ i) this
        rwa [Nat.one_mul] at this
      rw [← h4] at h3
      have h6 := readsBack_convex hw hD (by omega) fb1
      have h7 := (hcl _ h6).1
      rw [← hv] at h7
      unfold dist at *
      exact ⟨by omega, fun e => absurd e (by omega)⟩
    · have hwk : w = (q' * 10 ^ (i' - i)) * 10 ^ i := by
        rw [hwe, Nat.mul_assoc, ← pow_split hge]
      rw [hwk] at hw
      obtain ⟨g1, g2⟩ := hcl _ hw
      rw [hwk, hv]
      refine ⟨g1, fun e => ?_⟩
      rcases g2 e with h | ⟨h, h' | h'⟩
      · exact .inl (by rw [h])
      · exact .inr ⟨q, i, rfl, h, .inl (by rw [h'])⟩
      · exact .inr ⟨q, i, rfl, h, .inr (by rw [← h', Nat.succ_mul])⟩

theorem atMost_zero (n : Nat) : AtMost n 0 := ⟨0, 0, by simp, ten_pow_pos n⟩

theorem readsBack_zero {mag : Nat} (h : readsBack mag 0 = true) : mag = 0 := by
  rw [readsBack_iff, Nat.zero_mul] at h
  have := roundMag_units 0 (10 ^ 1074) (ten_pow_pos _)
  have e : units 0 = 0 := by decide
  rw [e, Nat.zero_mul, h] at this
  exact this

theorem units_eq_zero {mag : Nat} (h : units mag = 0) : mag = 0 :=
  units_inj (by rw [h]; decide)

theorem isShortest_shortest (mag : Nat) : IsShortest mag (shortest mag) := by
  refine ⟨readsAs_iff.2 (readsBack_shortest mag), ?_, ?_⟩
  all_goals simp only [readsAs_iff]
  all_goals
    have hD := readsBack_exact mag
    have hp : 0 < 5 ^ 1074 := Nat.pow_pos (by omega)
    unfold shortest
    have hz : 0 < units mag * 5 ^ 1074 → readsBack mag 0 = false := by
      intro h
      apply Bool.eq_false_iff.2
      intro hr
      have := readsBack_zero hr
      subst this
      have e : units 0 = 0 := by decide
      rw [e, Nat.zero_mul] at h
      exact absurd h (Nat.lt_irrefl _)
    generalize units mag * 5 ^ 1074 = D at hD hz ⊢
    rcases Nat.eq_zero_or_pos D with h | h
  · subst h
    intro w n _ _
    exact atMost_zero n
  · exact (shortest_core hD h (hz h)).1
  · subst h
    intro w _ hf
    have e : shortestAux mag 0 (ndigitsAux (0 + 1) 0 - 1) = 0 := rfl
    rw [e] at hf ⊢
    obtain ⟨q, i, h1, h2⟩ := hf 0 (atMost_zero 0)
    have : q = 0 := by simpa using h2
    subst this
    rw [Nat.zero_mul] at h1
    exact ⟨by rw [h1]; exact Nat.le_refl _, fun _ => .inl h1⟩
  · exact (shortest_core hD h (hz h)).2

/-- At most one number fits the specification. -/
theorem IsShortest.unique {mag v w : Nat} (hv : IsShortest mag v) (hw : IsShortest mag w) : v = w := by
  have a1 := hv.closest w hw.reads (fun n h => hw.fewest v n hv.reads h)
  have a2 := hw.closest v hv.reads (fun n h => hv.fewest w n hw.reads h)
  have e := Nat.le_antisymm a1.1 a2.1
  rcases a1.2 e with h | ⟨q, i, h1, h2, h3⟩
  · exact h.symm
  rcases a2.2 e.symm with h | ⟨q', i', h1', h2', h3'⟩
  · exact h
  exfalso
  -- the two are one step 10^i = 10^i' apart
  have p1 := ten_pow_pos i
  have p2 := ten_pow_pos i'
  have k1 : w = v + 10 ^ i ∨ v = w + 10 ^ i := by
    rcases h3 with h | h
    · left; rw [h, h1, Nat.succ_mul]
    · exact .inr h
  have k2 : v = w + 10 ^ i' ∨ w = v + 10 ^ i' := by
    rcases h3' with h | h
    · left; rw [h, h1', Nat.succ_mul]
    · exact .inr h
  have hpe : 10 ^ i = 10 ^ i' := by omega
  rw [← hpe] at h1'
  generalize 10 ^ i = p at *
  rw [h1, h1'] at k1
  have hq : q' = q + 1 ∨ q = q' + 1 := by
    rcases k1 with h | h
    · left; rw [← Nat.succ_mul] at h; exact Nat.eq_of_mul_eq_mul_right p1 h
    · right; rw [← Nat.succ_mul] at h; exact Nat.eq_of_mul_eq_mul_right p1 h
  omega

/-! ## The text -/

/-- No leading zero, unless the text is just "0". -/
theorem natTextAux_no_zero (f n : Nat) (h : n < f) (h0 : 0 < n) : (natTextAux f n).head? ≠ some 48 := by
  induction f generalizing n with
  | zero => omega
  | succ f ih =>
    rw [natTextAux]
    by_cases h10 : n < 10
    · rw [if_pos h10]
      intro e
      have e : digitByte n = 48 := by simpa using e
      have := digitByte_toNat h10
      rw [e] at this
      have h48 : (48 : UInt8).toNat = 48 := rfl
      omega
    · rw [if_neg h10]
      have := ih (n / 10) (by omega) (by omega)
      have hne := natTextAux_ne_nil f (n / 10) (by omega)
      cases hx : natTextAux f (n / 10) with
      | nil => exact absurd hx hne
      | cons c cs => rw [hx] at this; simpa using this

/-- Fraction digits do not end in a zero. -/
theorem fracText_no_zero (w fr : Nat) (h : fr < 10 ^ w) : (fracText w fr).getLast? ≠ some 48 := by
  induction w generalizing fr with
  | zero => simp [fracText]
  | succ w ih =>
    rw [fracText]
    by_cases h0 : fr = 0
    · rw [if_pos h0]; simp
    · rw [if_neg h0]
      have hp : 0 < 10 ^ w := ten_pow_pos w
      have hd : fr / 10 ^ w < 10 := by
        rw [Nat.div_lt_iff_lt_mul hp, ← Nat.pow_succ']; exact h
      have := ih (fr % 10 ^ w) (Nat.mod_lt _ hp)
      cases hx : fracText w (fr % 10 ^ w) with
      | nil =>
        intro e
        have e : digitByte (fr / 10 ^ w) = 48 := by simpa using e
        have hz : fr % 10 ^ w = 0 := by
          apply Classical.byContradiction
          intro hnz
          exact fracText_ne_nil (Nat.mod_lt _ hp) hnz hx
        have h1 := digitByte_toNat hd
        rw [e] at h1
        have h48 : (48 : UInt8).toNat = 48 := rfl
        have hdm := Nat.div_add_mod fr (10 ^ w)
        rw [hz, show fr / 10 ^ w = 0 by omega] at hdm
        simp at hdm
        exact h0 hdm.symm
      | cons c cs =>
        rw [hx] at this
        rw [List.getLast?_cons_cons]
        exact this

/-- `text` is the plain decimal text of `v · 10^-1074`: digits, then a point and fraction digits if
there are any; no superfluous zero at either end. -/
def PlainDecimal (v : Nat) (text : Bytes) : Prop :=
  ∃ ip fp : Bytes, text = (if fp = [] then ip else ip ++ b!"." ++ fp) ∧
    ip ≠ [] ∧ ip.all isDigit = true ∧ fp.all isDigit = true ∧
    (ip.head? = some 48 → ip = b!"0") ∧ fp.getLast? ≠ some 48 ∧
    decimalValue (ip ++ fp) * 10 ^ 1074 = v * 10 ^ fp.length

theorem plainDecimal_decText (v : Nat) : PlainDecimal v (decText v) := by
  have hlt : v % 10 ^ 1074 < 10 ^ 1074 := Nat.mod_lt _ (ten_pow_pos 1074)
  obtain ⟨f1, f2, f3⟩ := fracText_spec 1074 _ hlt
  refine ⟨natText (v / 10 ^ 1074), fracText 1074 (v % 10 ^ 1074), ?_, natText_ne_nil _, natText_all_digits _,
    f1, ?_, fracText_no_zero _ _ hlt, ?_⟩
  · rw [decText_eq]; unfold pointText
    split
    · rfl
    · rw [List.append_assoc]; rfl
  · intro h
    rcases Nat.eq_zero_or_pos (v / 10 ^ 1074) with h0 | h0
    · rw [h0]; rfl
    · exact absurd h (natTextAux_no_zero _ _ (by omega) h0)
  · rw [decimalValue_eq _ (by rw [List.all_append, f1, natText_all_digits]; rfl), decVal_append,
      decVal_natText, decVal_acc]
    have hr := ratio_aux (N := 1074) (I := v / 10 ^ 1074) (C := 1)
      (F := decVal 0 (fracText 1074 (v % 10 ^ 1074))) f2
    have hdm := Nat.div_add_mod v (10 ^ 1074)
    rw [f3, hdm] at hr
    simpa using hr

/-- C81, second half: the text of a finite float64 is the plain decimal text of its shortest
decimal: fewest digits, then closest to the exact value, then even in the last place. -/
theorem C81_format_shortest (x : F64) (hx : x.isFinite = true) :
    ∃ v text, IsShortest x.mag.val v ∧ (∀ v', IsShortest x.mag.val v' → v' = v) ∧ PlainDecimal v text ∧
      formatFloat x = (if x.neg then b!"-" else []) ++ text := by
  refine ⟨shortest x.mag.val, decText (shortest x.mag.val), isShortest_shortest _,
    fun v' h => h.unique (isShortest_shortest _), plainDecimal_decText _, ?_⟩
  have n1 : x.isNaN = false := by simp [isFinite, isNaN] at hx ⊢; omega
  have i1 : x.isInf = false := by simp [isFinite, isInf] at hx ⊢; omega
  unfold formatFloat
  simp only [n1, i1, Bool.false_eq_true, if_false]
  cases x.neg
  · rw [if_neg (by simp), if_neg (by simp), List.nil_append]
  · rw [if_pos rfl, if_pos rfl, List.cons_append, List.nil_append]

/-- The shortest text of 0.1, of a tie (1125899906842624.25). -/
example : formatFloat (mk' false 4591870180066957722) = b!"0.1" ∧
    formatFloat (mk' false 4832362400168542209) = b!"1125899906842624.2" ∧
    (mk' true 4591870180066957722).isFinite = true := by decide +kernel

/-- C81 for the values that are not finite. -/
theorem C81_format_special (x : F64) :
    (x.isNaN = true → formatFloat x = b!"NaN") ∧
    (x.isInf = true → formatFloat x = if x.neg then b!"-Inf" else b!"+Inf") := by
  constructor
  · intro h; simp [formatFloat, h]
  · intro h
    have : x.isNaN = false := by simp [isInf, isNaN] at h ⊢; omega
    simp [formatFloat, h, this]

end Verif

import Verif.F64
/-!
# Rounding lemmas for float64
-/
namespace Verif
namespace F64

/-- Nearest magnitude, ties to even: specification of rounding `n / d` units, with an unbounded
exponent range.  Independent of how rounding is computed. -/
def Nearest (n d m : Nat) : Prop :=
  ∀ m', ((units m * d : Int) - n).natAbs ≤ ((units m' * d : Int) - n).natAbs ∧
    (((units m * d : Int) - n).natAbs = ((units m' * d : Int) - n).natAbs → m' = m ∨ m % 2 = 0)

/-- A magnitude field with scale `k` and significand `q`. -/
theorem units_grid {k q : Nat} (h : q < 2 ^ 53) (h2 : k = 0 ∨ 2 ^ 52 ≤ q) :
    units (k * 2 ^ 52 + q) = q * 2 ^ k := by
  unfold units
  by_cases hq : q < 2 ^ 52
  · have : k = 0 := by omega
    subst this
    have : (0 * 2 ^ 52 + q) / 2 ^ 52 = 0 := by omega
    simp only [this, if_true]; simp
  · have e1 : (k * 2 ^ 52 + q) / 2 ^ 52 = k + 1 := by omega
    have e2 : (k * 2 ^ 52 + q) % 2 ^ 52 = q - 2 ^ 52 := by omega
    rw [e1, e2]
    simp only [Nat.succ_ne_zero, if_false, Nat.add_sub_cancel]
    rw [show 2 ^ 52 + (q - 2 ^ 52) = q by omega]

theorem units_grid_top (k : Nat) : units (k * 2 ^ 52 + 2 ^ 53) = 2 ^ 53 * 2 ^ k := by
  have : k * 2 ^ 52 + 2 ^ 53 = (k + 1) * 2 ^ 52 + 2 ^ 52 := by omega
  rw [this, units_grid (by omega) (by omega), Nat.pow_succ]
  omega

theorem units_grid' {k q : Nat} (h : q ≤ 2 ^ 53) (h2 : k = 0 ∨ 2 ^ 52 ≤ q) :
    units (k * 2 ^ 52 + q) = q * 2 ^ k := by
  rcases Nat.lt_or_ge q (2 ^ 53) with h' | h'
  · exact units_grid h' h2
  · have : q = 2 ^ 53 := by omega
    subst this; exact units_grid_top k

/-- Every magnitude lies on a grid. -/
theorem grid_of (m : Nat) : ∃ k q, m = k * 2 ^ 52 + q ∧ q < 2 ^ 53 ∧ (k = 0 ∨ 2 ^ 52 ≤ q) := by
  by_cases h : m < 2 ^ 52
  · exact ⟨0, m, by omega, by omega, by omega⟩
  · exact ⟨m / 2 ^ 52 - 1, m % 2 ^ 52 + 2 ^ 52, by omega, by omega, by omega⟩

theorem units_lt_succ (m : Nat) : units m < units (m + 1) := by
  obtain ⟨k, q, rfl, h1, h2⟩ := grid_of m
  rw [units_grid h1 h2, Nat.add_assoc, units_grid' (by omega) (by omega)]
  exact Nat.mul_lt_mul_of_pos_right (by omega) (Nat.two_pow_pos k)

theorem units_strictMono {a b : Nat} (h : a < b) : units a < units b := by
  induction b with
  | zero => omega
  | succ b ih =>
    rcases Nat.lt_or_ge a b with h' | h'
    · exact Nat.lt_trans (ih h') (units_lt_succ b)
    · have : a = b := by omega
      subst this; exact units_lt_succ a

theorem units_mono {a b : Nat} (h : a ≤ b) : units a ≤ units b := by
  rcases Nat.lt_or_eq_of_le h with h | h
  · exact Nat.le_of_lt (units_strictMono h)
  · rw [h]; exact Nat.le_refl _

theorem units_inj {a b : Nat} (h : units a = units b) : a = b := by
  rcases Nat.lt_trichotomy a b with h' | h' | h'
  · have := units_strictMono h'; omega
  · exact h'
  · have := units_strictMono h'; omega

/-- Scale used by `roundMag`. -/
def scaleOf (t : Nat) : Nat := if t < 2 ^ 53 then 0 else Nat.log2 t - 52

theorem roundMag_eq (n d : Nat) :
    roundMag n d = scaleOf (n / d) * 2 ^ 52 + divRNE n (d * 2 ^ scaleOf (n / d)) := rfl

theorem scale_bounds (t : Nat) :
    t / 2 ^ scaleOf t < 2 ^ 53 ∧ (scaleOf t = 0 ∨ 2 ^ 52 ≤ t / 2 ^ scaleOf t) := by
  unfold scaleOf
  split
  · simp; assumption
  · rename_i h
    have ht : t ≠ 0 := by omega
    have h1 : 2 ^ Nat.log2 t ≤ t := Nat.log2_self_le ht
    have h2 : t < 2 ^ (Nat.log2 t + 1) := Nat.lt_log2_self
    have h3 : 53 ≤ Nat.log2 t := (Nat.le_log2 ht).2 (by omega)
    constructor
    · rw [Nat.div_lt_iff_lt_mul (Nat.two_pow_pos _), ← Nat.pow_add]
      have : 53 + (Nat.log2 t - 52) = Nat.log2 t + 1 := by omega
      rw [this]; exact h2
    · right
      rw [Nat.le_div_iff_mul_le (Nat.two_pow_pos _), ← Nat.pow_add]
      have : 52 + (Nat.log2 t - 52) = Nat.log2 t := by omega
      rw [this]; exact h1

theorem divRNE_scale (n d c : Nat) (hc : 0 < c) : divRNE (n * c) (d * c) = divRNE n d := by
  unfold divRNE
  rw [Nat.mul_div_mul_right _ _ hc, Nat.mul_mod_mul_right]
  have a : (2 * (n % d * c) < d * c) ↔ 2 * (n % d) < d := by
    rw [← Nat.mul_assoc]; exact Nat.mul_lt_mul_right hc
  have b : (d * c < 2 * (n % d * c)) ↔ d < 2 * (n % d) := by
    rw [← Nat.mul_assoc]; exact Nat.mul_lt_mul_right hc
  simp only [a, b]

/-- Rounding depends on the ratio only. -/
theorem roundMag_scale (n d c : Nat) (hc : 0 < c) : roundMag (n * c) (d * c) = roundMag n d := by
  rw [roundMag_eq, roundMag_eq, Nat.mul_div_mul_right _ _ hc, Nat.mul_right_comm, divRNE_scale _ _ _ hc]

theorem roundMag_ratio {n d n' d' : Nat} (hd : 0 < d) (hd' : 0 < d') (h : n * d' = n' * d) :
    roundMag n d = roundMag n' d' := by
  rw [← roundMag_scale n d d' hd', h, Nat.mul_comm d d', roundMag_scale _ _ _ hd]

/-- Rounding a float64's exact value gives that float64. -/
theorem roundMag_units (m d : Nat) (hd : 0 < d) : roundMag (units m * d) d = m := by
  have := roundMag_scale (units m) 1 d hd
  rw [Nat.one_mul] at this
  rw [this, roundMag_eq]
  simp only [Nat.div_one, Nat.one_mul]
  obtain ⟨k, q, rfl, h1, h2⟩ := grid_of m
  have hk : scaleOf (units (k * 2 ^ 52 + q)) = k := by
    rw [units_grid h1 h2]
    unfold scaleOf
    rcases Nat.eq_zero_or_pos k with hk | hk
    · subst hk; simp [h1]
    · have hq : 2 ^ 52 ≤ q := by omega
      have hp : 2 ≤ 2 ^ k := by
        calc 2 = 2 ^ 1 := rfl
          _ ≤ 2 ^ k := Nat.pow_le_pow_right (by omega) hk
      have hb : 2 ^ 53 ≤ q * 2 ^ k := by
        calc 2 ^ 53 = 2 ^ 52 * 2 := by omega
          _ ≤ q * 2 ^ k := Nat.mul_le_mul hq hp
      rw [if_neg (by omega)]
      have hne : q * 2 ^ k ≠ 0 := by omega
      have a1 : 52 + k ≤ Nat.log2 (q * 2 ^ k) := by
        rw [Nat.le_log2 hne, Nat.pow_add]; exact Nat.mul_le_mul_right _ hq
      have a2 : Nat.log2 (q * 2 ^ k) < 53 + k := by
        rw [Nat.log2_lt hne, Nat.pow_add]; exact Nat.mul_lt_mul_of_pos_right h1 (Nat.two_pow_pos k)
      omega
  rw [hk, units_grid h1 h2]
  unfold divRNE
  rw [Nat.mul_div_cancel _ (Nat.two_pow_pos k), Nat.mul_mod_left]
  simp [Nat.two_pow_pos]

theorem nearest_between {d m : Nat} (m' : Nat) :
    m' ≤ m ∧ units m' * d ≤ units m * d ∧ (m' ≠ m → 0 < d → units m' * d < units m * d) ∨
    m + 1 ≤ m' ∧ units (m + 1) * d ≤ units m' * d ∧ (m' ≠ m + 1 → 0 < d → units (m + 1) * d < units m' * d) := by
  rcases Nat.lt_or_ge m m' with h | h
  · right
    refine ⟨h, Nat.mul_le_mul_right _ (units_mono h), fun hn hd => ?_⟩
    exact Nat.mul_lt_mul_of_pos_right (units_strictMono (by omega)) hd
  · left
    refine ⟨h, Nat.mul_le_mul_right _ (units_mono h), fun hn hd => ?_⟩
    exact Nat.mul_lt_mul_of_pos_right (units_strictMono (by omega)) hd

/-- `roundMag` is correct rounding. -/
theorem roundMag_nearest (n d : Nat) (hd : 0 < d) : Nearest n d (roundMag n d) := by
  rw [roundMag_eq]
  obtain ⟨b1, b2⟩ := scale_bounds (n / d)
  generalize scaleOf (n / d) = k at b1 b2 ⊢
  rw [Nat.div_div_eq_div_mul] at b1 b2
  have hD : 0 < d * 2 ^ k := Nat.mul_pos hd (Nat.two_pow_pos k)
  have hdm := Nat.div_add_mod n (d * 2 ^ k)
  have hr := Nat.mod_lt n hD
  unfold divRNE
  simp only
  generalize hq : n / (d * 2 ^ k) = q at *
  generalize hrr : n % (d * 2 ^ k) = r at *
  have u1 : units (k * 2 ^ 52 + q) * d = q * (d * 2 ^ k) := by
    rw [units_grid b1 b2, Nat.mul_assoc, Nat.mul_comm (2 ^ k) d]
  have u2 : units (k * 2 ^ 52 + q + 1) * d = q * (d * 2 ^ k) + d * 2 ^ k := by
    rw [Nat.add_assoc, units_grid' (by omega) (by omega), Nat.mul_assoc, Nat.mul_comm (2 ^ k) d, Nat.succ_mul]
  have hpar : (k * 2 ^ 52 + q) % 2 = q % 2 := by omega
  have hdm' : q * (d * 2 ^ k) + r = n := by rw [Nat.mul_comm]; exact hdm
  obtain ⟨m, hM⟩ : ∃ m, m = k * 2 ^ 52 + q := ⟨_, rfl⟩
  rw [← hM] at u1 u2 hpar
  have hM' : ∀ x, (k * 2 ^ 52 + (q + x)) = m + x := by intro x; omega
  obtain ⟨D, hDD⟩ : ∃ D, D = d * 2 ^ k := ⟨_, rfl⟩
  rw [← hDD] at u1 u2 hdm' hD hr ⊢
  obtain ⟨Q, hQ⟩ : ∃ Q, Q = q * D := ⟨_, rfl⟩
  rw [← hQ] at u1 u2 hdm'
  clear hdm hq hrr
  have key := fun m' => nearest_between (d := d) (m := m) m'
  rw [show (k * 2 ^ 52 + if 2 * r < D then q else if D < 2 * r then q + 1 else if q % 2 = 0 then q else q + 1)
      = if 2 * r < D then m else if D < 2 * r then m + 1 else if m % 2 = 0 then m else m + 1 from by
    rw [hpar]; split <;> (try split) <;> (try split) <;> omega]
  intro m'
  have hk := key m'
  have cast1 : ((units m : Int) * d) = ((units m * d : Nat) : Int) := by push_cast; rfl
  have cast2 : ((units (m + 1) : Int) * d) = ((units (m + 1) * d : Nat) : Int) := by push_cast; rfl
  have cast3 : ((units m' : Int) * d) = ((units m' * d : Nat) : Int) := by push_cast; rfl
  by_cases c1 : 2 * r < D
  · simp only [c1, if_true, cast1, cast3, u1]
    generalize units m' * d = U at *
    rw [u1, u2] at hk
    constructor
    · omega
    · intro he; left
      by_cases e1 : m' = m
      · exact e1
      · exfalso
        rcases hk with ⟨x, y, z⟩ | ⟨x, y, z⟩
        · have := z e1 hd; omega
        · omega
  · by_cases c2 : D < 2 * r
    · simp only [c1, c2, if_true, if_false, cast2, cast3, u2]
      generalize units m' * d = U at *
      rw [u1, u2] at hk
      constructor
      · omega
      · intro he; left
        by_cases e1 : m' = m + 1
        · exact e1
        · exfalso
          rcases hk with ⟨x, y, z⟩ | ⟨x, y, z⟩
          · omega
          · have := z e1 hd; omega
    · simp only [c1, c2, if_false]
      by_cases c3 : m % 2 = 0
      · simp only [c3, if_true, cast1, cast3, u1]
        generalize units m' * d = U at *
        rw [u1, u2] at hk
        exact ⟨by omega, fun _ => Or.inr trivial⟩
      · simp only [c3, if_false, cast2, cast3, u2]
        generalize units m' * d = U at *
        rw [u1, u2] at hk
        exact ⟨by omega, fun _ => Or.inr (by omega)⟩

/-- The nearest magnitude is unique. -/
theorem Nearest.unique {n d m m' : Nat} (hd : 0 < d) (h : Nearest n d m) (h' : Nearest n d m') : m = m' := by
  have a := h m'
  have b := h' m
  have e : ((units m * d : Int) - n).natAbs = ((units m' * d : Int) - n).natAbs := Nat.le_antisymm a.1 b.1
  rcases a.2 e with r | r
  · exact r.symm
  rcases b.2 e.symm with r' | r'
  · exact r'
  -- both even and equally far: an odd magnitude between them would be closer
  apply Classical.byContradiction
  intro hne
  have key : ∀ x y : Nat, x < y → x % 2 = 0 → y % 2 = 0 → Nearest n d x →
      ((units x * d : Int) - n).natAbs = ((units y * d : Int) - n).natAbs → False := by
    intro x y hxy hx hy hX he
    have c := (hX (x + 1)).1
    have s1 := Nat.mul_lt_mul_of_pos_right (units_strictMono (Nat.lt_succ_self x)) hd
    have s2 := Nat.mul_lt_mul_of_pos_right (units_strictMono (show x + 1 < y by omega)) hd
    simp only [Nat.succ_eq_add_one] at s1
    have c1 : ((units x : Int) * d) = ((units x * d : Nat) : Int) := by push_cast; rfl
    have c2 : ((units y : Int) * d) = ((units y * d : Nat) : Int) := by push_cast; rfl
    have c3 : ((units (x + 1) : Int) * d) = ((units (x + 1) * d : Nat) : Int) := by push_cast; rfl
    rw [c1, c2] at he
    rw [c1, c3] at c
    omega
  rcases Nat.lt_or_gt_of_ne hne with hl | hl
  · exact key m m' hl r r' h e
  · exact key m' m hl r' r h' e.symm

end F64
end Verif

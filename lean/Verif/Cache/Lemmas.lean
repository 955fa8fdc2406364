import Verif.Cache.Spec
import Verif.StrconvProps
/-!
# Helper lemmas about the cache model
-/
namespace Verif
open Cache

theorem Cache.ext' {c d : Cache} (h1 : ∀ k, c.data k = d.data k) (h2 : ∀ k, c.exp k = d.exp k) :
    c = d := by
  cases c; cases d; simp only [Cache.mk.injEq]; exact ⟨funext h1, funext h2⟩

/-- Agreement of two caches on one key. -/
def SameAt (c d : Cache) (k : Bytes) : Prop := c.data k = d.data k ∧ c.exp k = d.exp k

theorem load_snd (c : Cache) (t : Int) (k : Bytes) : (c.load t k).2 = liveVal c t k := by
  unfold load liveVal expired
  cases c.data k with
  | none => rfl
  | some v =>
    cases c.exp k with
    | none => rfl
    | some d => by_cases h : d < t <;> simp [h]

theorem load_fst_of_stale {c : Cache} {t : Int} {k : Bytes} (h : Stale c t k) :
    (c.load t k).1 = { data := upd c.data k none, exp := upd c.exp k none } := by
  obtain ⟨h1, d, h2, h3⟩ := h
  unfold load expired
  cases hd : c.data k with
  | none => exact absurd hd h1
  | some v => simp [h2, h3]

theorem load_fst_of_not_stale {c : Cache} {t : Int} {k : Bytes} (h : ¬ Stale c t k) :
    (c.load t k).1 = c := by
  unfold load expired
  cases hd : c.data k with
  | none => rfl
  | some v =>
    cases he : c.exp k with
    | none => rfl
    | some d =>
      by_cases hlt : d < t
      · exact absurd ⟨by simp [hd], d, he, hlt⟩ h
      · simp [hlt]

theorem stale_dec (c : Cache) (t : Int) (k : Bytes) : Stale c t k ∨ ¬ Stale c t k := Classical.em _

theorem load_other {c : Cache} {t : Int} {k k' : Bytes} (h : k' ≠ k) :
    SameAt (c.load t k).1 c k' := by
  rcases stale_dec c t k with hs | hs
  · rw [load_fst_of_stale hs]; simp [SameAt, h]
  · rw [load_fst_of_not_stale hs]; simp [SameAt]

theorem liveVal_congr {c d : Cache} {k : Bytes} (h : SameAt c d k) (t : Int) :
    liveVal c t k = liveVal d t k := by
  unfold liveVal; rw [h.1, h.2]

/-- Loading a key sweeps it only when it is invisible anyway. -/
theorem liveVal_load (c : Cache) {s t : Int} (k k' : Bytes) (h : s ≤ t) :
    liveVal (c.load s k).1 t k' = liveVal c t k' := by
  by_cases hk : k' = k
  · subst hk
    rcases stale_dec c s k' with hs | hs
    · rw [load_fst_of_stale hs]
      obtain ⟨h1, d, h2, h3⟩ := hs
      unfold liveVal
      cases hd : c.data k' with
      | none => exact absurd hd h1
      | some v => simp [h2]; omega
    · rw [load_fst_of_not_stale hs]
  · exact liveVal_congr (load_other hk) t

theorem liveVal_none_of_stale {c : Cache} {t : Int} {k : Bytes} (h : Stale c t k) :
    liveVal c t k = none := by
  obtain ⟨h1, d, h2, h3⟩ := h
  unfold liveVal
  cases hd : c.data k with
  | none => rfl
  | some v => simp [h2, h3]

theorem liveVal_of_not_stale {c : Cache} {t : Int} {k : Bytes} (h : ¬ Stale c t k) :
    liveVal c t k = c.data k := by
  unfold liveVal
  cases hd : c.data k with
  | none => rfl
  | some v =>
    cases he : c.exp k with
    | none => rfl
    | some d =>
      by_cases hlt : d < t
      · exact absurd ⟨by simp [hd], d, he, hlt⟩ h
      · simp [hlt]

theorem NotPassed.not_stale {c : Cache} {t : Int} {k : Bytes} (h : NotPassed c t k) :
    ¬ Stale c t k := by
  rintro ⟨_, d, h2, h3⟩; have := h d h2; omega

theorem liveVal_of_notPassed {c : Cache} {t : Int} {k : Bytes} (h : NotPassed c t k) :
    liveVal c t k = c.data k := liveVal_of_not_stale h.not_stale

/-- What `Get` answers for a visible value. -/
def showVal : Option Val → Res Bytes
  | none => .err .keyNil
  | some v => fmtString v

theorem get_snd (c : Cache) (t : Int) (k : Bytes) : (c.get t k).2 = showVal (liveVal c t k) := by
  unfold Cache.get
  rw [← load_snd]
  generalize c.load t k = p
  obtain ⟨c', o⟩ := p
  cases o <;> rfl

theorem get_fst (c : Cache) (t : Int) (k : Bytes) : (c.get t k).1 = (c.load t k).1 := by
  unfold Cache.get
  generalize c.load t k = p
  obtain ⟨c', o⟩ := p
  cases o <;> rfl

theorem fmtScalar_tryInt64 (v : Bytes) : fmtScalar (tryInt64 v) = canon v := by
  unfold tryInt64 canon
  cases atoi v with
  | some n => rfl
  | none => cases parseFloat v <;> rfl

theorem canon_of_nonNumeric {v : Bytes} (h : NonNumeric v) : canon v = v := by
  simp [canon, h.1, h.2]

theorem canon_itoa (n : Int64) : canon (itoa n) = itoa n := by
  simp [canon, atoi_itoa]

theorem canon_of_verbatim {v : Bytes} (h : Verbatim v) : canon v = v := by
  rcases h with h | ⟨n, rfl⟩
  · exact canon_of_nonNumeric h
  · exact canon_itoa n

theorem mGet_fst_cons (c : Cache) (t : Int) (k : Bytes) (ks : List Bytes) :
    (c.mGet t (k :: ks)).1 = ((c.load t k).1.mGet t ks).1 := by
  simp [mGet, get_fst]

theorem liveVal_mGet (c : Cache) {s t : Int} (ks : List Bytes) (k : Bytes) (h : s ≤ t) :
    liveVal (c.mGet s ks).1 t k = liveVal c t k := by
  induction ks generalizing c with
  | nil => rfl
  | cons j ks ih => rw [mGet_fst_cons, ih, liveVal_load _ _ _ h]

theorem getHash_fst (c : Cache) (t : Int) (k : Bytes) : (c.getHash t k).1 = (c.load t k).1 := by
  unfold getHash
  generalize c.load t k = p
  obtain ⟨c', o⟩ := p
  rcases o with _ | (_ | _ | _) <;> rfl

/-- The hash entry seen by a hash call. -/
def asHash : Option Val → Res (Option HashEntry)
  | none => .ok none
  | some (.hash h) => .ok (some h)
  | some _ => .err .wrongType

theorem getHash_snd (c : Cache) (t : Int) (k : Bytes) : (c.getHash t k).2 = asHash (liveVal c t k) := by
  unfold getHash
  rw [← load_snd]
  generalize c.load t k = p
  obtain ⟨c', o⟩ := p
  rcases o with _ | (_ | _ | _) <;> rfl

theorem readHash_fst {α : Type} (c : Cache) (t : Int) (k : Bytes) (f : Option HashEntry → Res α) :
    (c.readHash t k f).1 = (c.load t k).1 := by
  unfold readHash
  rw [← getHash_fst]
  generalize c.getHash t k = p
  obtain ⟨c', o⟩ := p
  cases o <;> rfl

theorem readHash_snd {α : Type} (c : Cache) (t : Int) (k : Bytes) (f : Option HashEntry → Res α) :
    (c.readHash t k f).2 = (asHash (liveVal c t k)).bind f := by
  unfold readHash
  rw [← getHash_snd]
  generalize c.getHash t k = p
  obtain ⟨c', o⟩ := p
  cases o <;> rfl

theorem withHash_snd {α : Type} (c : Cache) (t : Int) (k : Bytes) (f : HashEntry → HashEntry × Res α) :
    (c.withHash t k f).2 = (asHash (liveVal c t k)).bind (fun o => (f (o.getD HashEntry.empty)).2) := by
  unfold withHash
  rw [← getHash_snd]
  generalize c.getHash t k = p
  obtain ⟨c', o⟩ := p
  cases o <;> rfl

theorem withHash_fst {α : Type} (c : Cache) (t : Int) (k : Bytes) (f : HashEntry → HashEntry × Res α) :
    (c.withHash t k f).1 = match asHash (liveVal c t k) with
      | .ok o => (c.load t k).1.store k (.hash (f (o.getD HashEntry.empty)).1)
      | _ => (c.load t k).1 := by
  unfold withHash
  rw [← getHash_snd, ← getHash_fst]
  generalize c.getHash t k = p
  obtain ⟨c', o⟩ := p
  cases o <;> rfl

end Verif

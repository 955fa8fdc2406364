import Verif.Cache.PropsRef
/-!
# C90: exactly which calls are answered as by Redis

`Ref.Safe` is a list of situations in which a call agrees with the reference.  Here the list is made
exact: `Alike` says precisely when one call, made on a cache and a store that agree, gives the
same answer and leaves them in agreement.
-/
namespace Verif.Ref
open Verif Cache

variable {t : Int} {c : Cache} {st : Store}

/-- The last value a list of pairs gives to a key. -/
def lastVal : List (Bytes × Bytes) → Bytes → Option Bytes
  | [], _ => none
  | (k, v) :: kv, j => match lastVal kv j with
    | some w => some w
    | none => if k = j then some v else none

/-- The sum is an `int64`. -/
def Fits (n : Int) : Prop := -(2 ^ 63) ≤ n ∧ n < 2 ^ 63

/-- Adding `n` at `k`: nothing dead lies there, and the sum fits.  (Or both sides refuse: something dead that is no integer lies
there, and `n` itself does not fit, as in `DecrBy` of the least integer.) -/
def Adds (c : Cache) (st : Store) (t : Int) (k : Bytes) (n : Int) : Prop :=
  (¬ Stale c t k ∧ ∀ s m, text st t k (.ok b!"0") = .ok s → atoi s = some m → Fits (m.toInt + n)) ∨
    (Stale c t k ∧ ¬ Fits n ∧ (c.incrBy k 0).2 = .err .wrongType)

/-- The calls the reference describes completely. -/
def Told : Call → Prop
  | .incrByFloat _ _ | .hIncrByFloat _ _ _ | .list _ => False
  | _ => True

/-- When a call on cache `c` does as on the store `st`.  Against `Safe` it says what the cache still holds
of keys whose deadline has passed, and what a hash holds its fields as. -/
def Alike (c : Cache) (st : Store) (t : Int) : Call → Prop
  | .set k v => canon v = v ∧ c.exp k = none
  | .setNX k v => ¬ Stale c t k ∧ (c.data k = none → canon v = v)
  | .setEX _ v n => canon v = v ∧ 0 < n.toInt ∧ 1000000000 * n.toInt < 2 ^ 63
  | .pSetEX _ v n => canon v = v ∧ 0 < n.toInt ∧ 1000000 * n.toInt < 2 ^ 63
  | .getSet k v => canon v = v ∧ (∀ e, live st t k = some e → e.dl = none) ∧ ∀ m, view st t k ≠ some (.hash m)
  | .append k v => ∀ s, text st t k (.ok []) = .ok s → canon (s ++ v) = s ++ v
  | .setRange k p r => 0 ≤ p.toInt → ∀ s, text st t k (.ok []) = .ok s →
      (r = [] ∧ (view st t k).isSome = true ∧ p.toInt ≤ s.length ∧ p.toInt ≤ maxAlloc) ∨
      (r ≠ [] ∧ p.toInt + r.length ≤ maxText ∧ canon (overwrite s p.toInt.toNat r) = overwrite s p.toInt.toNat r)
  | .incr k => Adds c st t k 1
  | .incrBy k n => Adds c st t k n.toInt
  | .decr k => Adds c st t k (-1)
  | .decrBy k n => Adds c st t k (-n.toInt)
  | .mSet kv => ∀ k v, lastVal kv k = some v → canon v = v ∧ c.exp k = none
  | .mSetNX kv => ((∃ p ∈ kv, (view st t p.1).isSome = true) ∧ ∀ p ∈ kv, c.data p.1 ≠ none) ∨
      ∃ k v kv' w, kv = (k, v) :: kv' ∧ (∀ p ∈ kv', p.1 = k) ∧ lastVal kv k = some w ∧ c.data k = none ∧ ScRel (tryInt64 v) w
  | .exists_ ks => ∀ k ∈ ks, ¬ Stale c t k
  | .type k => ∀ m, view st t k ≠ some (.hash m)
  | .mGet ks => ∀ k ∈ ks, ∀ m, view st t k ≠ some (.hash m)
  | .hSet k _ v => ∀ m, fields st t k = .ok m → canon v = v
  | .hExists k f => ∀ m, fields st t k = .ok m → fget m f = none
  | .hDel k fs => ∀ m, fields st t k = .ok m → m ≠ [] → fdel m fs ≠ []
  | .hIncrBy k f n => ∀ h sc, liveVal c t k = some (.hash h) → hfind h.fields f = some sc →
      ((∃ y, hIncrScalar n sc = .ok y) ∧ fmtScalar sc = b!"0") ∨
      ((∀ y, hIncrScalar n sc ≠ .ok y) ∧ ∀ x, atoi (fmtScalar sc) = some x → ¬ Fits (x.toInt + n.toInt))
  | .hMSet k fv => ∀ m, fields st t k = .ok m → (fv = [] → m ≠ []) ∧ ∀ f v, lastVal fv f = some v → canon v = v
  | .hKeys k => fields st t k ≠ .ok []
  | .hVals k => fields st t k ≠ .ok [] ∧ ∀ h, liveVal c t k = some (.hash h) → ∀ p ∈ h.fields, ∃ s, p.2 = .str s
  | .hGetAll k => ∀ m, fields st t k ≠ .ok m
  | .cronTick => (zeroTime < t ∧ ∀ k, live st t k = none) ∨ (t ≤ zeroTime ∧ ∀ k, c.data k ≠ none → c.exp k = none)
  | .get _ | .strLen _ | .getRange _ _ _ | .del _ | .flush | .hSetNX _ _ _ | .hLen _ | .hStrLen _ _ | .hGet _ _
  | .hMGet _ _ => True
  | .incrByFloat _ _ | .hIncrByFloat _ _ _ | .list _ => False

/-! ## What a write must leave -/

theorem live_dl {k : Bytes} {e : Entry} {d : Int} (h : live st t k = some e) (hd : e.dl = some d) : t ≤ d := by
  have h := Option.filter_eq_some_iff.1 h
  simpa [hd] using h.2

theorem Rel.some_iff {w : Val} {x dl : Option Int} {v : RVal} (hl : ∀ d, dl = some d → t ≤ d) :
    Rel t (some w) x (some ⟨v, dl⟩) ↔ ValRel w v ∧ x = dl := by
  constructor
  · rintro (⟨w', h1, h2, h3⟩ | ⟨_, d, h1, h2⟩)
    · cases h1; exact ⟨h2, h3⟩
    · have := hl d h1; omega
  · rintro ⟨h1, h2⟩; exact .inl ⟨w, rfl, h1, h2⟩

theorem Sim.store_iff (r : Sim t c st) (k : Bytes) {w : Val} {v : RVal} {dl : Option Int} (hl : ∀ d, dl = some d → t ≤ d) :
    Sim t (c.store k w) (Verif.upd st k (some ⟨v, dl⟩)) ↔ ValRel w v ∧ c.exp k = dl := by
  constructor
  · intro h
    have hk := h k
    simp only [Cache.store, upd_same] at hk
    exact (Rel.some_iff hl).1 hk
  · rintro ⟨h1, h2⟩; exact r.store k h1 h2

theorem Sim.keep_iff {k : Bytes} {o : Option Val} (r : Sim t c st) (hm : Meets t k st c o) {w : Val} {v : RVal} :
    Sim t (c.store k w) (Ref.keep st t k v) ↔ ValRel w v := by
  constructor
  · intro h
    refine ((r.store_iff k ?_).1 h).1
    intro d hd
    cases hl : live st t k with
    | none => rw [hl] at hd; cases hd
    | some e => rw [hl] at hd; exact live_dl hl hd
  · exact r.keep hm

theorem valRel_text {v : Bytes} : ValRel (.scalar (tryInt64 v)) (.str v) ↔ canon v = v := by
  constructor
  · rintro ⟨sc, h1, h2⟩
    cases h1
    rw [← fmtScalar_tryInt64]; exact h2.fmt
  · exact .of_canon

theorem Sim.put_iff (r : Sim t c st) (k v : Bytes) :
    Sim t (c.store k (.scalar (tryInt64 v))) (put st k v) ↔ canon v = v ∧ c.exp k = none := by
  unfold put
  rw [r.store_iff k (fun d h => by cases h), valRel_text]

theorem ScRel.canon {sc : Scalar} {s : Bytes} (h : ScRel sc s) : Verif.canon s = s := by
  rcases h with ⟨_, h⟩ | ⟨n, _, rfl⟩ | ⟨x, _, rfl, h⟩
  · exact canon_of_nonNumeric h
  · exact canon_itoa n
  · cases hn : x.isNaN with
    | true =>
      have : formatFloat x = b!"NaN" := by simp [formatFloat, hn]
      rw [this]; decide
    | false => simp [Verif.canon, h, parseFloat_formatFloat hn]

theorem exact_set (r : Sim t c st) (k v : Bytes) : Step t c st (.set k v) ↔ Alike c st t (.set k v) := by
  unfold Step
  simp only [Verif.exec, Cache.set, exec]
  rw [r.put_iff]
  exact and_iff_right rfl

theorem exact_setNX (r : Sim t c st) (k v : Bytes) : Step t c st (.setNX k v) ↔ Alike c st t (.setNX k v) := by
  have rk := r k
  unfold Step Alike
  simp only [Verif.exec, Cache.setNX, exec]
  cases hd : c.data k with
  | none =>
    have hs : ¬ Stale c t k := fun h => h.1 hd
    have hx : c.exp k = none := by
      cases hst : st k with
      | none => rw [hst] at rk; exact rk.2
      | some e =>
        rw [hst, hd] at rk
        rcases rk with ⟨w, h, _⟩ | ⟨⟨_, h⟩ | ⟨h, _⟩, _⟩
        · cases h
        · exact h
        · exact absurd rfl h
    have hv : view st t k = none := by
      have := (r.load k).2
      rw [load_snd, liveVal, hd] at this
      cases this with | absent h _ _ => simp [view, h]
    simp only [hv, Option.isSome_none, Bool.false_eq_true, if_false]
    rw [r.put_iff]
    simp [hs, hx, GoRes.map, GoRes.bind]
  | some w =>
    by_cases hs : Stale c t k
    · have := (r.load k).2
      rw [load_snd, liveVal_none_of_stale hs] at this
      have hv : view st t k = none := by cases this with | absent h _ _ => simp [view, h]
      simp [hs, hv, GoRes.map, GoRes.bind]
    · have := (r.load k).2
      rw [load_snd, liveVal_of_not_stale hs, hd] at this
      have hv : (view st t k).isSome := by cases this with | present e w h _ _ _ => simp [view, h]
      simp [hs, hv, r, GoRes.map, GoRes.bind]

theorem exact_expires {a n : Int64} (r : Sim t c st) (k v : Bytes) (ha : 0 < a.toInt) (hn : 0 < n.toInt) :
    Sim t ((c.store k (.scalar (tryInt64 v))).expires t k (a * n))
      (Verif.upd st k (some ⟨.str v, some (t + a.toInt * n.toInt)⟩)) ↔ canon v = v ∧ a.toInt * n.toInt < 2 ^ 63 := by
  constructor
  · intro h
    have hp : 0 < a.toInt * n.toInt := Int.mul_pos ha hn
    have hk := h k
    simp only [upd_same, Cache.expires] at hk
    have hd : ∀ x : Cache, x.data k = some (.scalar (tryInt64 v)) → ∀ y, Rel t (x.data k) y (some ⟨.str v, some (t + a.toInt * n.toInt)⟩) →
        canon v = v ∧ y = some (t + a.toInt * n.toInt) := by
      intro x hx y hy
      rw [hx] at hy
      have := (Rel.some_iff (fun d h => by cases h; omega)).1 hy
      exact ⟨valRel_text.1 this.1, this.2⟩
    split at hk
    · have := (hd _ (by simp [Cache.store]) _ hk).2
      simp at this
    · obtain ⟨h1, h2⟩ := hd _ (by simp [Cache.store]) _ hk
      refine ⟨h1, ?_⟩
      simp only [upd_same, Option.some.injEq] at h2
      have := (a * n).toInt_lt
      omega
  · rintro ⟨h1, h2⟩; exact step_expires r k v h1 ha hn h2

theorem exact_setEX (r : Sim t c st) (k v : Bytes) (n : Int64) : Step t c st (.setEX k v n) ↔ Alike c st t (.setEX k v n) := by
  have e : (1000000000 : Int64).toInt = 1000000000 := by decide
  unfold Step Alike
  simp only [Verif.exec, Cache.setEX, exec]
  by_cases hn : n.toInt ≤ 0
  · simp only [if_pos hn]
    constructor
    · rintro ⟨h, _⟩; simp at h
    · rintro ⟨_, h, _⟩; omega
  · simp only [if_neg hn]
    have := exact_expires (a := 1000000000) (n := n) r k v (by rw [e]; omega) (by omega)
    rw [e] at this
    rw [this]
    constructor
    · rintro ⟨_, h1, h2⟩; exact ⟨h1, by omega, h2⟩
    · rintro ⟨h1, _, h2⟩; exact ⟨rfl, h1, h2⟩

theorem exact_pSetEX (r : Sim t c st) (k v : Bytes) (n : Int64) : Step t c st (.pSetEX k v n) ↔ Alike c st t (.pSetEX k v n) := by
  have e : (1000000 : Int64).toInt = 1000000 := by decide
  unfold Step Alike
  simp only [Verif.exec, Cache.pSetEX, exec]
  by_cases hn : n.toInt ≤ 0
  · simp only [if_pos hn]
    constructor
    · rintro ⟨h, _⟩; simp at h
    · rintro ⟨_, h, _⟩; omega
  · simp only [if_neg hn]
    have := exact_expires (a := 1000000) (n := n) r k v (by rw [e]; omega) (by omega)
    rw [e] at this
    rw [this]
    constructor
    · rintro ⟨_, h1, h2⟩; exact ⟨h1, by omega, h2⟩
    · rintro ⟨h1, _, h2⟩; exact ⟨rfl, h1, h2⟩

theorem exact_getSet (r : Sim t c st) (k v : Bytes) : Step t c st (.getSet k v) ↔ Alike c st t (.getSet k v) := by
  refine ⟨?_, step_getSet r k v⟩
  obtain ⟨r', hm⟩ := r.load k
  unfold Step Alike
  simp only [Verif.exec, Cache.getSet, exec]
  generalize c.load t k = p at *
  obtain ⟨c', o⟩ := p
  cases hm with
  | absent h h1 h2 =>
    simp only [text_absent h]
    rintro ⟨_, hs⟩
    exact ⟨((r'.put_iff k v).1 hs).1, by simp [h], by simp [view, h]⟩
  | present e w h hv' h1 h2 =>
    obtain ⟨x, dl⟩ := e
    cases x with
    | str s =>
      obtain ⟨sc, rfl, hsc⟩ := hv'
      simp only [text_str h]
      rintro ⟨_, hs⟩
      obtain ⟨h3, h4⟩ := (r'.put_iff k v).1 hs
      refine ⟨h3, ?_, by simp [view, h]⟩
      intro e he
      rw [h] at he; cases he
      rw [← h4, h2]
    | hash m =>
      simp only [text_hash h]
      rintro ⟨_, hs⟩
      exfalso
      have hk := hs k
      obtain ⟨hst, hl⟩ := Option.filter_eq_some_iff.1 (show (st k).filter _ = _ from h)
      rw [hst] at hk
      simp only [Cache.store, upd_same] at hk
      have := (Rel.some_iff (fun d hd => live_dl h hd)).1 hk
      obtain ⟨⟨_, h5, _⟩, _⟩ := this
      cases h5

theorem exact_append (r : Sim t c st) (k v : Bytes) : Step t c st (.append k v) ↔ Alike c st t (.append k v) := by
  refine ⟨?_, step_append r k v⟩
  obtain ⟨r', hm⟩ := r.load k
  unfold Step Alike
  simp only [Verif.exec, Cache.append, loadLive, exec]
  rw [hm.text]
  generalize c.load t k = p at *
  obtain ⟨c', o⟩ := p
  cases o with
  | none =>
    rintro ⟨_, hs⟩ s h
    cases h
    exact valRel_text.1 ((r'.keep_iff hm).1 hs)
  | some w =>
    simp only [shown]
    rintro ⟨_, hs⟩ s h
    rw [h] at hs
    exact valRel_text.1 ((r'.keep_iff hm).1 hs)

theorem keep_self {k : Bytes} {e : Entry} (h : live st t k = some e) : keep st t k e.val = st := by
  obtain ⟨hst, _⟩ := Option.filter_eq_some_iff.1 (show (st k).filter _ = _ from h)
  funext j
  by_cases hj : j = k
  · subst hj; simp [keep, h, hst]
  · simp [keep, hj]

/-- Nothing can be stored without deadline where the reference sees nothing. -/
theorem Sim.not_absent {k : Bytes} {w : Val} (h : Sim t (c.store k w) st) (hx : c.exp k = none) (hl : live st t k = none) : False := by
  have hk := h k
  simp only [Cache.store, upd_same, hx] at hk
  cases hst : st k with
  | none => rw [hst] at hk; cases hk.1
  | some e =>
    rw [hst] at hk
    rcases hk with ⟨_, _, _, h1⟩ | ⟨⟨h1, _⟩ | ⟨_, _, h1, _⟩, _⟩
    · simp [live, hst, Option.filter, ← h1] at hl
    · cases h1
    · cases h1

theorem overwrite_none {s : Bytes} {p : Nat} (h : p ≤ s.length) : overwrite s p [] = s := by
  simp only [overwrite, List.append_nil, List.length_nil, Nat.add_zero, Nat.sub_eq_zero_of_le h, List.replicate_zero]
  exact List.take_append_drop p s

theorem exact_setRange (r : Sim t c st) (k : Bytes) (p : Int64) (x : Bytes) :
    Step t c st (.setRange k p x) ↔ Alike c st t (.setRange k p x) := by
  obtain ⟨r', hm⟩ := r.load k
  unfold Step Alike
  simp only [Verif.exec, Cache.setRange, loadLive, exec]
  by_cases hp : p.toInt < 0
  · simp only [if_pos hp]
    exact ⟨fun _ h => absurd h (by omega), fun _ => ⟨trivial, r⟩⟩
  · simp only [if_neg hp]
    have hp' : 0 ≤ p.toInt := by omega
    have ha : p.toInt + x.length ≤ maxText → ¬ maxAlloc < p.toInt := by
      intro h; simp only [maxText] at h; simp only [maxAlloc]; omega
    generalize c.load t k = q at *
    obtain ⟨c', o⟩ := q
    cases hm with
    | absent h h1 h2 =>
      simp only [text_absent h]
      have hv : view st t k = none := by simp [view, h]
      constructor
      · rintro ⟨h3, h4⟩ _ s hs
        cases hs
        refine .inr ?_
        by_cases hx : x = []
        · subst hx
          simp only [if_true] at h3 h4
          split at h4
          · rename_i hl; rw [if_pos hl] at h3; cases h3
          · exact (Sim.not_absent h4 h2 h).elim
        · simp only [if_neg hx] at h3 h4
          by_cases hmx : maxText < p.toInt + x.length
          · rw [if_pos hmx] at h3
            split at h3 <;> cases h3
          · have hl := ha (by omega)
            rw [if_neg hmx, if_neg hl] at h4
            refine ⟨hx, by omega, ?_⟩
            have := (r'.keep_iff (.absent h h1 h2)).1 h4
            rw [overwrite_nil] at this
            exact valRel_text.1 this
      · intro hs
        obtain ⟨_, h3, _⟩ | ⟨hx, hmx, hc⟩ := hs hp' [] rfl
        · rw [hv] at h3; cases h3
        · rw [if_neg hx, if_neg (ha hmx), if_neg (by omega), overwrite_nil]
          exact ⟨rfl, (r'.keep_iff (.absent h h1 h2)).2 (valRel_text.2 hc)⟩
    | present e w h hv h1 h2 =>
      obtain ⟨y, dl⟩ := e
      cases y with
      | hash m =>
        obtain ⟨he, rfl, _⟩ := hv
        simp only [text_hash h, fmtString]
        exact ⟨fun _ _ s hs => (nomatch hs), fun _ => ⟨trivial, r'⟩⟩
      | str s =>
        have hvs : (view st t k).isSome = true := by simp [view, h]
        obtain ⟨sc, rfl, hsc⟩ := hv
        simp only [text_str h, fmtString, hsc.fmt, overwrite_eq]
        have hmt : Meets t k st c' (some (.scalar sc)) := .present _ _ h ⟨sc, rfl, hsc⟩ h1 h2
        constructor
        · rintro ⟨h3, h4⟩ _ s' hs'
          cases hs'
          by_cases hx : x = []
          · subst hx
            simp only [if_true] at h3 h4
            refine .inl ⟨rfl, hvs, ?_⟩
            split at h3
            · cases h3
            · have h3 : ((overwrite s p.toInt.toNat []).length : Int) = s.length := by injection h3 with h3; injection h3
              refine ⟨?_, by omega⟩
              simp only [overwrite, List.length_append, List.length_take, List.length_replicate, List.length_drop, List.length_nil] at h3
              omega
          · simp only [if_neg hx] at h3 h4
            by_cases hmx : maxText < p.toInt + x.length
            · rw [if_pos hmx] at h3
              split at h3 <;> cases h3
            · have hl := ha (by omega)
              rw [if_neg hmx, if_neg hl] at h4
              exact .inr ⟨hx, by omega, valRel_text.1 ((r'.keep_iff hmt).1 h4)⟩
        · intro hs
          obtain ⟨rfl, _, h3, h4⟩ | ⟨hx, hmx, hc⟩ := hs hp' s rfl
          · rw [if_neg (by omega), if_pos rfl, overwrite_none (by omega)]
            refine ⟨rfl, ?_⟩
            have := (r'.keep_iff hmt (v := .str s) (w := .scalar (tryInt64 s))).2 (valRel_text.2 hsc.canon)
            rw [keep_self (e := ⟨.str s, dl⟩) h] at this
            exact this
          · rw [if_neg hx, if_neg (ha hmx), if_neg (by omega)]
            exact ⟨rfl, (r'.keep_iff hmt).2 (valRel_text.2 hc)⟩

theorem incrBy_exp (c : Cache) (k : Bytes) (n : Int64) : (c.incrBy k n).1.exp = c.exp := by
  unfold Cache.incrBy
  split
  · rfl
  · split <;> rfl
  · rfl

theorem incrScalar_none (n m : Int64) (sc : Scalar) : incrScalar n sc = none ↔ incrScalar m sc = none := by
  cases sc <;> simp [incrScalar]

theorem incrBy_err (c : Cache) (k : Bytes) (n m : Int64) :
    (c.incrBy k n).2 = .err .wrongType ↔ (c.incrBy k m).2 = .err .wrongType := by
  unfold Cache.incrBy
  split
  · simp
  · rename_i sc _
    have := incrScalar_none n m sc
    cases h1 : incrScalar n sc <;> cases h2 : incrScalar m sc <;> simp_all
  · simp

theorem incrBy_same {k : Bytes} {n : Int64} (h : (c.incrBy k n).2 = .err .wrongType) : (c.incrBy k n).1 = c := by
  unfold Cache.incrBy at h ⊢
  split
  · rename_i hd; simp [hd] at h
  · rename_i sc hd
    simp only [hd] at h
    split
    · rename_i hi; simp [hi] at h
    · rfl
  · rfl

theorem exact_incrBy (r : Sim t c st) (k : Bytes) (n : Int64) (N : Int) (hN : Int64.ofInt N = n) :
    ((Out.int ((c.incrBy k n).2.map Int64.toInt)) = (addTo st t k N).2 ∧
      Sim t (c.incrBy k n).1 (addTo st t k N).1) ↔ Adds c st t k N := by
  have hfit : ∀ m : Int64, Fits (m.toInt + N) → (m + n).toInt = m.toInt + N := by
    intro m h
    obtain ⟨h1, h2⟩ := h
    rw [← hN, Int64.toInt_add, Int64.toInt_ofInt]
    simp only [Int64.size, Int.add_bmod_bmod]
    rw [Int.bmod_eq_of_le (by omega) (by omega)]
  have h0 : Fits N → n.toInt = N := by
    intro h
    have := hfit 0 (by simpa using h)
    simpa using this
  have e0 : atoi b!"0" = some 0 := by decide +kernel
  have ez : (0 : Int64).toInt = 0 := rfl
  unfold Adds
  by_cases hs : Stale c t k
  · have hm := (r.load k).2
    rw [load_snd, liveVal_none_of_stale hs] at hm
    cases hm with
    | absent hl _ _ =>
    unfold addTo
    simp only [text_absent hl, e0, ez, Int.zero_add]
    obtain ⟨hd, d, hx, hlt⟩ := hs
    by_cases hf : -(2 ^ 63) ≤ N ∧ N < 2 ^ 63
    · rw [if_pos hf]
      constructor
      · rintro ⟨_, h⟩
        have hk := h k
        simp only [keep, upd_same, hl, Option.bind_none, incrBy_exp, hx] at hk
        rcases hk with ⟨_, _, _, h⟩ | ⟨_, _, h, _⟩ <;> cases h
      · rintro (⟨h, _⟩ | ⟨_, h, _⟩)
        · exact absurd ⟨hd, d, hx, hlt⟩ h
        · exact absurd hf h
    · rw [if_neg hf]
      constructor
      · rintro ⟨h, _⟩
        refine .inr ⟨⟨hd, d, hx, hlt⟩, hf, (incrBy_err c k n 0).1 ?_⟩
        cases he : (c.incrBy k n).2 <;> simp_all [GoRes.map, GoRes.bind]
      · rintro (⟨h, _⟩ | ⟨_, _, h⟩)
        · exact absurd ⟨hd, d, hx, hlt⟩ h
        · have := (incrBy_err c k n 0).2 h
          rw [incrBy_same this, this]
          exact ⟨rfl, r⟩
  · have hm := (r.load k).2
    rw [load_snd, liveVal_of_not_stale hs, load_fst_of_not_stale hs] at hm
    have hk := fun {w v} => @Sim.keep_iff t c st k _ r hm w v
    simp only [hs, not_false_iff, true_and, false_and, or_false]
    unfold Cache.incrBy addTo
    revert hm
    cases hd : c.data k with
    | none =>
      intro hm
      rw [hm.text]
      simp only [shown, e0, ez, Int.zero_add]
      constructor
      · rintro ⟨h, _⟩ s m h1 h2
        cases h1
        rw [e0] at h2; cases h2
        rw [ez, Int.zero_add]
        by_cases hf : -(2 ^ 63) ≤ N ∧ N < 2 ^ 63
        · exact hf
        · rw [if_neg hf] at h; cases h
      · intro h
        have hf : -(2 ^ 63) ≤ N ∧ N < 2 ^ 63 := by have := h _ 0 rfl e0; rwa [ez, Int.zero_add] at this
        rw [if_pos hf]
        refine ⟨by simp [GoRes.map, GoRes.bind, h0 hf], hk.2 ⟨_, rfl, .inr (.inl ⟨n, .inr rfl, by rw [itoa, h0 hf]⟩)⟩⟩
    | some w =>
      intro hm
      rw [hm.text]
      cases hm with
      | present e w h hv h1 h2 =>
        obtain ⟨x, dl⟩ := e
        cases x with
        | hash m =>
          obtain ⟨he, rfl, _⟩ := hv
          exact ⟨fun _ s m h => (nomatch h), fun _ => ⟨rfl, r⟩⟩
        | str s =>
          obtain ⟨sc, rfl, hsc⟩ := hv
          simp only [shown, fmtString, hsc.fmt]
          rcases hsc with ⟨rfl, hn⟩ | ⟨m, hm, rfl⟩ | ⟨y, rfl, rfl, hn⟩
          · simp only [hn.1]
            exact ⟨fun _ s' m h1 h2 => (by cases h1; rw [hn.1] at h2; cases h2), fun _ => ⟨rfl, r⟩⟩
          · simp only [atoi_itoa]
            have hi : ∃ w, incrScalar n sc = some (w, m + n) ∧ (Fits (m.toInt + N) → ScRel w (itoaInt (m.toInt + N))) := by
              rcases hm with rfl | rfl
              · exact ⟨_, rfl, fun hf => .inr (.inl ⟨m + n, .inl rfl, by rw [itoa, hfit m hf]⟩)⟩
              · exact ⟨_, rfl, fun hf => .inr (.inl ⟨m + n, .inr rfl, by rw [itoa, hfit m hf]⟩)⟩
            obtain ⟨w, hi, hw⟩ := hi
            simp only [hi]
            by_cases hf : -(2 ^ 63) ≤ m.toInt + N ∧ m.toInt + N < 2 ^ 63
            · rw [if_pos hf]
              refine ⟨fun _ s' m' h1 h2 => by cases h1; rw [atoi_itoa] at h2; cases h2; exact hf, fun _ => ⟨?_, hk.2 ⟨w, rfl, hw hf⟩⟩⟩
              simp [GoRes.map, GoRes.bind, hfit m hf]
            · rw [if_neg hf]
              refine ⟨fun h => (nomatch h.1), fun h => absurd (h _ m rfl (atoi_itoa m)) hf⟩
          · simp only [hn]
            exact ⟨fun _ s' m h1 h2 => (by cases h1; rw [hn] at h2; cases h2), fun _ => ⟨rfl, r⟩⟩

theorem mSet_data (kv : List (Bytes × Bytes)) (c : Cache) (j : Bytes) :
    (kv.foldl (fun c p => c.store p.1 (.scalar (tryInt64 p.2))) c).data j =
      (match lastVal kv j with
      | some v => some (.scalar (tryInt64 v))
      | none => c.data j) := by
  induction kv generalizing c with
  | nil => rfl
  | cons p kv ih =>
    obtain ⟨k, v⟩ := p
    rw [List.foldl_cons, ih, lastVal]
    cases lastVal kv j with
    | some w => rfl
    | none =>
      by_cases h : k = j
      · subst h; simp [Cache.store]
      · simp [Cache.store, h, show ¬ j = k from fun e => h e.symm]

theorem mSet_exp (kv : List (Bytes × Bytes)) (c : Cache) :
    (kv.foldl (fun c p => c.store p.1 (.scalar (tryInt64 p.2))) c).exp = c.exp := by
  induction kv generalizing c with
  | nil => rfl
  | cons p kv ih => rw [List.foldl_cons, ih]; rfl

theorem puts_at (kv : List (Bytes × Bytes)) (st : Store) (j : Bytes) :
    (kv.foldl (fun st p => put st p.1 p.2) st) j =
      (match lastVal kv j with
      | some v => some ⟨.str v, none⟩
      | none => st j) := by
  induction kv generalizing st with
  | nil => rfl
  | cons p kv ih =>
    obtain ⟨k, v⟩ := p
    rw [List.foldl_cons, ih, lastVal]
    cases lastVal kv j with
    | some w => rfl
    | none =>
      by_cases h : k = j
      · subst h; simp [put]
      · simp [put, h, show ¬ j = k from fun e => h e.symm]

theorem exact_mSet (r : Sim t c st) (kv : List (Bytes × Bytes)) : Step t c st (.mSet kv) ↔ Alike c st t (.mSet kv) := by
  unfold Step Alike
  simp only [Verif.exec, Cache.mSet, exec]
  refine (and_iff_right rfl).trans ⟨fun h k v hv => ?_, fun h k => ?_⟩
  · have hk := h k
    simp only [mSet_data, mSet_exp, puts_at, hv] at hk
    obtain ⟨h1, h2⟩ := (Rel.some_iff (fun d h => by cases h)).1 hk
    exact ⟨valRel_text.1 h1, h2⟩
  · simp only [mSet_data, mSet_exp, puts_at]
    cases hv : lastVal kv k with
    | none => exact r k
    | some v =>
      obtain ⟨h1, h2⟩ := h k v hv
      exact (Rel.some_iff (fun d h => by cases h)).2 ⟨valRel_text.2 h1, h2⟩

theorem lastVal_mem {kv : List (Bytes × Bytes)} {k v : Bytes} (h : lastVal kv k = some v) : (k, v) ∈ kv := by
  induction kv with
  | nil => cases h
  | cons p kv ih =>
    obtain ⟨j, w⟩ := p
    unfold lastVal at h
    split at h
    · rename_i w' hw
      exact List.mem_cons_of_mem _ (ih (by rw [hw, ← h]))
    · split at h
      · rename_i e; subst e; cases h; exact List.mem_cons_self ..
      · cases h

theorem lastVal_some {kv : List (Bytes × Bytes)} {p : Bytes × Bytes} (h : p ∈ kv) : ∃ v, lastVal kv p.1 = some v := by
  induction kv with
  | nil => cases h
  | cons q kv ih =>
    obtain ⟨j, w⟩ := q
    unfold lastVal
    cases hl : lastVal kv p.1 with
    | some v => exact ⟨v, rfl⟩
    | none =>
      rcases List.mem_cons.1 h with rfl | h
      · simp
      · obtain ⟨v, hv⟩ := ih h
        rw [hl] at hv; cases hv

theorem mSetNXLoop_exp (kv : List (Bytes × Bytes)) (c : Cache) (n : Int) : (c.mSetNXLoop kv n).1.exp = c.exp := by
  induction kv generalizing c n with
  | nil => rfl
  | cons p kv ih =>
    obtain ⟨k, v⟩ := p
    unfold Cache.mSetNXLoop
    split
    · exact ih ..
    · rw [ih]; rfl

theorem mSetNXLoop_le (kv : List (Bytes × Bytes)) (c : Cache) (n : Int) : n ≤ (c.mSetNXLoop kv n).2 := by
  induction kv generalizing c n with
  | nil => exact Int.le_refl n
  | cons p kv ih =>
    obtain ⟨k, v⟩ := p
    unfold Cache.mSetNXLoop
    split
    · exact ih ..
    · have := ih (c.store k (.scalar (tryInt64 v))) (n + 1); omega

theorem mSetNXLoop_lt {kv : List (Bytes × Bytes)} {c : Cache} {n : Int} {p : Bytes × Bytes} (hp : p ∈ kv) (hd : c.data p.1 = none) :
    n < (c.mSetNXLoop kv n).2 := by
  induction kv generalizing c n with
  | nil => cases hp
  | cons q kv ih =>
    obtain ⟨k, v⟩ := q
    unfold Cache.mSetNXLoop
    split
    · rename_i w hw
      rcases List.mem_cons.1 hp with rfl | h
      · rw [hd] at hw; cases hw
      · exact ih h hd
    · have := mSetNXLoop_le kv (c.store k (.scalar (tryInt64 v))) (n + 1); omega

/-- What is not visible and not dead is not stored. -/
theorem Sim.unseen {k : Bytes} (r : Sim t c st) (hs : ¬ Stale c t k) (hv : view st t k = none) : c.data k = none := by
  have hm := (r.load k).2
  rw [load_snd, liveVal_of_not_stale hs] at hm
  generalize c.data k = o at hm
  cases hm with
  | absent _ _ _ => rfl
  | present e w h _ _ _ => simp [view, h] at hv

theorem Sim.unstored {k : Bytes} (r : Sim t c st) (hd : c.data k = none) : view st t k = none ∧ c.exp k = none := by
  have hs : ¬ Stale c t k := fun h => h.1 hd
  have hm := (r.load k).2
  rw [load_snd, liveVal_of_not_stale hs, load_fst_of_not_stale hs, hd] at hm
  cases hm with
  | absent h _ h2 => exact ⟨by simp [view, h], h2⟩

theorem exact_mSetNX (r : Sim t c st) (kv : List (Bytes × Bytes)) : Step t c st (.mSetNX kv) ↔ Alike c st t (.mSetNX kv) := by
  unfold Step Alike
  simp only [Verif.exec, Cache.mSetNX, exec]
  by_cases hany : kv.any (fun p => (view st t p.1).isSome) = true
  · rw [if_pos hany]
    obtain ⟨q, hq, hqv⟩ := List.any_eq_true.1 hany
    constructor
    · rintro ⟨h, _⟩
      refine .inl ⟨⟨q, hq, hqv⟩, fun p hp hd => ?_⟩
      have := mSetNXLoop_lt (n := 0) hp hd
      injection h with h; injection h with h
      omega
    · rintro (⟨_, h⟩ | ⟨k, v, kv', w, rfl, hk, _, hd, _⟩)
      · rw [mSetNXLoop_all kv 0 h]; exact ⟨rfl, r⟩
      · have : q.1 = k := by
          rcases List.mem_cons.1 hq with rfl | h
          · rfl
          · exact hk q h
        rw [this, (r.unstored hd).1] at hqv; cases hqv
  · rw [if_neg hany]
    have hnone : ∀ p ∈ kv, view st t p.1 = none := by
      intro p hp
      cases hv : view st t p.1 with
      | none => rfl
      | some x => exact absurd (List.any_eq_true.2 ⟨p, hp, by simp [hv]⟩) hany
    constructor
    · rintro ⟨h, hsim⟩
      right
      injection h with h; injection h with h
      have hall : ∀ p ∈ kv, c.data p.1 = none := by
        intro p hp
        refine r.unseen ?_ (hnone p hp)
        rintro ⟨_, d, hx, _⟩
        have hk := hsim p.1
        obtain ⟨v, hv⟩ := lastVal_some hp
        simp only [mSetNXLoop_exp, puts_at, hv, hx] at hk
        rcases hk with ⟨_, _, _, h⟩ | ⟨_, _, h, _⟩ <;> cases h
      cases kv with
      | nil => simp [Cache.mSetNXLoop] at h
      | cons q kv' =>
        obtain ⟨k, v⟩ := q
        have hd : c.data k = none := hall (k, v) (List.mem_cons_self ..)
        have e : c.mSetNXLoop ((k, v) :: kv') 0 = (c.store k (.scalar (tryInt64 v))).mSetNXLoop kv' 1 := by
          simp [Cache.mSetNXLoop, hd]
        rw [e] at h
        have hk : ∀ p ∈ kv', p.1 = k := by
          intro p hp
          apply Classical.byContradiction
          intro hne
          have := mSetNXLoop_lt (c := c.store k (.scalar (tryInt64 v))) (n := 1) hp
            (by simp [Cache.store, hne, hall p (List.mem_cons_of_mem _ hp)])
          omega
        obtain ⟨w, hw⟩ := lastVal_some (List.mem_cons_self (a := (k, v)) (l := kv'))
        refine ⟨k, v, kv', w, rfl, hk, hw, hd, ?_⟩
        have hs := hsim k
        rw [e, mSetNXLoop_all kv' 1 (fun p hp => by simp [Cache.store, hk p hp])] at hs
        simp only [puts_at, hw, Cache.store, upd_same] at hs
        obtain ⟨⟨sc, h1, h2⟩, _⟩ := (Rel.some_iff (fun d h => by cases h)).1 hs
        cases h1; exact h2
    · rintro (⟨⟨q, hq, h⟩, _⟩ | ⟨k, v, kv', w, rfl, hk, hw, hd, hsc⟩)
      · rw [hnone q hq] at h; cases h
      · have e : c.mSetNXLoop ((k, v) :: kv') 0 = (c.store k (.scalar (tryInt64 v)), 1) := by
          simp only [Cache.mSetNXLoop, hd, Int.zero_add]
          exact mSetNXLoop_all kv' 1 (fun p hp => by simp [Cache.store, hk p hp])
        rw [e]
        refine ⟨rfl, fun j => ?_⟩
        simp only [puts_at]
        by_cases hj : j = k
        · subst hj
          rw [hw]
          simp only [Cache.store, upd_same, (r.unstored hd).2]
          exact (Rel.some_iff (fun d h => by cases h)).2 ⟨⟨_, rfl, hsc⟩, rfl⟩
        · have : lastVal ((k, v) :: kv') j = none := by
            cases hl : lastVal ((k, v) :: kv') j with
            | none => rfl
            | some x =>
              rcases List.mem_cons.1 (lastVal_mem hl) with h | h
              · cases h; exact absurd rfl hj
              · exact absurd (hk _ h) hj
          rw [this]
          simpa [Cache.store, hj] using r j

theorem countP_eq_iff {α : Type} {p q : α → Bool} {l : List α} (h : ∀ a ∈ l, p a = true → q a = true) :
    l.countP q = l.countP p ↔ ∀ a ∈ l, q a = true → p a = true := by
  induction l with
  | nil => simp
  | cons a l ih =>
    have ih := ih fun b hb => h b (List.mem_cons_of_mem _ hb)
    have ha := h a (List.mem_cons_self ..)
    have hle : l.countP p ≤ l.countP q := List.countP_mono_left fun b hb => h b (List.mem_cons_of_mem _ hb)
    simp only [List.countP_cons, List.mem_cons, forall_eq_or_imp]
    cases hp : p a <;> cases hq : q a <;> simp_all
    omega

theorem exact_exists (r : Sim t c st) (ks : List Bytes) : Step t c st (.exists_ ks) ↔ Alike c st t (.exists_ ks) := by
  have key : ∀ k, ((c.data k).isSome = true → (view st t k).isSome = true) ↔ ¬ Stale c t k := by
    intro k
    have hm := (r.load k).2
    constructor
    · intro h hs
      rw [load_snd, liveVal_none_of_stale hs] at hm
      cases hm with
      | absent hl _ _ =>
        have := h (by have := hs.1; cases hd : c.data k <;> simp_all)
        simp [view, hl] at this
    · intro hs h
      cases hv : view st t k with
      | none => rw [r.unseen hs hv] at h; cases h
      | some x => rfl
  have hle : ∀ k ∈ ks, (view st t k).isSome = true → (c.data k).isSome = true := by
    intro k _ h
    cases hd : c.data k with
    | none => rw [(r.unstored hd).1] at h; cases h
    | some w => rfl
  unfold Step Alike
  simp only [Verif.exec, exec, exists_eq, ← List.countP_eq_length_filter, r, and_true]
  constructor
  · intro h
    injection h with h; injection h with h
    have := (countP_eq_iff hle).1 (by omega)
    intro k hk
    exact (key k).1 (this k hk)
  · intro h
    have := (countP_eq_iff hle).2 fun k hk => (key k).2 (h k hk)
    rw [this]

theorem exact_type (r : Sim t c st) (k : Bytes) : Step t c st (.type k) ↔ Alike c st t (.type k) := by
  refine ⟨?_, step_type r k⟩
  have hm := (r.load k).2
  unfold Step Alike
  simp only [Verif.exec, Cache.type, exec]
  rintro ⟨h, _⟩ m hv
  generalize c.load t k = p at *
  obtain ⟨c', o⟩ := p
  rw [hv] at h
  cases o <;> simp at h

theorem mGet_sim (r : Sim t c st) (ks : List Bytes) : (c.mGet t ks).2 = ks.map (fun k => text st t k (.err .keyNil)) := by
  induction ks generalizing c with
  | nil => rfl
  | cons k ks ih =>
    obtain ⟨h1, h2⟩ := step_get r k
    have h2 : Sim t (c.get t k).1 st := h2
    have h1 : (c.get t k).2 = text st t k (.err .keyNil) := by
      have : Out.str (c.get t k).2 = .str (text st t k (.err .keyNil)) := h1
      injection this
    simp only [Cache.mGet, List.map_cons, ih h2, h1]

theorem exact_mGet (r : Sim t c st) (ks : List Bytes) : Step t c st (.mGet ks) ↔ Alike c st t (.mGet ks) := by
  refine ⟨?_, step_mGet r ks⟩
  unfold Step Alike
  simp only [Verif.exec, exec]
  rintro ⟨h, _⟩ k hk m hv
  injection h with h; injection h with h
  rw [mGet_sim r] at h
  have := List.map_inj_left.1 h k hk
  simp [text, hv, textOrNil] at this

/-! ## Hash calls -/

theorem fget_fput {m : List (Bytes × Bytes)} (f v g : Bytes) : fget (fput m f v) g = if f = g then some v else fget m g := by
  have hmap : ∀ l : List (Bytes × Bytes), (fget l f).isSome = true →
      fget (l.map fun p => if p.1 = f then (f, v) else p) g = if f = g then some v else fget l g := by
    intro l
    induction l with
    | nil => intro h; simp [fget] at h
    | cons p l ih =>
      intro h
      simp only [fget, List.map_cons, List.find?_cons] at h ih ⊢
      by_cases e : p.1 = f
      · simp only [e, if_true]
        by_cases e' : f = g
        · simp [e']
        · have h1 : (f == g) = false := by simpa using e'
          simp only [e', if_false, h1]
          clear ih h
          induction l with
          | nil => rfl
          | cons q l ih =>
            simp only [List.map_cons, List.find?_cons]
            by_cases e2 : q.1 = f
            · simp only [e2, if_true, h1, ih]
            · simp only [e2, if_false]
              by_cases e3 : q.1 = g
              · simp [e3]
              · simp only [show (q.1 == g) = false by simpa using e3, ih]
      · simp only [show (p.1 == f) = false by simpa using e] at h
        simp only [e, if_false]
        by_cases e3 : p.1 = g
        · have : ¬ f = g := fun x => e (e3.trans x.symm)
          simp [e3, this]
        · simp only [show (p.1 == g) = false by simpa using e3]
          exact ih h
  unfold fput
  split
  · rename_i h; exact hmap m h
  · rename_i h
    simp only [fget, List.find?_append, List.find?_cons, List.find?_nil] at h ⊢
    by_cases e : f = g
    · subst e
      simp only [Option.isSome_map, Bool.not_eq_true, Option.isSome_eq_false_iff, Option.isNone_iff_eq_none] at h
      simp [h]
    · simp [e, show (f == g) = false by simpa using e]

/-- Storing a hash, or nothing, where a lookup was made. -/
theorem Sim.putFields_iff {k : Bytes} {o : Option Val} (r : Sim t c st) (hm : Meets t k st c o) {h : HashEntry}
    {m : List (Bytes × Bytes)} : Sim t (c.store k (.hash h)) (Ref.putFields st t k m) ↔ HRel h m ∧ m ≠ [] := by
  unfold Ref.putFields
  split
  · rename_i hne
    refine ⟨fun hs => ?_, fun h => absurd hne h.2⟩
    have := hs k
    simp only [Cache.store, upd_same] at this
    cases this.1
  · rename_i hne
    rw [r.keep_iff hm]
    constructor
    · rintro ⟨h', e, h1, h2⟩; cases e; exact ⟨h1, h2⟩
    · rintro ⟨h1, h2⟩; exact ⟨h, rfl, h1, h2⟩

/-- A call that changes a map. -/
theorem exact_withHash {α : Type} (r : Sim t c st) (k : Bytes) (g : HashEntry → HashEntry × Res α)
    (m' : List (Bytes × Bytes) → List (Bytes × Bytes)) (a : List (Bytes × Bytes) → Res α) :
    ((c.withHash t k g).2 = (fields st t k).bind a ∧
      Sim t (c.withHash t k g).1 (match fields st t k with
        | .ok m => putFields st t k (m' m)
        | _ => st)) ↔
      ∀ m, fields st t k = .ok m → ∀ h, HRel h m → (liveVal c t k = none → h = HashEntry.empty) →
        (∀ h', liveVal c t k = some (.hash h') → h = h') → (g h).2 = a m ∧ HRel (g h).1 (m' m) ∧ m' m ≠ [] := by
  obtain ⟨r', hm⟩ := r.load k
  have hh := hm.hash
  rw [withHash_snd, withHash_fst, ← load_snd]
  generalize c.load t k = p at *
  obtain ⟨c', o⟩ := p
  cases hh with
  | absent h =>
    rw [h]
    constructor
    · rintro ⟨h1, h2⟩ m e he _ hn _
      cases e
      cases hn rfl
      exact ⟨h1, (r'.putFields_iff hm).1 h2⟩
    · intro hs
      obtain ⟨h1, h2⟩ := hs [] rfl _ HRel.empty (fun _ => rfl) (fun h' e => by cases e)
      exact ⟨h1, (r'.putFields_iff hm).2 h2⟩
  | hash m he h hr hne =>
    rw [h]
    constructor
    · rintro ⟨h1, h2⟩ m' e h' _ _ hn
      cases e
      cases hn he rfl
      exact ⟨h1, (r'.putFields_iff hm).1 h2⟩
    · intro hs
      obtain ⟨h1, h2⟩ := hs m rfl _ hr (fun e => by cases e) (fun h' e => by cases e; rfl)
      exact ⟨h1, (r'.putFields_iff hm).2 h2⟩
  | scalar sc h =>
    rw [h]
    exact ⟨fun _ m e => (nomatch e), fun _ => ⟨rfl, r'⟩⟩

/-- What the fields of a map hold. -/
theorem Sim.held {k : Bytes} {m : List (Bytes × Bytes)} (r : Sim t c st) (h : fields st t k = .ok m) :
    ∃ he, HRel he m ∧ ((liveVal c t k = none ∧ he = HashEntry.empty ∧ m = []) ∨ (liveVal c t k = some (.hash he) ∧ m ≠ [])) := by
  have hh := (r.load k).2.hash
  rw [load_snd] at hh
  generalize liveVal c t k = o at hh
  cases hh with
  | absent h' => rw [h'] at h; cases h; exact ⟨_, HRel.empty, .inl ⟨rfl, rfl, rfl⟩⟩
  | hash m' he h' hr hne => rw [h'] at h; cases h; exact ⟨he, hr, .inr ⟨rfl, hne⟩⟩
  | scalar sc h' => rw [h'] at h; cases h

theorem set_get (h : HashEntry) (f v : Bytes) : (h.set f v).1.get f = some (canon v) := by
  simp [HashEntry.set, HashEntry.get, hfind_hput, fmtScalar_tryInt64]

theorem exact_hSet (r : Sim t c st) (k f v : Bytes) : Step t c st (.hSet k f v) ↔ Alike c st t (.hSet k f v) := by
  have := exact_withHash r k (fun h => ((h.set f v).1, (.ok (h.set f v).2 : Res Int)))
    (fun m => fput m f v) (fun m => .ok (if (fget m f).isSome then 0 else 1))
  have key : Step t c st (.hSet k f v) ↔ _ := Iff.trans (by
    unfold Step
    simp only [Verif.exec, Cache.hSet, exec]
    rcases fields_cases st t k with ⟨m, e⟩ | e <;> rw [e]
    · exact and_congr_left' (by simp [GoRes.bind])
    · exact and_congr_left' (by simp [GoRes.bind])) this
  rw [key]
  unfold Alike
  constructor
  · intro h m hf
    obtain ⟨he, hr, hc⟩ := r.held hf
    obtain ⟨_, h2, _⟩ := h m hf he hr (by rcases hc with ⟨_, h, _⟩ | ⟨h, _⟩ <;> simp_all) (by rcases hc with ⟨h, _⟩ | ⟨h, _⟩ <;> simp_all)
    have := h2.get f
    rw [set_get, fget_fput, if_pos rfl] at this
    simpa using this
  · intro h m hf he hr _ _
    obtain ⟨h1, h2⟩ := hr.set f (h m hf)
    exact ⟨by rw [h2], h1, fput_ne_nil _ _ _⟩

theorem exact_hExists (r : Sim t c st) (k f : Bytes) : Step t c st (.hExists k f) ↔ Alike c st t (.hExists k f) := by
  refine ⟨?_, step_hExists r k f⟩
  obtain ⟨r', hm⟩ := r.load k
  have hh := hm.hash
  unfold Step Alike
  simp only [Verif.exec, exec]
  unfold Cache.hExists Cache.getHash
  rintro ⟨_, hs⟩ m hf
  generalize c.load t k = p at *
  obtain ⟨c', o⟩ := p
  cases hh with
  | absent h => rw [h] at hf; cases hf; rfl
  | scalar sc h => rw [h] at hf; cases hf
  | hash m he h hr hne =>
    rw [h] at hf; cases hf
    cases hg : fget m f with
    | none => rfl
    | some v =>
      exfalso
      simp only [hr.get, hg, Option.isSome_some, if_true] at hs
      cases hm with
      | present e w' hl hv h1 h2 =>
        have e1 := keep_self hl
        have e2 : e.val = .hash m := by
          simp only [fields, view, hl, Option.map_some] at h
          cases hev : e.val with
          | str s => simp [hev] at h
          | hash m' => simp [hev] at h; rw [h]
        rw [← e1, e2] at hs
        obtain ⟨h', e3, h3, _⟩ := (r'.keep_iff (.present e _ hl hv h1 h2)).1 hs
        cases e3
        have h4 := h3.length
        have h5 := hr.length
        simp only at h4
        omega

theorem exact_hDel (r : Sim t c st) (k : Bytes) (fs : List Bytes) : Step t c st (.hDel k fs) ↔ Alike c st t (.hDel k fs) := by
  refine ⟨?_, step_hDel r k fs⟩
  obtain ⟨r', hm⟩ := r.load k
  have hh := hm.hash
  unfold Step Alike
  simp only [Verif.exec, exec]
  unfold Cache.hDel Cache.getHash
  rintro ⟨_, hs⟩ m hf hm0
  generalize c.load t k = p at *
  obtain ⟨c', o⟩ := p
  cases hh with
  | absent h => rw [h] at hf; cases hf; exact absurd rfl hm0
  | scalar sc h => rw [h] at hf; cases hf
  | hash m he h hr hne =>
    rw [h] at hf; cases hf
    rw [h] at hs
    exact ((r'.putFields_iff hm).1 hs).2

theorem hIncrScalar_ok {n y : Int64} {sc : Scalar} (h : hIncrScalar n sc = .ok y) :
    sc = .str [] ∨ ∃ x, fmtScalar sc = itoa x ∧ y = x + n := by
  cases sc with
  | str s =>
    simp only [hIncrScalar] at h
    split at h
    · rename_i e; exact .inl (by rw [e])
    · cases h
  | int v => cases h; exact .inr ⟨v, rfl, rfl⟩
  | int32 v => cases h; exact .inr ⟨v.toInt64, rfl, rfl⟩
  | int64 v => cases h; exact .inr ⟨v, rfl, rfl⟩
  | uint v => cases h
  | uint32 v =>
    cases h
    refine .inr ⟨v.toUInt64.toInt64, ?_, rfl⟩
    have hb := v.toNat_lt
    have h2 : v.toUInt64.toNat = v.toNat := UInt32.toNat_toUInt64 v
    have : v.toUInt64.toInt64.toInt = v.toNat := by
      have h3 : v.toUInt64.toInt64.toInt = ((v.toUInt64.toNat : Int)).bmod (2 ^ 64) := by
        show v.toUInt64.toBitVec.toInt = _
        rw [BitVec.toInt_eq_toNat_bmod]; rfl
      rw [h3, h2, Int.bmod_eq_of_le (by omega) (by omega)]
    simp only [fmtScalar, itoa, this]
  | uint64 v => cases h; exact .inr ⟨v.toInt64, rfl, rfl⟩
  | float x => cases h

theorem itoa_inj {a b : Int64} (h : itoa a = itoa b) : a = b := by
  have := congrArg atoi h
  rw [atoi_itoa, atoi_itoa] at this
  exact Option.some.inj this

theorem hIncrScalar_err {n : Int64} {sc : Scalar} (h : ∀ y, hIncrScalar n sc ≠ .ok y) : hIncrScalar n sc = .err .hashNotFloat := by
  cases sc with
  | str s =>
    simp only [hIncrScalar] at h ⊢
    split
    · rename_i e; rw [if_pos e] at h; exact absurd rfl (h _)
    · rfl
  | uint _ => rfl
  | float _ => rfl
  | _ => exact absurd rfl (h _)

theorem fput_self {m : List (Bytes × Bytes)} (hn : (m.map (·.1)).Nodup) {f v : Bytes} (h : fget m f = some v) : fput m f v = m := by
  unfold fput
  rw [if_pos (by simp [h])]
  conv => rhs; rw [← List.map_id m]
  apply List.map_congr_left
  intro p hp
  by_cases e : p.1 = f
  · rw [if_pos e]
    have : p.2 = v := by
      have hd : ∀ l : List (Bytes × Bytes), (l.map (·.1)).Nodup → p ∈ l → fget l f = some p.2 := by
        intro l hn hp
        induction l with
        | nil => cases hp
        | cons q l ih =>
          simp only [List.map_cons, List.nodup_cons] at hn
          simp only [fget, List.find?_cons]
          rcases List.mem_cons.1 hp with rfl | hp
          · simp [e]
          · have : q.1 ≠ f := fun x => hn.1 (by rw [x, ← e]; exact List.mem_map_of_mem hp)
            simp only [show (q.1 == f) = false by simpa using this]
            exact ih hn.2 hp
      have := hd m hn hp
      rw [h] at this; exact (Option.some.inj this).symm
    obtain ⟨a, b⟩ := p
    simp only at e this
    rw [e, this]; rfl
  · rw [if_neg e]; rfl

theorem exact_hIncrBy (r : Sim t c st) (k f : Bytes) (n : Int64) : Step t c st (.hIncrBy k f n) ↔ Alike c st t (.hIncrBy k f n) := by
  have e0 : atoi b!"0" = some 0 := by decide +kernel
  have i0 : itoa 0 = b!"0" := by decide +kernel
  have ez : (0 : Int64).toInt = 0 := rfl
  rcases fields_cases st t k with ⟨m, e⟩ | e
  · obtain ⟨he, hr, hc⟩ := r.held e
    rcases hc with ⟨hl, rfl, rfl⟩ | ⟨hl, hne⟩
    · refine iff_of_true (step_hIncrBy r k f n ?_) ?_
      · intro m h; rw [e] at h; cases h; rfl
      · intro h sc h1; rw [hl] at h1; cases h1
    · cases hf : hfind he.fields f with
      | none =>
        refine iff_of_true (step_hIncrBy r k f n ?_) ?_
        · intro m' h; rw [e] at h; cases h
          have := hr.isSome f; rw [hf] at this; simpa using this.symm
        · intro h sc h1 h2; rw [hl] at h1; cases h1; rw [hf] at h2; cases h2
      | some sc =>
        have hg : fget m f = some (fmtScalar sc) := by rw [← hr.get, HashEntry.get, hf]; rfl
        obtain ⟨r', hm⟩ := r.load k
        rw [load_snd, hl] at hm
        have hal : Alike c st t (.hIncrBy k f n) ↔ (((∃ y, hIncrScalar n sc = .ok y) ∧ fmtScalar sc = b!"0") ∨
            ((∀ y, hIncrScalar n sc ≠ .ok y) ∧ ∀ x, atoi (fmtScalar sc) = some x → ¬ Fits (x.toInt + n.toInt))) := by
          unfold Alike
          constructor
          · intro h; exact h he sc hl hf
          · intro h h' sc' h1 h2
            rw [hl] at h1; cases h1
            rw [hf] at h2; cases h2
            exact h
        rw [hal]
        unfold Step
        simp only [Verif.exec, Cache.hIncrBy, exec, withHash_snd, withHash_fst, hl, asHash, GoRes.bind, Option.getD_some, hf, e, hg]
        have hst : c.load t k = ((c.load t k).1, some (.hash he)) := by rw [← hl, ← load_snd]
        have hsame : Sim t ((c.load t k).1.store k (.hash he)) st := by
          cases hm with
          | present e' w hl' hv h1 h2 => rw [store_self h1]; exact r'
        cases hi : hIncrScalar n sc with
        | ok y =>
          simp only [GoRes.map, GoRes.bind]
          rcases hIncrScalar_ok hi with rfl | ⟨x, hx, rfl⟩
          · have : atoi (fmtScalar (.str [])) = none := by decide +kernel
            simp only [this]
            refine ⟨fun h => (nomatch h.1), ?_⟩
            rintro (⟨_, h⟩ | ⟨h, _⟩)
            · exact absurd h (by decide)
            · exact absurd rfl (h _)
          · simp only [hx, atoi_itoa]
            constructor
            · rintro ⟨h1, h2⟩
              left
              refine ⟨⟨_, rfl⟩, ?_⟩
              by_cases hfit : -(2 ^ 63) ≤ x.toInt + n.toInt ∧ x.toInt + n.toInt < 2 ^ 63
              · rw [if_pos hfit] at h2
                obtain ⟨h3, _⟩ := (r'.putFields_iff hm).1 h2
                have h4 := h3.get f
                rw [set_get, fget_fput, if_pos rfl, canon_itoa] at h4
                have h5 : itoa n = itoa (x + n) := by
                  rw [Option.some.inj h4, itoa, toInt_add_of_fits hfit.1 hfit.2]
                have h6 := congrArg Int64.toInt (itoa_inj h5)
                rw [toInt_add_of_fits hfit.1 hfit.2] at h6
                have h7 : x = 0 := Int64.toInt_inj.1 (by rw [ez]; omega)
                rw [h7, i0]
              · rw [if_neg hfit] at h1; cases h1
            · rintro (⟨_, h⟩ | ⟨h, _⟩)
              · have h7 : x = 0 := itoa_inj (h.trans i0.symm)
                subst h7
                have hb : -(2 ^ 63) ≤ n.toInt ∧ n.toInt < 2 ^ 63 := ⟨n.le_toInt, n.toInt_lt⟩
                rw [ez, Int.zero_add, if_pos hb]
                refine ⟨by simp, (r'.putFields_iff hm).2 ⟨?_, fput_ne_nil _ _ _⟩⟩
                exact (hr.set f (canon_itoa n)).1
              · exact absurd rfl (h _)
        | err er =>
          have her := hIncrScalar_err (n := n) (sc := sc) (fun y h => by rw [hi] at h; cases h)
          rw [hi] at her; cases her
          simp only [GoRes.map, GoRes.bind]
          constructor
          · rintro ⟨h1, _⟩
            refine .inr ⟨fun y h => (nomatch h), fun x hx hfit => ?_⟩
            have hfit : -(2 ^ 63) ≤ x.toInt + n.toInt ∧ x.toInt + n.toInt < 2 ^ 63 := hfit
            rw [hx] at h1
            simp only [if_pos hfit] at h1
            cases h1
          · rintro (⟨⟨y, h⟩, _⟩ | ⟨_, h⟩)
            · cases h
            · cases hx : atoi (fmtScalar sc) with
              | none => exact ⟨rfl, hsame⟩
              | some x =>
                have : ¬ (-(2 ^ 63) ≤ x.toInt + n.toInt ∧ x.toInt + n.toInt < 2 ^ 63) := h x hx
                simp only
                rw [if_neg this]
                exact ⟨rfl, hsame⟩
        | panic => cases sc <;> simp [hIncrScalar] at hi; split at hi <;> cases hi
  · refine iff_of_true (step_hIncrBy r k f n ?_) ?_
    · intro m h; rw [e] at h; cases h
    · intro h sc h1
      exfalso
      have hh := (r.load k).2.hash
      rw [load_snd, h1] at hh
      cases hh with
      | hash m _ h' _ _ => rw [h'] at e; cases e

/-- Maps with the same keys in the same order that hold the same are equal. -/
theorem fields_ext {a b : List (Bytes × Bytes)} (hk : a.map (·.1) = b.map (·.1)) (hn : (a.map (·.1)).Nodup)
    (h : ∀ f, fget a f = fget b f) : a = b := by
  induction a generalizing b with
  | nil => cases b with
    | nil => rfl
    | cons q b => cases hk
  | cons p a ih =>
    cases b with
    | nil => cases hk
    | cons q b =>
      obtain ⟨f, v⟩ := p
      obtain ⟨g, w⟩ := q
      simp only [List.map_cons, List.cons.injEq] at hk
      obtain ⟨rfl, hk⟩ := hk
      simp only [List.map_cons, List.nodup_cons] at hn
      have h1 := h f
      simp only [fget, List.find?_cons, beq_self_eq_true, Option.map_some, Option.some.injEq] at h1
      subst h1
      congr 1
      refine ih hk hn.2 fun j => ?_
      by_cases e : f = j
      · subst e
        have none_of : ∀ l : List (Bytes × Bytes), f ∉ l.map (·.1) → fget l f = none := by
          intro l hl
          simp only [fget, Option.map_eq_none_iff, List.find?_eq_none, beq_iff_eq]
          intro p hp e
          exact hl (e ▸ List.mem_map_of_mem hp)
        rw [none_of a hn.1, none_of b (hk ▸ hn.1)]
      · have := h j
        simpa only [fget, List.find?_cons, show (f == j) = false by simpa using e] using this

theorem fget_puts (fv : List (Bytes × Bytes)) (g : Bytes → Bytes) (m : List (Bytes × Bytes)) (f : Bytes) :
    fget (fv.foldl (fun m p => fput m p.1 (g p.2)) m) f = match lastVal fv f with
      | some v => some (g v)
      | none => fget m f := by
  induction fv generalizing m with
  | nil => rfl
  | cons p fv ih =>
    obtain ⟨k, v⟩ := p
    rw [List.foldl_cons, ih, lastVal]
    cases lastVal fv f with
    | some w => rfl
    | none =>
      simp only [fget_fput]
      by_cases h : k = f <;> simp [h]

theorem fput_keys (m : List (Bytes × Bytes)) (f v w : Bytes) : (fput m f v).map (·.1) = (fput m f w).map (·.1) := by
  unfold fput
  split
  · simp only [List.map_map]
    apply List.map_congr_left
    intro p _
    by_cases e : p.1 = f <;> simp [e]
  · simp

theorem fget_isSome_keys {a b : List (Bytes × Bytes)} (h : a.map (·.1) = b.map (·.1)) (f : Bytes) : (fget a f).isSome = (fget b f).isSome := by
  have : ∀ l : List (Bytes × Bytes), (fget l f).isSome = (l.map (·.1)).any (· == f) := by
    intro l
    simp only [fget, Option.isSome_map, List.any_map]
    rw [Bool.eq_iff_iff, List.find?_isSome, List.any_eq_true]
    rfl
  rw [this, this, h]

theorem fput_keys_of {a b : List (Bytes × Bytes)} (h : a.map (·.1) = b.map (·.1)) (f v w : Bytes) :
    (fput a f v).map (·.1) = (fput b f w).map (·.1) := by
  have hk : ∀ (l : List (Bytes × Bytes)) v, (l.map fun p => if p.1 = f then (f, v) else p).map (·.1) = l.map (·.1) := by
    intro l v
    rw [List.map_map]; apply List.map_congr_left; intro p _
    by_cases e : p.1 = f <;> simp [e]
  unfold fput
  rw [fget_isSome_keys h f]
  split
  · rw [hk, hk, h]
  · rw [List.map_append, List.map_append, h]; rfl

theorem puts_keys (fv : List (Bytes × Bytes)) (g : Bytes → Bytes) {a b : List (Bytes × Bytes)} (h : a.map (·.1) = b.map (·.1)) :
    (fv.foldl (fun m p => fput m p.1 (g p.2)) a).map (·.1) = (fv.foldl (fun m p => fput m p.1 p.2) b).map (·.1) := by
  induction fv generalizing a b with
  | nil => exact h
  | cons p fv ih => exact ih (fput_keys_of h _ _ _)

/-- `HMSet` stores every value as it is shown. -/
theorem HRel.msetCanon (fv : List (Bytes × Bytes)) {h : HashEntry} {m : List (Bytes × Bytes)} (r : HRel h m) (n : Int) :
    HRel (hMSetLoop fv h n).1 (fv.foldl (fun m p => fput m p.1 (Verif.canon p.2)) m) ∧
      (hMSetLoop fv h n).2 = n + ((fv.foldl (fun m p => fput m p.1 (Verif.canon p.2)) m).length - m.length) := by
  induction fv generalizing h m n with
  | nil => exact ⟨r, by simp [hMSetLoop]⟩
  | cons p fv ih =>
    obtain ⟨f, v⟩ := p
    have h1 : HRel (h.set f v).1 (fput m f (Verif.canon v)) := by
      simp only [HashEntry.set, r.isSome]
      exact r.put f _ (fmtScalar_tryInt64 v)
    have h2 : (h.set f v).2 = if (fget m f).isSome then 0 else 1 := by simp only [HashEntry.set, r.isSome]
    obtain ⟨h3, h4⟩ := ih h1 (n + (h.set f v).2)
    refine ⟨h3, ?_⟩
    simp only [hMSetLoop, List.foldl_cons]
    rw [h4, h2, fput_length]; split <;> simp <;> omega

theorem exact_hMSet (r : Sim t c st) (k : Bytes) (fv : List (Bytes × Bytes)) : Step t c st (.hMSet k fv) ↔ Alike c st t (.hMSet k fv) := by
  have := exact_withHash r k (fun h => ((hMSetLoop fv h 0).1, (.ok (hMSetLoop fv h 0).2 : Res Int)))
    (fun m => fv.foldl (fun m p => fput m p.1 p.2) m)
    (fun m => .ok ((fv.foldl (fun m p => fput m p.1 p.2) m).length - m.length))
  have key : Step t c st (.hMSet k fv) ↔ _ := Iff.trans (by
    unfold Step
    simp only [Verif.exec, Cache.hMSet, exec]
    rcases fields_cases st t k with ⟨m, e⟩ | e <;> rw [e]
    · exact and_congr_left' (by simp [GoRes.bind])
    · exact and_congr_left' (by simp [GoRes.bind])) this
  rw [key]
  unfold Alike
  have hkeys : ∀ m : List (Bytes × Bytes), _ := fun m => puts_keys fv Verif.canon (rfl : m.map (·.1) = m.map (·.1))
  constructor
  · intro h m hf
    obtain ⟨he, hr, hc⟩ := r.held hf
    obtain ⟨_, h2, h3⟩ := h m hf he hr (by rcases hc with ⟨_, h, _⟩ | ⟨h, _⟩ <;> simp_all) (by rcases hc with ⟨h, _⟩ | ⟨h, _⟩ <;> simp_all)
    refine ⟨?_, fun f v hv => ?_⟩
    · rintro rfl; exact h3
    · have h4 := h2.get f
      rw [(hr.msetCanon fv 0).1.get f, fget_puts] at h4
      have h5 := fget_puts fv id m f
      simp only [id] at h5
      rw [h5, hv] at h4
      simpa using h4
  · intro h m hf he hr _ _
    obtain ⟨h0, h1⟩ := h m hf
    obtain ⟨h2, h3⟩ := hr.msetCanon fv 0
    have e : fv.foldl (fun m p => fput m p.1 (Verif.canon p.2)) m = fv.foldl (fun m p => fput m p.1 p.2) m := by
      refine fields_ext (hkeys m) h2.nodup fun f => ?_
      have h5 := fget_puts fv id m f
      simp only [id] at h5
      rw [fget_puts, h5]
      cases hl : lastVal fv f with
      | none => rfl
      | some v => simp only [h1 f v hl]
    rw [e] at h2 h3
    refine ⟨by rw [h3]; simp, h2, ?_⟩
    by_cases hv : fv = []
    · subst hv; exact h0 rfl
    · exact foldl_fput_ne_nil hv m

/-- Reading a hash: what the answer must be. -/
theorem exact_readHash {α : Type} (r : Sim t c st) (k : Bytes) (g : Option HashEntry → Res α) (a : List (Bytes × Bytes) → Res α) :
    ((c.readHash t k g).2 = (fields st t k).bind a ∧ Sim t (c.readHash t k g).1 st) ↔
      (fields st t k = .ok [] → g none = a []) ∧
      ∀ h m, liveVal c t k = some (.hash h) → fields st t k = .ok m → HRel h m → g (some h) = a m := by
  obtain ⟨r', hm⟩ := r.load k
  have hh := hm.hash
  rw [readHash_snd, readHash_fst, ← load_snd, and_iff_left r']
  generalize (c.load t k).2 = o at hh
  cases hh with
  | absent h => rw [h]; simp [asHash, GoRes.bind]
  | scalar sc h => rw [h]; simp [asHash, GoRes.bind]
  | hash m he h hr hne =>
    rw [h]
    constructor
    · intro h1
      refine ⟨fun h2 => by cases h2; exact absurd rfl hne, fun h' m' e1 e2 _ => ?_⟩
      cases e1; cases e2; exact h1
    · rintro ⟨_, h1⟩; exact h1 he m rfl rfl hr

theorem exact_hKeys (r : Sim t c st) (k : Bytes) : Step t c st (.hKeys k) ↔ Alike c st t (.hKeys k) := by
  refine ⟨?_, step_hKeys r k⟩
  unfold Step Alike
  simp only [Verif.exec, exec, Cache.hKeys, map_eq_bind]
  rintro ⟨h1, h2⟩ hf
  injection h1 with h1
  have := ((exact_readHash r k _ _).1 ⟨h1, h2⟩).1 hf
  cases this

theorem filterMap_length {α β : Type} (g : α → Option β) (l : List α) (h : (l.filterMap g).length = l.length) : ∀ a ∈ l, (g a).isSome = true := by
  induction l with
  | nil => intro a ha; cases ha
  | cons x l ih =>
    have hle := List.length_filterMap_le g l
    rw [List.filterMap_cons] at h
    cases hx : g x with
    | none => rw [hx] at h; simp only [List.length_cons] at h; omega
    | some y =>
      rw [hx] at h
      intro a ha
      rcases List.mem_cons.1 ha with rfl | ha
      · rw [hx]; rfl
      · exact ih (by simpa using h) a ha

theorem exact_hVals (r : Sim t c st) (k : Bytes) : Step t c st (.hVals k) ↔ Alike c st t (.hVals k) := by
  unfold Step Alike
  simp only [Verif.exec, exec, Cache.hVals, map_eq_bind]
  constructor
  · rintro ⟨h1, h2⟩
    injection h1 with h1
    obtain ⟨h3, h4⟩ := (exact_readHash r k _ _).1 ⟨h1, h2⟩
    refine ⟨fun hf => (nomatch h3 hf), fun h hl p hp => ?_⟩
    rcases fields_cases st t k with ⟨m, e⟩ | e
    · obtain ⟨he, hr, hc⟩ := r.held e
      have hhe : he = h := by rcases hc with ⟨h5, _⟩ | ⟨h5, _⟩ <;> simp_all
      subst hhe
      have := h4 he m hl e hr
      simp only [GoRes.ok.injEq] at this
      have hlen := congrArg List.length this
      rw [List.length_map, ← hr.texts] at hlen
      have := filterMap_length _ he.fields (by rw [hlen]; simp [texts]) p hp
      cases hs : p.2 with
      | str s => exact ⟨s, rfl⟩
      | _ => rw [hs] at this; cases this
    · exfalso
      have hh := (r.load k).2.hash
      rw [load_snd, hl] at hh
      cases hh with
      | hash m _ h' _ _ => rw [h'] at e; cases e
  · rintro ⟨h1, h2⟩
    refine And.imp (congrArg Out.strs) id ((exact_readHash r k _ (fun m => .ok (m.map (·.2)))).2 ⟨fun h => absurd h h1, fun h m hl _ hr => ?_⟩)
    have hs := h2 h hl
    simp only
    rw [← hr.texts]
    simp only [texts, List.map_map, Function.comp_def]
    congr 1
    generalize h.fields = l at hs
    induction l with
    | nil => rfl
    | cons p l ih =>
      obtain ⟨s, e⟩ := hs p (List.mem_cons_self ..)
      rw [List.map_cons, List.filterMap_cons, ih fun q hq => hs q (List.mem_cons_of_mem _ hq), e]
      rfl

theorem exact_hGetAll (r : Sim t c st) (k : Bytes) : Step t c st (.hGetAll k) ↔ Alike c st t (.hGetAll k) := by
  refine ⟨?_, step_hGetAll r k⟩
  unfold Step Alike
  simp only [Verif.exec, exec, Cache.hGetAll]
  rintro ⟨h1, h2⟩ m hf
  injection h1 with h1
  have e : fields st t k = (fields st t k).bind (fun m => .ok m) := by cases fields st t k <;> rfl
  rw [e] at h1
  obtain ⟨h3, h4⟩ := (exact_readHash r k _ _).1 ⟨h1, h2⟩
  obtain ⟨he, hr, hc⟩ := r.held hf
  rcases hc with ⟨_, _, rfl⟩ | ⟨hl, hne⟩
  · cases h3 hf
  · have := h4 he m hl hf hr
    dsimp only at this
    split at this
    · cases this
    · cases this; exact hne rfl

theorem exact_cronTick (hi : Inv c) (r : Sim t c st) : Step t c st .cronTick ↔ Alike c st t .cronTick := by
  unfold Alike
  by_cases hz : zeroTime < t
  · constructor
    · rintro ⟨_, h⟩
      refine .inl ⟨hz, fun k => ?_⟩
      have hk := h k
      simp only [Verif.exec, exec, Cache.cronTick] at hk
      cases hl : live st t k with
      | none => rfl
      | some e =>
        exfalso
        obtain ⟨hst, _⟩ := Option.filter_eq_some_iff.1 (show (st k).filter _ = _ from hl)
        have rk := r k
        rw [hst] at hk rk
        rcases rk with ⟨w, hd, hv, hx⟩ | ⟨_, d, hd, hlt⟩
        · rw [hd] at hk
          have hgone : (cronEntry t c k w).data k = none := by
            have := hi.good k w hd
            cases this <;> simp [cronEntry, hz]
          simp only [hgone] at hk
          rcases hk with ⟨_, h, _⟩ | ⟨_, d, hd, hlt⟩
          · cases h
          · have := live_dl hl hd; omega
        · have := live_dl hl hd; omega
    · rintro (⟨_, h⟩ | ⟨h, _⟩)
      · exact step_cronTick r ⟨hz, h⟩
      · omega
  · have hent : ∀ k w, c.data k = some w → (cronEntry t c k w).data k = some w ∧ (cronEntry t c k w).exp k = none := by
      intro k w hd
      have := hi.good k w hd
      cases this <;> simp [cronEntry, hz, hd]
    constructor
    · rintro ⟨_, h⟩
      refine .inr ⟨by omega, fun k hd => ?_⟩
      cases hd : c.data k with
      | none => contradiction
      | some w =>
        have hk := h k
        simp only [Verif.exec, exec, Cache.cronTick, hd, (hent k w hd).1, (hent k w hd).2] at hk
        have rk := r k
        rw [hd] at rk
        cases hst : st k with
        | none => rw [hst] at hk; cases hk.1
        | some e =>
          rw [hst] at hk rk
          rcases hk with ⟨_, _, _, h1⟩ | ⟨⟨h1, _⟩ | ⟨_, _, h1, _⟩, _⟩
          · rcases rk with ⟨_, _, _, h2⟩ | ⟨_, _, h2, _⟩
            · rw [h2, ← h1]
            · rw [← h1] at h2; cases h2
          · cases h1
          · cases h1
    · rintro (⟨h, _⟩ | ⟨_, h⟩)
      · exact absurd h hz
      · refine ⟨rfl, fun k => ?_⟩
        simp only [Verif.exec, exec, Cache.cronTick]
        have rk := r k
        cases hd : c.data k with
        | none => rw [hd] at rk; exact rk
        | some w =>
          simp only [(hent k w hd).1, (hent k w hd).2]
          rw [hd, h k (by simp [hd])] at rk
          exact rk

/-- One call does as on the reference if and only if it is `Alike`. -/
theorem exact_step (hi : Inv c) (r : Sim t c st) (op : Call) (ht : Told op) : Step t c st op ↔ Alike c st t op := by
  cases op with
  | set k v => exact exact_set r k v
  | setNX k v => exact exact_setNX r k v
  | setEX k v n => exact exact_setEX r k v n
  | pSetEX k v n => exact exact_pSetEX r k v n
  | get k => exact iff_of_true (step_get r k) trivial
  | getSet k v => exact exact_getSet r k v
  | strLen k => exact iff_of_true (step_strLen r k) trivial
  | append k v => exact exact_append r k v
  | setRange k p x => exact exact_setRange r k p x
  | getRange k a b => exact iff_of_true (step_getRange r k a b) trivial
  | incr k => exact exact_incrBy r k 1 1 rfl
  | incrBy k n => exact exact_incrBy r k n n.toInt (Int64.ofInt_toInt n)
  | decr k => exact exact_incrBy r k (-1) (-1) rfl
  | decrBy k n => exact exact_incrBy r k (-n) (-n.toInt) (by rw [Int64.ofInt_neg, Int64.ofInt_toInt])
  | incrByFloat k x => exact ht.elim
  | mSet kv => exact exact_mSet r kv
  | mSetNX kv => exact exact_mSetNX r kv
  | mGet ks => exact exact_mGet r ks
  | del k => exact iff_of_true (step_del r k) trivial
  | flush => exact iff_of_true ⟨rfl, Sim.new t⟩ trivial
  | exists_ ks => exact exact_exists r ks
  | type k => exact exact_type r k
  | hSet k f v => exact exact_hSet r k f v
  | hSetNX k f v => exact iff_of_true (step_hSetNX r k f v) trivial
  | hExists k f => exact exact_hExists r k f
  | hDel k fs => exact exact_hDel r k fs
  | hLen k => exact iff_of_true (step_hLen r k) trivial
  | hStrLen k f => exact iff_of_true (step_hStrLen r k f) trivial
  | hGet k f => exact iff_of_true (step_hGet r k f) trivial
  | hIncrBy k f n => exact exact_hIncrBy r k f n
  | hIncrByFloat k f x => exact ht.elim
  | hMSet k fv => exact exact_hMSet r k fv
  | hMGet k fs => exact iff_of_true (step_hMGet r k fs) trivial
  | hKeys k => exact exact_hKeys r k
  | hVals k => exact exact_hVals r k
  | hGetAll k => exact exact_hGetAll r k
  | list k => exact ht.elim
  | cronTick => exact exact_cronTick hi r

/-! ## Every difference shows -/

/-- The maps a store shows list each field once, and are not empty. -/
def Good (st : Store) (t : Int) : Prop := ∀ k m, view st t k = some (.hash m) → m ≠ [] ∧ (m.map (·.1)).Nodup

theorem Sim.good (r : Sim t c st) : Good st t := by
  intro k m h
  cases hl : live st t k with
  | none => simp [view, hl] at h
  | some e =>
    simp only [view, hl, Option.map_some, Option.some.injEq] at h
    obtain ⟨hst, _⟩ := Option.filter_eq_some_iff.1 (show (st k).filter _ = _ from hl)
    have rk := r k
    rw [hst] at rk
    rcases rk with ⟨w, _, hv, _⟩ | ⟨_, d, hd, hlt⟩
    · rw [h] at hv
      obtain ⟨he, _, hr, hne⟩ := hv
      exact ⟨hne, hr.nodup⟩
    · have := live_dl hl hd; omega

theorem Good.upd (g : Good st t) (k : Bytes) (o : Option Entry) (h : ∀ e m, o = some e → e.val = .hash m → m ≠ [] ∧ (m.map (·.1)).Nodup) :
    Good (Verif.upd st k o) t := by
  intro j m hv
  by_cases hj : j = k
  · subst hj
    cases o with
    | none => simp [view, live] at hv
    | some e =>
      refine h e m rfl ?_
      simp only [view, live, upd_same, Option.map_eq_some_iff] at hv
      obtain ⟨e', h1, h2⟩ := hv
      rw [(Option.filter_eq_some_iff.1 h1).1.symm |> Option.some.inj] at h2
      exact h2
  · exact g j m (by simpa [view, live, hj] using hv)

theorem Good.text (g : Good st t) (k v : Bytes) (dl : Option Int) : Good (Verif.upd st k (some ⟨.str v, dl⟩)) t :=
  g.upd k _ fun e m h h' => by cases h; cases h'

theorem Good.putFields (g : Good st t) (k : Bytes) {m : List (Bytes × Bytes)} (hn : (m.map (·.1)).Nodup) : Good (Ref.putFields st t k m) t := by
  unfold Ref.putFields
  split
  · exact g.upd k none fun e m h => by cases h
  · rename_i hne
    exact g.upd k _ fun e m' h h' => by cases h; cases h'; exact ⟨hne, hn⟩

theorem Good.fields (g : Good st t) {k : Bytes} {m : List (Bytes × Bytes)} (h : fields st t k = .ok m) : (m.map (·.1)).Nodup := by
  unfold Ref.fields at h
  split at h
  · cases h; exact List.nodup_nil
  · rename_i hv; cases h; exact (g k m hv).2
  · cases h

theorem puts_nodup (fv : List (Bytes × Bytes)) {m : List (Bytes × Bytes)} (h : (m.map (·.1)).Nodup) :
    ((fv.foldl (fun m p => fput m p.1 p.2) m).map (·.1)).Nodup := by
  induction fv generalizing m with
  | nil => exact h
  | cons p fv ih => exact ih (fput_keys_nodup h _ _)

theorem Good.puts (g : Good st t) (kv : List (Bytes × Bytes)) : Good (kv.foldl (fun st p => put st p.1 p.2) st) t := by
  induction kv generalizing st with
  | nil => exact g
  | cons p kv ih => exact ih (g.text _ _ _)

theorem Good.addTo (g : Good st t) (k : Bytes) (n : Int) : Good (Ref.addTo st t k n).1 t := by
  unfold Ref.addTo
  split
  · split
    · exact g
    · split
      · exact g.text _ _ _
      · exact g
  · exact g
  · exact g

theorem Good.exec (g : Good st t) (op : Call) (ht : Told op) : Good (Ref.exec st t op).1 t := by
  cases op <;> simp only [Ref.exec] <;> first | exact g | exact ht.elim | exact g.text _ _ _ | exact g.addTo _ _ | exact g.puts _ | skip
  case setNX k v => split <;> first | exact g | exact g.text _ _ _
  case setEX k v n => split <;> first | exact g | exact g.text _ _ _
  case pSetEX k v n => split <;> first | exact g | exact g.text _ _ _
  case getSet k v => split <;> first | exact g | exact g.text _ _ _
  case append k v => split <;> first | exact g.text _ _ _ | exact g
  case setRange k p r =>
    split
    · exact g
    · split
      · split
        · exact g
        · split <;> first | exact g | exact g.text _ _ _
      · exact g
      · exact g
  case mSetNX kv => split <;> first | exact g | exact g.puts _
  case del k => exact g.upd k none fun e m h => by cases h
  case flush => intro k m h; cases h
  case hSet k f v =>
    split
    · rename_i m hf; exact g.putFields k (fput_keys_nodup (g.fields hf) _ _)
    · exact g
    · exact g
  case hSetNX k f v =>
    split
    · rename_i m hf
      split <;> first | exact g | exact g.putFields k (fput_keys_nodup (g.fields hf) _ _)
    · exact g
    · exact g
  case hDel k fs =>
    split
    · rename_i m hf; exact g.putFields k ((g.fields hf).sublist ((List.filter_sublist).map _))
    · exact g
    · exact g
  case hIncrBy k f n =>
    split
    · rename_i m hf
      split
      · exact g
      · split <;> first | exact g.putFields k (fput_keys_nodup (g.fields hf) _ _) | exact g
    · exact g
    · exact g
  case hMSet k fv =>
    split
    · rename_i m hf; exact g.putFields k (puts_nodup fv (g.fields hf))
    · exact g
    · exact g

/-- What single safe calls from `t` on show. -/
def Looks (t : Int) (c : Cache) (st : Store) : Prop :=
  ∀ s, t ≤ s → ∀ op, Safe st s op → (Verif.exec c s op).2 = (exec st s op).2

theorem Looks.text (h : Looks t c st) (k : Bytes) {s : Int} (hs : t ≤ s) : shown (.err .keyNil) (liveVal c s k) = text st s k (.err .keyNil) := by
  have := h s hs (.get k) trivial
  simp only [Verif.exec, Ref.exec, get_snd, Out.str.injEq] at this
  rw [← this]
  cases liveVal c s k <;> rfl

theorem fmtString_ne_nil (w : Val) : fmtString w ≠ .err .keyNil := by cases w <;> simp [fmtString]

theorem Looks.absent (h : Looks t c st) (k : Bytes) {s : Int} (hs : t ≤ s) : liveVal c s k = none ↔ live st s k = none := by
  have := h.text k hs
  constructor
  · intro h1
    rw [h1] at this
    cases hl : live st s k with
    | none => rfl
    | some e =>
      obtain ⟨x, dl⟩ := e
      cases x with
      | str v => rw [text_str hl] at this; cases this
      | hash m => rw [text_hash hl] at this; cases this
  · intro h1
    rw [text_absent h1] at this
    cases hl : liveVal c s k with
    | none => rfl
    | some w => rw [hl] at this; exact absurd this (fmtString_ne_nil w)

/-- What shows alike is alike. -/
theorem sim_of_looks (hi : Inv c) (hg : Good st t) (h : Looks t c st) : Sim t c st := by
  intro k
  have ht := Int.le_refl t
  have hab := h.absent k ht
  have hgone : liveVal c t k = none → Gone t (c.data k) (c.exp k) := by
    intro hl
    by_cases hs : Stale c t k
    · exact .inr hs
    · rw [liveVal_of_not_stale hs] at hl; exact .inl ⟨hl, hi.exp_data k hl⟩
  cases hst : st k with
  | none =>
    have hl := hab.2 (by simp [live, hst])
    rcases hgone hl with h1 | ⟨h1, _⟩
    · exact h1
    · exfalso
      have := h t ht (.exists_ [k]) (by intro j hj e he; simp at hj; subst hj; rw [hst] at he; cases he)
      cases hd : c.data k with
      | none => exact h1 hd
      | some w => simp [Verif.exec, Ref.exec, Cache.exists, hd, view, live, hst] at this
  | some e =>
    cases hl : live st t k with
    | none =>
      refine .inr ⟨hgone (hab.2 hl), ?_⟩
      cases hd : e.dl with
      | none => simp [live, hst, Option.filter, hd] at hl
      | some d => exact ⟨d, rfl, by simp [live, hst, Option.filter, hd] at hl; omega⟩
    | some e' =>
      obtain ⟨h1, _⟩ := Option.filter_eq_some_iff.1 (show (st k).filter _ = _ from hl)
      rw [hst] at h1; cases h1
      cases hw : liveVal c t k with
      | none => rw [hab.1 hw] at hl; cases hl
      | some w =>
        have hs : ¬ Stale c t k := fun hs => by rw [liveVal_none_of_stale hs] at hw; cases hw
        have hd : c.data k = some w := by rw [← liveVal_of_not_stale hs, hw]
        have hfresh : Fresh st t k := by intro e2 he d hd; rw [hst] at he; cases he; exact live_dl hl hd
        refine .inl ⟨w, hd, ?_, ?_⟩
        · have htx := h.text k ht
          rw [hw] at htx
          simp only [shown] at htx
          obtain ⟨x, dl⟩ := e
          cases x with
          | str s =>
            rw [text_str hl] at htx
            cases hi.good k w hd with
            | hash he _ => cases htx
            | scalar sc hsc =>
              simp only [fmtString, GoRes.ok.injEq] at htx
              refine ⟨sc, rfl, ?_⟩
              cases hsc with
              | str s' hn => simp only [fmtScalar] at htx; subst htx; exact .inl ⟨rfl, hn⟩
              | int n => exact .inr (.inl ⟨n, .inl rfl, htx.symm⟩)
              | int64 n => exact .inr (.inl ⟨n, .inr rfl, htx.symm⟩)
              | float f =>
                refine .inr (.inr ⟨f, rfl, htx.symm, ?_⟩)
                cases ha : atoi s with
                | none => rfl
                | some m =>
                  exfalso
                  have := h t ht (.incrBy k 0) ⟨hfresh, fun s' m' _ _ => ⟨by have := m'.le_toInt; simpa using this, by have := m'.toInt_lt; simpa using this⟩⟩
                  have hb : -(2 ^ 63) ≤ m.toInt ∧ m.toInt < 2 ^ 63 := ⟨m.le_toInt, m.toInt_lt⟩
                  simp only [Verif.exec, Ref.exec, Cache.incrBy, hd, incrScalar, addTo, text_str hl, ha, show (0 : Int64).toInt = 0 from rfl, Int.add_zero, if_pos hb] at this
                  cases this
          | hash m =>
            rw [text_hash hl] at htx
            have hf := fields_hash hl
            obtain ⟨hne, hnd⟩ := hg k m (by simp [view, hl])
            cases hi.good k w hd with
            | scalar sc _ => cases htx
            | hash he _ =>
              refine ⟨he, rfl, ⟨?_, hnd, ?_⟩, hne⟩
              · have hkeys := h t ht (.hKeys k) (by show Ref.fields st t k ≠ _; rw [hf]; simpa using hne)
                simp only [Verif.exec, Ref.exec, Cache.hKeys, readHash_snd, hw, asHash, GoRes.bind, hf, GoRes.map, Out.strs.injEq, GoRes.ok.injEq] at hkeys
                have hk' : (texts he).map (·.1) = m.map (·.1) := by rw [← hkeys]; simp [texts]
                refine fields_ext hk' (by rw [hk']; exact hnd) fun f => ?_
                have hget := h t ht (.hGet k f) trivial
                simp only [Verif.exec, Ref.exec, Cache.hGet, readHash_snd, hw, asHash, GoRes.bind, hf, Out.str.injEq] at hget
                rw [fget_texts]
                cases h1 : he.get f <;> cases h2 : fget m f <;> simp_all [slot]
              · have hlen := h t ht (.hLen k) trivial
                simpa only [Verif.exec, Ref.exec, Cache.hLen, readHash_snd, hw, asHash, GoRes.bind, hf, GoRes.map, Out.int.injEq, GoRes.ok.injEq] using hlen
        · -- the deadline
          have hc : ∀ s, liveVal c s k = none ↔ ∃ d, c.exp k = some d ∧ d < s := by
            intro s
            cases hx : c.exp k with
            | none => simp [liveVal, hd, hx]
            | some d => simp only [liveVal, hd, hx, Option.some.injEq, exists_eq_left']; split <;> simp_all
          have hr : ∀ s, live st s k = none ↔ ∃ d, e.dl = some d ∧ d < s := by
            intro s
            cases hx : e.dl with
            | none => simp [live, hst, hx]
            | some d => simp [live, hst, hx]
          have hall : ∀ s, t ≤ s → ((∃ d, c.exp k = some d ∧ d < s) ↔ ∃ d, e.dl = some d ∧ d < s) := fun s hts => by
            rw [← hc, ← hr]; exact h.absent k hts
          have hcl : ∀ d, c.exp k = some d → t ≤ d := by
            intro d hx
            have := mt (hc t).2 (by rw [hw]; simp)
            apply Classical.byContradiction
            intro hlt
            exact this ⟨d, hx, by omega⟩
          cases hx : c.exp k with
          | none =>
            cases hy : e.dl with
            | none => rfl
            | some d' =>
              have := (hall (d' + 1) (by have := live_dl hl hy; omega)).2 ⟨d', hy, by omega⟩
              obtain ⟨_, h1, _⟩ := this
              rw [hx] at h1; cases h1
          | some d =>
            have htd := hcl d hx
            obtain ⟨d', hy, hlt⟩ := (hall (d + 1) (by omega)).1 ⟨d, hx, by omega⟩
            have htd' := live_dl hl hy
            obtain ⟨d2, h2, hlt2⟩ := (hall (d' + 1) (by omega)).2 ⟨d', hy, by omega⟩
            rw [hx] at h2; cases h2
            rw [hy]; congr 1; omega

/-- The reference after a history. -/
def after (st : Store) : History → Store
  | [] => st
  | (t, op) :: h => after (exec st t op).1 h

/-- All calls of a history are alike where they are made. -/
def AlikeRun (c : Cache) (st : Store) : History → Prop
  | [] => True
  | (t, op) :: h => Alike c st t op ∧ AlikeRun (Verif.exec c t op).1 (exec st t op).1 h

/-- A call is alike exactly if nothing safe done from then on shows a difference. -/
theorem alike_iff (hi : Inv c) (r : Sim t c st) (op : Call) (ht : Told op) :
    Alike c st t op ↔ ∀ h, Monotone t h → SafeRun (exec st t op).1 h →
      Verif.outs c ((t, op) :: h) = outs st ((t, op) :: h) := by
  rw [← exact_step hi r op ht]
  constructor
  · rintro ⟨h1, h2⟩ h hm hs
    simp only [Verif.outs, outs]
    rw [h1, outs_eq h h2 hm hs]
  · intro H
    have h1 : (Verif.exec c t op).2 = (exec st t op).2 := by
      have := H [] trivial trivial
      simpa [Verif.outs, outs] using this
    refine ⟨h1, sim_of_looks (hi.exec t op) (r.good.exec op ht) ?_⟩
    intro s hts op' hs
    have := H [(s, op')] ⟨hts, trivial⟩ ⟨hs, trivial⟩
    simpa [Verif.outs, outs, h1] using this

theorem run_iff (h : History) : ∀ {t : Int} {c : Cache} {st : Store}, Inv c → Sim t c st → Monotone t h → (∀ p ∈ h, Told p.2) →
    (AlikeRun c st h ↔ ∀ h1 h2 g, h = h1 ++ h2 → Monotone t (h1 ++ g) → SafeRun (after st h1) g →
      Verif.outs c (h1 ++ g) = outs st (h1 ++ g)) := by
  induction h with
  | nil =>
    intro t c st hi r hm ht
    refine iff_of_true trivial ?_
    rintro h1 h2 g e hm hs
    cases List.append_eq_nil_iff.1 e.symm |>.1
    exact outs_eq g r hm hs
  | cons p h ih =>
    obtain ⟨s, op⟩ := p
    intro t c st hi r hm ht
    have ht0 : Told op := ht _ (List.mem_cons_self ..)
    have r' := r.later hm.1
    constructor
    · rintro ⟨ha, hrun⟩ h1 h2 g e hmg hs
      obtain ⟨h3, h4⟩ := (exact_step hi r' op ht0).2 ha
      have := (ih (hi.exec s op) h4 hm.2 fun p hp => ht p (List.mem_cons_of_mem _ hp)).1 hrun
      cases h1 with
      | nil => exact outs_eq g r hmg hs
      | cons q h1 =>
        simp only [List.cons_append, List.cons.injEq] at e
        obtain ⟨rfl, e⟩ := e
        simp only [List.cons_append, Verif.outs, outs]
        rw [h3, this h1 h2 g e hmg.2 hs]
    · intro H
      have ha : Alike c st s op := by
        rw [alike_iff hi r' op ht0]
        intro g hmg hs
        exact H [(s, op)] h g rfl ⟨hm.1, hmg⟩ hs
      obtain ⟨h3, h4⟩ := (exact_step hi r' op ht0).2 ha
      refine ⟨ha, (ih (hi.exec s op) h4 hm.2 fun p hp => ht p (List.mem_cons_of_mem _ hp)).2 ?_⟩
      intro h1 h2 g e hmg hs
      have := H ((s, op) :: h1) h2 g (by rw [e]; rfl) ⟨hm.1, hmg⟩ hs
      simp only [List.cons_append, Verif.outs, outs, h3, List.cons.injEq, true_and] at this
      exact this

end Verif.Ref

namespace Verif
open Cache

/-- C90, one call, exact: on a cache and a reference in agreement (`Ref.Sim`) a call answers as the Redis documentation says,
and so does everything safe done afterwards, if and only if the call is `Ref.Alike`.  All calls but the two float counters, whose
reference is simplified, and the list calls. -/
theorem C90_exact (c : Cache) (st : Ref.Store) (t : Int) (op : Call) (hi : Inv c) (hs : Ref.Sim t c st) (ht : Ref.Told op) :
    Ref.Alike c st t op ↔ ∀ h, Monotone t h → Ref.SafeRun (Ref.exec st t op).1 h →
      outs c ((t, op) :: h) = Ref.outs st ((t, op) :: h) := Ref.alike_iff hi hs op ht

/-- C90, whole histories, exact: the calls are all `Ref.Alike` if and only if after no beginning of the history anything safe shows a
difference from Redis. -/
theorem C90_run_exact (h : History) (t0 : Int) (hm : Monotone t0 h) (ht : ∀ p ∈ h, Ref.Told p.2) :
    Ref.AlikeRun Cache.new Ref.empty h ↔ ∀ h1 h2 g, h = h1 ++ h2 → Monotone t0 (h1 ++ g) → Ref.SafeRun (Ref.after Ref.empty h1) g →
      outs Cache.new (h1 ++ g) = Ref.outs Ref.empty (h1 ++ g) :=
  Ref.run_iff h Inv.new (Ref.Sim.new t0) hm ht

/-- The answers of such a history are those of Redis. -/
theorem C90_alike (h : History) (t0 : Int) (hm : Monotone t0 h) (ht : ∀ p ∈ h, Ref.Told p.2) (ha : Ref.AlikeRun Cache.new Ref.empty h) :
    outs Cache.new h = Ref.outs Ref.empty h := by
  have := (C90_run_exact h t0 hm ht).1 ha h [] [] (by simp) (by simpa using hm) trivial
  simpa using this

/-- What is safe is alike. -/
theorem Ref.Safe.alike {c : Cache} {st : Ref.Store} {t : Int} {op : Call} (hi : Inv c) (hs : Ref.Sim t c st) (ht : Ref.Told op)
    (h : Ref.Safe st t op) : Ref.Alike c st t op := (Ref.exact_step hi hs op ht).1 (Ref.step hs op h)

/-- A history with calls that are alike but not safe: a plain write to a key whose deadline passed after it was read, `SetRange` of
nothing, `HIncrBy` of a field that is zero, `HMSet` of nothing to a hash. -/
def alikeExample : History :=
  [(0, .setEX b!"k" b!"a" 1), (2000000000, .get b!"k"), (2000000000, .set b!"k" b!"hello"), (2000000001, .setRange b!"k" 2 []),
   (2000000001, .hSet b!"h" b!"f" b!"0"), (2000000001, .hIncrBy b!"h" b!"f" 7), (2000000002, .hMSet b!"h" []),
   (2000000002, .decrBy b!"n" 1), (2000000002, .decrBy b!"n" (-9223372036854775808))]

theorem alikeExample_alike : Ref.AlikeRun Cache.new Ref.empty alikeExample := by
  have nofresh : ∀ {c : Cache} {t : Int} {k : Bytes}, c.exp k = none → ¬ Stale c t k := by
    rintro c t k h ⟨_, d, hd, _⟩; rw [h] at hd; cases hd
  simp only [alikeExample, Ref.AlikeRun, Ref.Alike, and_true, true_and]
  refine ⟨⟨verbatim_of (by decide +kernel), by decide, by decide⟩, ⟨verbatim_of (by decide +kernel), by decide +kernel⟩, ?_, ?_, ?_, ?_, ?_, ?_⟩
  · intro _ s h
    have e : GoRes.ok b!"hello" = GoRes.ok s := h
    injection e with e; subst e
    exact .inl ⟨by decide +kernel, by decide +kernel, by decide +kernel⟩
  · intro m _; exact by decide +kernel
  · intro h sc h1 h2
    have e : some (Val.hash ⟨[(b!"f", .int 0)], 1⟩) = some (Val.hash h) := h1
    injection e with e; injection e with e; subst e
    have e : some (Scalar.int 0) = some sc := h2
    injection e with e; subst e
    exact .inl ⟨⟨_, rfl⟩, by decide +kernel⟩
  · intro m h
    refine ⟨fun _ e => ?_, fun f v h => by cases h⟩
    subst e
    have e : GoRes.ok [(b!"f", b!"7")] = (GoRes.ok [] : Res (List (Bytes × Bytes))) := h
    cases e
  · refine .inl ⟨nofresh (by decide +kernel), fun s m h hm => ?_⟩
    have e : GoRes.ok b!"0" = GoRes.ok s := h
    injection e with e; subst e
    have : m = 0 := by
      have e : atoi b!"0" = some 0 := by decide +kernel
      rw [e] at hm; cases hm; rfl
    subst this; unfold Ref.Fits; decide
  · refine .inl ⟨nofresh (by decide +kernel), fun s m h hm => ?_⟩
    have e : GoRes.ok b!"-1" = GoRes.ok s := h
    injection e with e; subst e
    have : m = -1 := by
      have e : atoi b!"-1" = some (-1) := by decide +kernel
      rw [e] at hm; cases hm; rfl
    subst this; unfold Ref.Fits; decide

example : Monotone 0 alikeExample ∧ (∀ p ∈ alikeExample, Ref.Told p.2) ∧ Ref.AlikeRun Cache.new Ref.empty alikeExample ∧
    ¬ Ref.SafeRun Ref.empty alikeExample ∧
    Ref.outs Ref.empty alikeExample =
      [.str (.ok b!"OK"), .str (.err .keyNil), .str (.ok b!"OK"), .int (.ok 5), .int (.ok 1), .int (.ok 7), .int (.ok 0),
       .int (.ok (-1)), .int (.ok 9223372036854775807)] := by
  refine ⟨by simp [alikeExample, Monotone], by simp [alikeExample, Ref.Told], alikeExample_alike, ?_, by decide +kernel⟩
  rintro ⟨_, _, ⟨_, h⟩, _⟩
  have := h ⟨.str b!"a", some 1000000000⟩ rfl
  cases this

/-- `C90_exact` at a call that is not alike: the difference shows two calls later. -/
example : ∃ (c : Cache) (st : Ref.Store), Inv c ∧ Ref.Sim 0 c st ∧ Ref.Told (.set b!"k" b!"b") ∧ ¬ Ref.Alike c st 0 (.set b!"k" b!"b") := by
  have hs : Ref.Step 0 Cache.new Ref.empty (.setEX b!"k" b!"a" 1) :=
    Ref.step (Ref.Sim.new 0) _ ⟨verbatim_of (by decide +kernel), by decide, by decide⟩
  refine ⟨_, _, Inv.new.exec 0 (.setEX b!"k" b!"a" 1), hs.2, trivial, ?_⟩
  rintro ⟨_, h⟩
  revert h; decide +kernel

end Verif

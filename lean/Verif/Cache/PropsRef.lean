import Verif.Cache.RefSim
import Verif.PropsFloat
/-!
# C90: the cache answers like the reference on safe histories
-/
namespace Verif.Ref
open Verif Cache

variable {t : Int} {c : Cache} {st : Store}

/-- One call keeps cache and reference together and gives the same answer. -/
def Step (t : Int) (c : Cache) (st : Store) (op : Call) : Prop :=
  (Verif.exec c t op).2 = (exec st t op).2 ∧ Sim t (Verif.exec c t op).1 (exec st t op).1

theorem text_absent {k : Bytes} {a : Res Bytes} (h : live st t k = none) : text st t k a = a := by
  simp [text, view, h]

theorem text_str {k : Bytes} {a : Res Bytes} {s : Bytes} {dl : Option Int} (h : live st t k = some ⟨.str s, dl⟩) :
    text st t k a = .ok s := by simp [text, view, h]

theorem text_hash {k : Bytes} {a : Res Bytes} {m : List (Bytes × Bytes)} {dl : Option Int}
    (h : live st t k = some ⟨.hash m, dl⟩) : text st t k a = .err .wrongType := by simp [text, view, h]

theorem fields_absent {k : Bytes} (h : live st t k = none) : fields st t k = .ok [] := by
  simp [fields, view, h]

theorem fields_str {k : Bytes} {s : Bytes} {dl : Option Int} (h : live st t k = some ⟨.str s, dl⟩) :
    fields st t k = .err .wrongType := by simp [fields, view, h]

theorem fields_hash {k : Bytes} {m : List (Bytes × Bytes)} {dl : Option Int}
    (h : live st t k = some ⟨.hash m, dl⟩) : fields st t k = .ok m := by simp [fields, view, h]

theorem fields_cases (st : Store) (t : Int) (k : Bytes) :
    (∃ m, fields st t k = .ok m) ∨ fields st t k = .err .wrongType := by
  unfold fields
  rcases view st t k with _ | (_ | _)
  · exact .inl ⟨_, rfl⟩
  · exact .inr rfl
  · exact .inl ⟨_, rfl⟩

/-- Storing a value where a lookup was made. -/
theorem Sim.keep {k : Bytes} {o : Option Val} (r : Sim t c st) (hm : Meets t k st c o) {w : Val} {v : RVal}
    (hv : ValRel w v) : Sim t (c.store k w) (keep st t k v) := by
  cases hm with
  | absent h h1 h2 => exact r.store k hv (by rw [h2, h]; rfl)
  | present e w' h hv' h1 h2 => exact r.store k hv (by rw [h2, h]; rfl)

theorem step_set (r : Sim t c st) (k v : Bytes) (hs : Safe st t (.set k v)) : Step t c st (.set k v) :=
  ⟨rfl, r.store k (.of_canon hs.1) (r.noDeadline hs.2)⟩

theorem step_setNX (r : Sim t c st) (k v : Bytes) (hs : Safe st t (.setNX k v)) : Step t c st (.setNX k v) := by
  have hm := r.fresh hs.2
  unfold Step
  simp only [Verif.exec, Cache.setNX, exec, view]
  revert hm
  cases hd : c.data k with
  | none =>
    intro hm
    cases hm with
    | absent h h1 h2 =>
      simp only [h, Option.map_none, Option.isSome_none]
      exact ⟨rfl, r.store k (.of_canon hs.1) h2⟩
  | some w =>
    intro hm
    cases hm with
    | present e w' h hv h1 h2 =>
      simp only [h, Option.map_some, Option.isSome_some, if_true]
      exact ⟨rfl, r⟩

theorem toInt_mul_of_fits {a n : Int64} (h0 : 0 ≤ a.toInt * n.toInt) (h : a.toInt * n.toInt < 2 ^ 63) :
    (a * n).toInt = a.toInt * n.toInt := by
  rw [Int64.toInt_mul, Int.bmod_eq_of_le (by omega) (by omega)]

theorem step_expires {a n : Int64} (r : Sim t c st) (k v : Bytes) (hv : canon v = v) (ha : 0 < a.toInt)
    (hn : 0 < n.toInt) (h : a.toInt * n.toInt < 2 ^ 63) :
    Sim t ((c.store k (.scalar (tryInt64 v))).expires t k (a * n))
      (Verif.upd st k (some ⟨.str v, some (t + a.toInt * n.toInt)⟩)) := by
  have hp : 0 < a.toInt * n.toInt := Int.mul_pos ha hn
  have e := toInt_mul_of_fits (by omega) h
  refine r.upd k _ ?_ fun j hj => ?_
  · simp only [Cache.expires, e, if_neg (show ¬ a.toInt * n.toInt ≤ 0 by omega)]
    exact .inl ⟨_, by simp [Cache.store], .of_canon hv, by simp⟩
  · exact (sameAt_expires hj).trans (sameAt_store hj)

theorem step_setEX (r : Sim t c st) (k v : Bytes) (n : Int64) (hs : Safe st t (.setEX k v n)) :
    Step t c st (.setEX k v n) := by
  have e : (1000000000 : Int64).toInt = 1000000000 := by decide
  unfold Step
  simp only [exec, if_neg (show ¬ n.toInt ≤ 0 by have := hs.2.1; omega)]
  refine ⟨rfl, ?_⟩
  have := step_expires (a := 1000000000) (n := n) r k v hs.1 (by rw [e]; omega) hs.2.1 (by rw [e]; exact hs.2.2)
  rw [e] at this; exact this

theorem step_pSetEX (r : Sim t c st) (k v : Bytes) (n : Int64) (hs : Safe st t (.pSetEX k v n)) :
    Step t c st (.pSetEX k v n) := by
  have e : (1000000 : Int64).toInt = 1000000 := by decide
  unfold Step
  simp only [exec, if_neg (show ¬ n.toInt ≤ 0 by have := hs.2.1; omega)]
  refine ⟨rfl, ?_⟩
  have := step_expires (a := 1000000) (n := n) r k v hs.1 (by rw [e]; omega) hs.2.1 (by rw [e]; exact hs.2.2)
  rw [e] at this; exact this

/-- What a string read shows. -/
def shown (a : Res Bytes) : Option Val → Res Bytes
  | none => a
  | some v => fmtString v

theorem Meets.text {k : Bytes} {o : Option Val} (hm : Meets t k st c o) (a : Res Bytes) :
    text st t k a = shown a o := by
  cases hm with
  | absent h h1 h2 => exact text_absent h
  | present e w h hv h1 h2 =>
    obtain ⟨v, dl⟩ := e
    cases v with
    | str s => obtain ⟨sc, rfl, hsc⟩ := hv; rw [text_str h]; simp [shown, fmtString, hsc.fmt]
    | hash m => obtain ⟨he, rfl, _⟩ := hv; rw [text_hash h]; rfl

theorem step_get (r : Sim t c st) (k : Bytes) : Step t c st (.get k) := by
  obtain ⟨r', hm⟩ := r.load k
  unfold Step
  simp only [Verif.exec, exec]
  rw [get_fst, get_snd, ← load_snd, hm.text]
  refine ⟨?_, r'⟩
  cases (c.load t k).2 <;> rfl

theorem step_getSet (r : Sim t c st) (k v : Bytes) (hs : Safe st t (.getSet k v)) : Step t c st (.getSet k v) := by
  obtain ⟨r', hm⟩ := r.load k
  obtain ⟨hv, hd, hh⟩ := hs
  unfold Step
  simp only [Verif.exec, Cache.getSet, exec]
  generalize c.load t k = p at *
  obtain ⟨c', o⟩ := p
  cases hm with
  | absent h h1 h2 =>
    simp only [text_absent h]
    exact ⟨trivial, r'.store k (.of_canon hv) h2⟩
  | present e w h hv' h1 h2 =>
    obtain ⟨x, dl⟩ := e
    have hdl := hd _ h
    cases x with
    | str s =>
      obtain ⟨sc, rfl, hsc⟩ := hv'
      simp only [text_str h, fmtString, hsc.fmt]
      exact ⟨trivial, r'.store k (.of_canon hv) (by rw [h2, hdl])⟩
    | hash m => exact absurd (by simp [view, h]) (hh m)

theorem step_strLen (r : Sim t c st) (k : Bytes) : Step t c st (.strLen k) := by
  obtain ⟨r', hm⟩ := r.load k
  unfold Step
  simp only [Verif.exec, Cache.strLen, loadLive, exec]
  rw [hm.text]
  generalize c.load t k = p at *
  obtain ⟨c', o⟩ := p
  cases o <;> exact ⟨rfl, r'⟩

theorem step_getRange (r : Sim t c st) (k : Bytes) (a b : Int64) : Step t c st (.getRange k a b) := by
  obtain ⟨r', hm⟩ := r.load k
  unfold Step
  simp only [Verif.exec, Cache.getRange, loadLive, exec]
  rw [hm.text]
  generalize c.load t k = p at *
  obtain ⟨c', o⟩ := p
  cases o with
  | none => exact ⟨by simp [shown, GoRes.map, GoRes.bind, between], r'⟩
  | some v => simp only [between_eq, shown]; exact ⟨trivial, r'⟩

theorem step_append (r : Sim t c st) (k v : Bytes) (hs : Safe st t (.append k v)) : Step t c st (.append k v) := by
  obtain ⟨r', hm⟩ := r.load k
  unfold Step
  simp only [Verif.exec, Cache.append, loadLive, exec]
  have hs : ∀ s, text st t k (.ok []) = .ok s → canon (s ++ v) = s ++ v := hs
  rw [hm.text] at hs ⊢
  generalize c.load t k = p at *
  obtain ⟨c', o⟩ := p
  cases o with
  | none => exact ⟨rfl, r'.keep hm (.of_canon (hs [] rfl))⟩
  | some w =>
    simp only [shown] at hs ⊢
    cases hw : fmtString w with
    | ok s => exact ⟨rfl, r'.keep hm (.of_canon (hs s hw))⟩
    | err e => exact ⟨rfl, r'⟩
    | panic => exact absurd hw (fmtString_ne_panic w)

theorem step_setRange (r : Sim t c st) (k : Bytes) (p : Int64) (x : Bytes) (hs : Safe st t (.setRange k p x)) :
    Step t c st (.setRange k p x) := by
  obtain ⟨r', hm⟩ := r.load k
  unfold Step
  simp only [Verif.exec, Cache.setRange, loadLive, exec]
  have hs : 0 ≤ p.toInt → x ≠ [] ∧ p.toInt + x.length ≤ maxText ∧ ∀ s, text st t k (.ok []) = .ok s → canon (overwrite s p.toInt.toNat x) = overwrite s p.toInt.toNat x := hs
  by_cases hp : p.toInt < 0
  · simp only [if_pos hp]; exact ⟨trivial, r⟩
  · simp only [if_neg hp]
    obtain ⟨hx, hmx, hs⟩ := hs (by omega)
    have hm1 : ¬ maxText < p.toInt + x.length := by omega
    have hm2 : ¬ maxAlloc < p.toInt := by simp only [maxText] at hmx; simp only [maxAlloc]; omega
    rw [hm.text] at hs ⊢
    generalize c.load t k = q at *
    obtain ⟨c', o⟩ := q
    cases o with
    | none =>
      simp only [shown, if_neg hx, if_neg hm1, if_neg hm2, overwrite_nil]
      exact ⟨trivial, r'.keep hm (.of_canon (hs [] rfl))⟩
    | some w =>
      simp only [shown] at hs ⊢
      cases hw : fmtString w with
      | ok s =>
        simp only [if_neg hx, if_neg hm1, if_neg hm2, overwrite_eq]
        exact ⟨trivial, r'.keep hm (.of_canon (hs s hw))⟩
      | err e => exact ⟨rfl, r'⟩
      | panic => exact absurd hw (fmtString_ne_panic w)

theorem toInt_add_of_fits {a n : Int64} (h0 : -(2 ^ 63) ≤ a.toInt + n.toInt) (h : a.toInt + n.toInt < 2 ^ 63) :
    (a + n).toInt = a.toInt + n.toInt := by
  rw [Int64.toInt_add, Int.bmod_eq_of_le (by omega) (by omega)]

theorem step_incrBy (r : Sim t c st) (k : Bytes) (n : Int64) (hs : Sum st t k n.toInt) :
    (Out.int ((c.incrBy k n).2.map Int64.toInt)) = (addTo st t k n.toInt).2 ∧
      Sim t (c.incrBy k n).1 (addTo st t k n.toInt).1 := by
  obtain ⟨hf, hs⟩ := hs
  have hm := r.fresh hf
  have hk := @Sim.keep t c st k _ r hm
  unfold Cache.incrBy addTo
  revert hm
  cases hd : c.data k with
  | none =>
    intro hm
    rw [hm.text]
    have e0 : atoi b!"0" = some 0 := by decide +kernel
    have hb : -(2 ^ 63) ≤ n.toInt ∧ n.toInt < 2 ^ 63 := ⟨n.le_toInt, n.toInt_lt⟩
    simp only [shown, e0, show (0 : Int64).toInt = 0 from rfl, Int.zero_add, if_pos hb]
    exact ⟨rfl, hk ⟨_, rfl, .inr (.inl ⟨n, .inr rfl, rfl⟩)⟩⟩
  | some w =>
    intro hm
    rw [hm.text]
    cases hm with
    | present e w h hv h1 h2 =>
      obtain ⟨x, dl⟩ := e
      cases x with
      | hash m => obtain ⟨he, rfl, _⟩ := hv; exact ⟨rfl, r⟩
      | str s =>
        obtain ⟨sc, rfl, hsc⟩ := hv
        simp only [shown, fmtString, hsc.fmt]
        rcases hsc with ⟨rfl, hn⟩ | ⟨m, hm, rfl⟩ | ⟨y, rfl, rfl, hn⟩
        · simp only [hn.1]; exact ⟨rfl, r⟩
        · have hb := hs (itoa m) m (by simp [view, h]) (atoi_itoa m)
          simp only [atoi_itoa, if_pos hb]
          have e := toInt_add_of_fits hb.1 hb.2
          have e' : itoaInt (m.toInt + n.toInt) = itoa (m + n) := by rw [itoa, e]
          rcases hm with rfl | rfl
          · simp only [incrScalar, GoRes.map, GoRes.bind, e, e']
            exact ⟨trivial, hk ⟨_, rfl, .inr (.inl ⟨m + n, .inl rfl, rfl⟩)⟩⟩
          · simp only [incrScalar, GoRes.map, GoRes.bind, e, e']
            exact ⟨trivial, hk ⟨_, rfl, .inr (.inl ⟨m + n, .inr rfl, rfl⟩)⟩⟩
        · simp only [hn]; exact ⟨rfl, r⟩

theorem step_mSet (r : Sim t c st) (kv : List (Bytes × Bytes)) (hs : Safe st t (.mSet kv)) :
    Step t c st (.mSet kv) := by
  refine ⟨rfl, ?_⟩
  show Sim t (kv.foldl (fun c p => c.store p.1 (.scalar (tryInt64 p.2))) c) (kv.foldl (fun st p => put st p.1 p.2) st)
  have hs : ∀ p ∈ kv, canon p.2 = p.2 ∧ NoDeadline st p.1 := hs
  induction kv generalizing c st with
  | nil => exact r
  | cons p kv ih =>
    simp only [List.foldl_cons]
    obtain ⟨h1, h2⟩ := hs p (by simp)
    refine ih (r.store p.1 (.of_canon h1) (r.noDeadline h2)) ?_ ?_ <;>
    · intro q hq
      obtain ⟨h3, h4⟩ := hs q (by simp [hq])
      refine ⟨h3, ?_⟩
      intro e he
      unfold put Verif.upd at he
      split at he
      · cases he; rfl
      · exact h4 e he

theorem step_mGet (r : Sim t c st) (ks : List Bytes) (hs : Safe st t (.mGet ks)) : Step t c st (.mGet ks) := by
  have hs : ∀ k ∈ ks, ∀ m, view st t k ≠ some (.hash m) := hs
  have key : (c.mGet t ks).2 = (ks.map fun k => textOrNil (view st t k)) ∧ Sim t (c.mGet t ks).1 st := by
    induction ks generalizing c with
    | nil => exact ⟨rfl, r⟩
    | cons k ks ih =>
      obtain ⟨h1, h2⟩ := step_get r k
      have h2 : Sim t (c.get t k).1 st := h2
      have h1 : (c.get t k).2 = text st t k (.err .keyNil) := by
        have : Out.str (c.get t k).2 = .str (text st t k (.err .keyNil)) := h1
        injection this
      have hs' : ∀ k ∈ ks, ∀ m, view st t k ≠ some (.hash m) := fun k hk => hs k (by simp [hk])
      obtain ⟨h3, h4⟩ := ih h2 hs' hs'
      simp only [Cache.mGet, List.map_cons]
      refine ⟨?_, h4⟩
      rw [h3, h1]
      congr 1
      have := hs k (by simp)
      unfold text
      cases hv : view st t k with
      | none => rfl
      | some x =>
        cases x with
        | str s => rfl
        | hash m => exact absurd hv (this m)
  unfold Step
  simp only [Verif.exec, exec]
  exact ⟨by rw [key.1], key.2⟩

theorem step_del (r : Sim t c st) (k : Bytes) : Step t c st (.del k) := by
  obtain ⟨r', hm⟩ := r.load k
  unfold Step
  simp only [Verif.exec, Cache.del, exec]
  refine ⟨?_, ?_⟩
  · generalize (c.load t k).2 = o at hm
    cases hm with
    | absent h h1 h2 => simp [view, h]
    | present e w h hv h1 h2 => simp [view, h]
  · exact r'.erase k (by simp) (by simp) fun j hj => by simp [SameAt, hj]

theorem step_exists (r : Sim t c st) (ks : List Bytes) (hs : Safe st t (.exists_ ks)) : Step t c st (.exists_ ks) := by
  refine ⟨?_, r⟩
  have hs : ∀ k ∈ ks, Fresh st t k := hs
  show Out.int (.ok (c.exists ks)) = .int (.ok (ks.countP fun k => (view st t k).isSome))
  rw [exists_eq, List.countP_eq_length_filter]
  congr 4
  apply List.filter_congr
  intro k hk
  have hm := r.fresh (hs k hk)
  generalize c.data k = o at hm
  cases hm with
  | absent h _ _ => simp [view, h]
  | present e w h _ _ _ => simp [view, h]

theorem step_type (r : Sim t c st) (k : Bytes) (hs : Safe st t (.type k)) : Step t c st (.type k) := by
  obtain ⟨r', hm⟩ := r.load k
  have hs : ∀ m, view st t k ≠ some (.hash m) := hs
  unfold Step
  simp only [Verif.exec, Cache.type, exec]
  generalize c.load t k = p at *
  obtain ⟨c', o⟩ := p
  cases hm with
  | absent h h1 h2 => simp only [view, h]; exact ⟨rfl, r'⟩
  | present e w h hv h1 h2 =>
    obtain ⟨x, dl⟩ := e
    cases x with
    | hash m => exact absurd (by simp [view, h]) (hs m)
    | str s => simp only [view, h]; exact ⟨rfl, r'⟩

/-! ## Hash calls -/

/-- What a hash call meets. -/
inductive MeetsHash (t : Int) (k : Bytes) (st : Store) : Option Val → Prop where
  | absent (h : fields st t k = .ok []) : MeetsHash t k st none
  | hash (m : List (Bytes × Bytes)) (he : HashEntry) (h : fields st t k = .ok m) (hr : HRel he m) (hne : m ≠ []) :
      MeetsHash t k st (some (.hash he))
  | scalar (sc : Scalar) (h : fields st t k = .err .wrongType) : MeetsHash t k st (some (.scalar sc))

theorem Meets.hash {k : Bytes} {o : Option Val} (hm : Meets t k st c o) : MeetsHash t k st o := by
  cases hm with
  | absent h h1 h2 => exact .absent (fields_absent h)
  | present e w h hv h1 h2 =>
    obtain ⟨x, dl⟩ := e
    cases x with
    | str s => obtain ⟨sc, rfl, _⟩ := hv; exact .scalar sc (fields_str h)
    | hash m => obtain ⟨he, rfl, hr, hne⟩ := hv; exact .hash m he (fields_hash h) hr hne

theorem Sim.putFields {k : Bytes} {o : Option Val} (r : Sim t c st) (hm : Meets t k st c o) {h : HashEntry}
    {m : List (Bytes × Bytes)} (hr : HRel h m) (hne : m ≠ []) :
    Sim t (c.store k (.hash h)) (putFields st t k m) := by
  unfold Ref.putFields
  rw [if_neg hne]
  exact r.keep hm ⟨h, rfl, hr, hne⟩

/-- A call that changes a map. -/
theorem step_withHash {α : Type} (r : Sim t c st) (k : Bytes) (g : HashEntry → HashEntry × Res α)
    (m' : List (Bytes × Bytes) → List (Bytes × Bytes)) (a : List (Bytes × Bytes) → Res α)
    (hg : ∀ h m, fields st t k = .ok m → HRel h m → HRel (g h).1 (m' m) ∧ m' m ≠ [] ∧ (g h).2 = a m) :
    (c.withHash t k g).2 = (fields st t k).bind a ∧
      Sim t (c.withHash t k g).1 (match fields st t k with
        | .ok m => putFields st t k (m' m)
        | _ => st) := by
  obtain ⟨r', hm⟩ := r.load k
  have hh := hm.hash
  rw [withHash_snd, withHash_fst, ← load_snd]
  generalize c.load t k = p at *
  obtain ⟨c', o⟩ := p
  cases hh with
  | absent h =>
    obtain ⟨h1, h2, h3⟩ := hg _ _ h HRel.empty
    rw [h]
    exact ⟨h3, r'.putFields hm h1 h2⟩
  | hash m he h hr hne =>
    obtain ⟨h1, h2, h3⟩ := hg _ _ h hr
    rw [h]
    exact ⟨h3, r'.putFields hm h1 h2⟩
  | scalar sc h => rw [h]; exact ⟨rfl, r'⟩

theorem step_hSet (r : Sim t c st) (k f v : Bytes) (hs : Safe st t (.hSet k f v)) : Step t c st (.hSet k f v) := by
  have hs : canon v = v := hs
  have := step_withHash r k (fun h => ((h.set f v).1, (.ok (h.set f v).2 : Res Int)))
    (fun m => fput m f v) (fun m => .ok (if (fget m f).isSome then 0 else 1)) (by
      intro h m _ hr
      obtain ⟨h1, h2⟩ := hr.set f hs
      exact ⟨h1, fput_ne_nil _ _ _, by rw [h2]⟩)
  unfold Step
  simp only [Verif.exec, Cache.hSet, exec]
  rcases fields_cases st t k with ⟨m, e⟩ | e <;> rw [e] at this ⊢ <;> exact ⟨congrArg Out.int this.1, this.2⟩

theorem step_hMSet (r : Sim t c st) (k : Bytes) (fv : List (Bytes × Bytes)) (hs : Safe st t (.hMSet k fv)) :
    Step t c st (.hMSet k fv) := by
  obtain ⟨hne, hv⟩ := hs
  have := step_withHash r k (fun h => ((hMSetLoop fv h 0).1, (.ok (hMSetLoop fv h 0).2 : Res Int)))
    (fun m => fv.foldl (fun m p => fput m p.1 p.2) m)
    (fun m => .ok ((fv.foldl (fun m p => fput m p.1 p.2) m).length - m.length)) (by
      intro h m _ hr
      obtain ⟨h1, h2⟩ := hr.mset hv 0
      exact ⟨h1, foldl_fput_ne_nil hne _, by rw [h2]; simp⟩)
  unfold Step
  simp only [Verif.exec, Cache.hMSet, exec]
  rcases fields_cases st t k with ⟨m, e⟩ | e <;> rw [e] at this ⊢ <;> exact ⟨congrArg Out.int this.1, this.2⟩

theorem step_hIncrBy (r : Sim t c st) (k f : Bytes) (n : Int64) (hs : Safe st t (.hIncrBy k f n)) :
    Step t c st (.hIncrBy k f n) := by
  have hs : ∀ m, fields st t k = .ok m → fget m f = none := hs
  have := step_withHash r k (fun h => match hfind h.fields f with
      | none => ((h.set f (itoa n)).1, .ok n)
      | some v =>
        match hIncrScalar n v with
        | .ok n' => ((h.set f (itoa n)).1, .ok n')
        | r => (h, r))
    (fun m => fput m f (itoa n)) (fun _ => .ok n) (by
      intro h m e hr
      have hf := hs m e
      have hn : hfind h.fields f = none := by
        have := hr.isSome f; rw [hf] at this; simpa using this
      simp only [hn]
      exact ⟨(hr.set f (canon_of_verbatim (.inr ⟨n, rfl⟩))).1, fput_ne_nil _ _ _, trivial⟩)
  unfold Step
  simp only [Verif.exec, Cache.hIncrBy, exec]
  rcases fields_cases st t k with ⟨m, e⟩ | e <;> rw [e] at this ⊢
  · have hb : -(2 ^ 63) ≤ n.toInt ∧ n.toInt < 2 ^ 63 := ⟨n.le_toInt, n.toInt_lt⟩
    simp only [hs m e, Option.getD_none, show atoi b!"0" = some 0 by decide +kernel,
      show (0 : Int64).toInt = 0 from rfl, Int.zero_add, if_pos hb]
    exact ⟨congrArg (fun r => Out.int (GoRes.map Int64.toInt r)) this.1, this.2⟩
  · exact ⟨congrArg (fun r => Out.int (GoRes.map Int64.toInt r)) this.1, this.2⟩

theorem store_self {k : Bytes} {w : Val} (h : c.data k = some w) : c.store k w = c := by
  apply Cache.ext'
  · intro j
    by_cases hj : j = k
    · rw [hj, h]; simp [Cache.store]
    · simp [Cache.store, hj]
  · intro j; rfl

theorem step_hSetNX (r : Sim t c st) (k f v : Bytes) : Step t c st (.hSetNX k f v) := by
  obtain ⟨r', hm⟩ := r.load k
  have hh := hm.hash
  unfold Step
  simp only [Verif.exec, exec]
  unfold Cache.hSetNX
  rw [withHash_snd, withHash_fst, ← load_snd]
  generalize c.load t k = p at *
  obtain ⟨c', o⟩ := p
  cases hh with
  | absent h =>
    rw [h]
    exact ⟨rfl, r'.putFields hm (HRel.empty.put f v (sc := .str v) rfl) (fput_ne_nil _ _ _)⟩
  | hash m he h hr hne =>
    rw [h]
    simp only [asHash, GoRes.bind, Option.getD_some]
    have hi := hr.isSome f
    cases hf : hfind he.fields f with
    | some w =>
      rw [hf] at hi; simp only [Option.isSome_some] at hi
      rw [if_pos hi.symm]
      refine ⟨rfl, ?_⟩
      have : c'.store k (.hash he) = c' := by
        cases hm with
        | present e w' h hv h1 h2 => exact store_self h1
      simp only [this]; exact r'
    | none =>
      rw [hf] at hi; simp only [Option.isSome_none] at hi
      rw [if_neg (by rw [← hi]; simp)]
      refine ⟨rfl, ?_⟩
      have := hr.put f v (sc := .str v) rfl
      rw [if_neg (by rw [← hi]; simp)] at this
      exact r'.putFields hm this (fput_ne_nil _ _ _)
  | scalar sc h => rw [h]; exact ⟨rfl, r'⟩

theorem step_hExists (r : Sim t c st) (k f : Bytes) (hs : Safe st t (.hExists k f)) : Step t c st (.hExists k f) := by
  obtain ⟨r', hm⟩ := r.load k
  have hs : ∀ m, fields st t k = .ok m → fget m f = none := hs
  have hh := hm.hash
  unfold Step
  simp only [Verif.exec, exec]
  unfold Cache.hExists Cache.getHash
  generalize c.load t k = p at *
  obtain ⟨c', o⟩ := p
  cases hh with
  | absent h => rw [h]; exact ⟨rfl, r'⟩
  | scalar sc h => rw [h]; exact ⟨rfl, r'⟩
  | hash m he h hr hne =>
    have hf := hs m h
    have hg : he.get f = none := by rw [hr.get]; exact hf
    rw [h]
    simp only [hg, GoRes.map, GoRes.bind, hf, Option.isSome_none]
    refine ⟨trivial, ?_⟩
    have : c'.store k (.hash he) = c' := by
      cases hm with
      | present e w' h hv h1 h2 => exact store_self h1
    simp only [Bool.false_eq_true, if_false, Int.sub_zero]
    rw [this]; exact r'

theorem step_hDel (r : Sim t c st) (k : Bytes) (fs : List Bytes) (hs : Safe st t (.hDel k fs)) :
    Step t c st (.hDel k fs) := by
  obtain ⟨r', hm⟩ := r.load k
  have hs : ∀ m, fields st t k = .ok m → m ≠ [] → fdel m fs ≠ [] := hs
  have hh := hm.hash
  unfold Step
  simp only [Verif.exec, exec]
  unfold Cache.hDel Cache.getHash
  generalize c.load t k = p at *
  obtain ⟨c', o⟩ := p
  cases hh with
  | absent h =>
    rw [h]
    refine ⟨by simp [fdel], ?_⟩
    cases hm with
    | absent h' h1 h2 =>
      have : putFields st t k (fdel [] fs) = Verif.upd st k none := by simp [fdel, putFields]
      simp only [this]
      exact r'.erase k h1 h2 fun j _ => ⟨rfl, rfl⟩
  | scalar sc h => rw [h]; exact ⟨rfl, r'⟩
  | hash m he h hr hne =>
    rw [h]
    obtain ⟨h1, h2⟩ := hr.del fs
    refine ⟨by simp only [h2], ?_⟩
    exact r'.putFields hm h1 (hs m h hne)

/-- A call that only reads a map. -/
theorem step_readHash {α : Type} (r : Sim t c st) (k : Bytes) (g : Option HashEntry → Res α)
    (a : List (Bytes × Bytes) → Res α) (h0 : g none = a [])
    (hg : ∀ h m, HRel h m → g (some h) = a m) :
    (c.readHash t k g).2 = (fields st t k).bind a ∧ Sim t (c.readHash t k g).1 st := by
  obtain ⟨r', hm⟩ := r.load k
  have hh := hm.hash
  rw [readHash_snd, readHash_fst, ← load_snd]
  refine ⟨?_, r'⟩
  generalize (c.load t k).2 = o at hh
  cases hh with
  | absent h => rw [h]; exact h0
  | scalar sc h => rw [h]; rfl
  | hash m he h hr hne => rw [h]; exact hg he m hr

theorem map_eq_bind {α β : Type} (x : Res α) (f : α → β) : x.map f = x.bind fun a => .ok (f a) := by
  cases x <;> rfl

theorem step_hLen (r : Sim t c st) (k : Bytes) : Step t c st (.hLen k) := by
  unfold Step
  simp only [Verif.exec, exec, Cache.hLen, map_eq_bind]
  refine And.imp (congrArg Out.int) id (step_readHash r k _ (fun m => .ok (m.length : Int)) rfl fun h m hr => ?_)
  rw [← hr.length]

theorem step_hStrLen (r : Sim t c st) (k f : Bytes) : Step t c st (.hStrLen k f) := by
  unfold Step
  simp only [Verif.exec, exec, Cache.hStrLen, map_eq_bind]
  refine And.imp (congrArg Out.int) id
    (step_readHash r k _ (fun m => .ok (((fget m f).getD []).length : Int)) rfl fun h m hr => ?_)
  simp only [hr.get]; cases fget m f <;> rfl

theorem step_hGet (r : Sim t c st) (k f : Bytes) : Step t c st (.hGet k f) := by
  unfold Step
  simp only [Verif.exec, exec, Cache.hGet]
  refine And.imp (congrArg Out.str) id (step_readHash r k _ (fun m => slot (fget m f)) rfl fun h m hr => ?_)
  simp only [hr.get]; cases fget m f <;> rfl

theorem step_hMGet (r : Sim t c st) (k : Bytes) (fs : List Bytes) : Step t c st (.hMGet k fs) := by
  unfold Step
  simp only [Verif.exec, exec, Cache.hMGet, map_eq_bind]
  refine And.imp (congrArg Out.slots) id
    (step_readHash r k _ (fun m => .ok (fs.map fun f => slot (fget m f))) rfl fun h m hr => ?_)
  congr 1; apply List.map_congr_left; intro f _
  simp only [hr.get]; cases fget m f <;> rfl

theorem mSetNXLoop_all {c : Cache} (kv : List (Bytes × Bytes)) (n : Int) (h : ∀ p ∈ kv, c.data p.1 ≠ none) : c.mSetNXLoop kv n = (c, n) := by
  induction kv with
  | nil => rfl
  | cons p kv ih =>
    obtain ⟨k, v⟩ := p
    have h1 := h _ (List.mem_cons_self ..)
    simp only at h1
    unfold Cache.mSetNXLoop
    cases hd : c.data k with
    | none => exact absurd hd h1
    | some w => exact ih fun q hq => h q (List.mem_cons_of_mem _ hq)

theorem Sim.view_some {k : Bytes} (r : Sim t c st) (hf : Fresh st t k) : (view st t k).isSome = true ↔ c.data k ≠ none := by
  have hm := r.fresh hf
  cases hd : c.data k with
  | none => rw [hd] at hm; cases hm with | absent h _ _ => simp [view, h]
  | some w => rw [hd] at hm; cases hm with | present e w h _ _ _ => simp [view, h]

theorem step_mSetNX (r : Sim t c st) (kv : List (Bytes × Bytes)) (hs : Safe st t (.mSetNX kv)) : Step t c st (.mSetNX kv) := by
  obtain ⟨hne, hf, hs⟩ := hs
  have hall : (∀ p ∈ kv, (view st t p.1).isSome = true) → Step t c st (.mSetNX kv) := by
    intro hs
    have hany : kv.any (fun p => (view st t p.1).isSome) = true := by
      obtain ⟨p, hp⟩ := List.exists_mem_of_ne_nil _ hne
      exact List.any_eq_true.mpr ⟨p, hp, hs p hp⟩
    unfold Step
    simp only [Verif.exec, Cache.mSetNX, exec, hany, if_true]
    rw [mSetNXLoop_all kv 0 fun p hp => (r.view_some (hf p hp)).mp (hs p hp)]
    exact ⟨rfl, r⟩
  rcases hs with hs | ⟨⟨k, v⟩, rfl, hv⟩
  · exact hall hs
  · by_cases hp : (view st t k).isSome = true
    · exact hall (by simpa using hp)
    · have hk := hf (k, v) (by simp)
      simp only at hk hv
      have hd : c.data k = none := by
        have := mt (r.view_some hk).mpr hp
        simpa using this
      have hm := r.fresh hk
      rw [hd] at hm
      unfold Step
      simp only [Verif.exec, Cache.mSetNX, Cache.mSetNXLoop, hd, exec, List.any_cons, hp, List.any_nil, Bool.or_self, if_neg, List.foldl_cons, List.foldl_nil]
      cases hm with
      | absent h h1 h2 => exact ⟨rfl, r.store k (.of_canon hv) h2⟩

/-- Reading a hash, where the answer need be right only for what is there. -/
theorem step_readHash_at {α : Type} (r : Sim t c st) (k : Bytes) (g : Option HashEntry → Res α)
    (a : List (Bytes × Bytes) → Res α) (h0 : fields st t k ≠ .ok [])
    (hg : ∀ h m, fields st t k = .ok m → HRel h m → g (some h) = a m) :
    (c.readHash t k g).2 = (fields st t k).bind a ∧ Sim t (c.readHash t k g).1 st := by
  obtain ⟨r', hm⟩ := r.load k
  have hh := hm.hash
  rw [readHash_snd, readHash_fst, ← load_snd]
  refine ⟨?_, r'⟩
  generalize (c.load t k).2 = o at hh
  cases hh with
  | absent h => exact absurd h h0
  | scalar sc h => rw [h]; rfl
  | hash m he h hr hne => rw [h]; exact hg he m h hr

theorem step_hKeys (r : Sim t c st) (k : Bytes) (hs : Safe st t (.hKeys k)) : Step t c st (.hKeys k) := by
  unfold Step
  simp only [Verif.exec, exec, Cache.hKeys, map_eq_bind]
  refine And.imp (congrArg Out.strs) id (step_readHash_at r k _ (fun m => .ok (m.map (·.1))) hs fun h m _ hr => ?_)
  rw [← hr.texts]
  simp [texts, Function.comp_def]

/-- Only a text shows as one that is no number. -/
theorem scalar_of_text {sc : Scalar} (h : NonNumeric (fmtScalar sc)) : sc = .str (fmtScalar sc) := by
  obtain ⟨h1, h2⟩ := h
  cases sc with
  | str s => rfl
  | uint32 n =>
    have hb := n.toNat_lt
    have : itoaInt (n.toNat : Int) = itoa (Int64.ofInt n.toNat) := by
      rw [itoa, Int64.toInt_ofInt, Int.bmod_eq_of_le (by simp only [Int64.size]; omega) (by simp only [Int64.size]; omega)]
    simp only [fmtScalar, this, atoi_itoa] at h1
    cases h1
  | float x =>
    have := C81_parse_format x
    simp only [fmtScalar] at h2
    rw [h2] at this
    simp at this
  | _ => simp only [fmtScalar, atoi_itoa] at h1; cases h1

theorem step_hVals (r : Sim t c st) (k : Bytes) (hs : Safe st t (.hVals k)) : Step t c st (.hVals k) := by
  unfold Step
  simp only [Verif.exec, exec, Cache.hVals, map_eq_bind]
  refine And.imp (congrArg Out.strs) id (step_readHash_at r k _ (fun m => .ok (m.map (·.2))) hs.1 fun h m hm hr => ?_)
  have hn := hs.2 m hm
  rw [← hr.texts] at hn ⊢
  simp only [texts, List.map_map, Function.comp_def]
  congr 1
  simp only [texts] at hn
  generalize h.fields = l at hn
  induction l with
  | nil => rfl
  | cons p l ih =>
    have h1 := scalar_of_text (hn (p.1, fmtScalar p.2) (by simp))
    rw [List.map_cons, List.filterMap_cons, ih fun q hq => hn q (by rw [List.map_cons]; exact List.mem_cons_of_mem _ hq)]
    rw [h1]
    rfl

theorem step_hGetAll (r : Sim t c st) (k : Bytes) (hs : Safe st t (.hGetAll k)) : Step t c st (.hGetAll k) := by
  unfold Step
  simp only [Verif.exec, exec, Cache.hGetAll]
  have e : fields st t k = (fields st t k).bind (fun m => .ok m) := by cases fields st t k <;> rfl
  rw [e]
  exact And.imp (congrArg Out.pairs) id (step_readHash_at r k _ (fun m => .ok m) (hs []) fun h m hm _ => absurd hm (hs m))

theorem step_cronTick (r : Sim t c st) (hs : Safe st t .cronTick) : Step t c st .cronTick := by
  refine ⟨rfl, fun k => ?_⟩
  have hk := hs.2 k
  have rk := r k
  simp only [Verif.exec, exec, Cache.cronTick]
  cases hst : st k with
  | none =>
    rw [hst] at rk
    rw [rk.1]
    exact ⟨rfl, rk.2⟩
  | some e =>
    rw [hst] at rk
    have hdl : ∃ d, e.dl = some d ∧ d < t := by
      simp only [live, hst, Option.filter] at hk
      cases hd : e.dl with
      | none => simp [hd] at hk
      | some d => exact ⟨d, rfl, by simp [hd] at hk; omega⟩
    obtain ⟨d, h1, h2⟩ := hdl
    rcases rk with ⟨w, h3, h4, h5⟩ | ⟨⟨h3, h4⟩ | ⟨h3, d', h4, h5⟩, _⟩
    · rw [h3]
      have hz : zeroTime < t := hs.1
      have hw : ∀ x, w ≠ .time x := by
        rintro x rfl
        cases hv : e.val with
        | str s => rw [hv] at h4; obtain ⟨_, h, _⟩ := h4; cases h
        | hash m => rw [hv] at h4; obtain ⟨_, h, _⟩ := h4; cases h
      cases w with
      | time x => exact absurd rfl (hw x)
      | scalar sc => simp only [cronEntry, hz, if_true]; exact .inr ⟨.inl ⟨by simp, by simp⟩, d, h1, h2⟩
      | hash he => simp only [cronEntry, hz, if_true]; exact .inr ⟨.inl ⟨by simp, by simp⟩, d, h1, h2⟩
    · rw [h3]
      exact .inr ⟨.inl ⟨rfl, h4⟩, d, h1, h2⟩
    · have hz : zeroTime < t := hs.1
      refine .inr ⟨?_, d, h1, h2⟩
      cases hd : c.data k with
      | none => exact absurd hd h3
      | some w =>
        cases w with
        | time x =>
          simp only [cronEntry, if_true]
          split
          · exact .inl ⟨by simp, by simp⟩
          · exact .inr ⟨by rw [hd]; simp, d', h4, h5⟩
        | scalar sc => simp only [cronEntry, hz, if_true]; exact .inl ⟨by simp, by simp⟩
        | hash he => simp only [cronEntry, hz, if_true]; exact .inl ⟨by simp, by simp⟩

theorem step (r : Sim t c st) (op : Call) (hs : Safe st t op) : Step t c st op := by
  cases op with
  | set k v => exact step_set r k v hs
  | setNX k v => exact step_setNX r k v hs
  | setEX k v n => exact step_setEX r k v n hs
  | pSetEX k v n => exact step_pSetEX r k v n hs
  | get k => exact step_get r k
  | getSet k v => exact step_getSet r k v hs
  | strLen k => exact step_strLen r k
  | append k v => exact step_append r k v hs
  | setRange k p x => exact step_setRange r k p x hs
  | getRange k a b => exact step_getRange r k a b
  | incr k => exact step_incrBy r k 1 hs
  | incrBy k n => exact step_incrBy r k n hs
  | decr k => exact step_incrBy r k (-1) hs
  | decrBy k n =>
    have e : (-n).toInt = -n.toInt := by
      have h1 := hs.2
      have h2 := n.toInt_lt
      rw [Int64.toInt_neg, Int.bmod_eq_of_le (by omega) (by omega)]
    have h := hs.1
    have := step_incrBy r k (-n) (by rw [e]; exact h)
    rw [e] at this
    exact this
  | incrByFloat k x => exact hs.elim
  | mSet kv => exact step_mSet r kv hs
  | mSetNX kv => exact step_mSetNX r kv hs
  | mGet ks => exact step_mGet r ks hs
  | del k => exact step_del r k
  | flush => exact ⟨rfl, Sim.new t⟩
  | exists_ ks => exact step_exists r ks hs
  | type k => exact step_type r k hs
  | hSet k f v => exact step_hSet r k f v hs
  | hSetNX k f v => exact step_hSetNX r k f v
  | hExists k f => exact step_hExists r k f hs
  | hDel k fs => exact step_hDel r k fs hs
  | hLen k => exact step_hLen r k
  | hStrLen k f => exact step_hStrLen r k f
  | hGet k f => exact step_hGet r k f
  | hIncrBy k f n => exact step_hIncrBy r k f n hs
  | hIncrByFloat k f x => exact hs.elim
  | hMSet k fv => exact step_hMSet r k fv hs
  | hMGet k fs => exact step_hMGet r k fs
  | hKeys k => exact step_hKeys r k hs
  | hVals k => exact step_hVals r k hs
  | hGetAll k => exact step_hGetAll r k hs
  | list k => exact hs.elim
  | cronTick => exact step_cronTick r hs

theorem outs_eq (h : History) : ∀ {t : Int} {c : Cache} {st : Store}, Sim t c st → Monotone t h → SafeRun st h →
    Verif.outs c h = outs st h := by
  induction h with
  | nil => intros; rfl
  | cons p h ih =>
    obtain ⟨t', op⟩ := p
    intro t c st r hm hs
    obtain ⟨h1, h2⟩ := step (r.later hm.1) op hs.1
    simp only [Verif.outs, outs]
    rw [h1, ih h2 hm.2 hs.2]

end Verif.Ref

namespace Verif

/-- C90 on safe histories: every answer is the one the Redis documentation gives.  Missing: the
calls and situations `Ref.Safe` excludes, for most of which the answer differs (`C90_violated`). -/
theorem C90_conforms_partial (h : History) (t0 : Int) (hm : Monotone t0 h) (hs : Ref.SafeRun Ref.empty h) :
    outs Cache.new h = Ref.outs Ref.empty h := Ref.outs_eq h (Ref.Sim.new t0) hm hs

/-- A safe history with texts, counters, deadlines and a hash. -/
def safeExample : History :=
  [(0, .set b!"k" b!"hello"), (1, .append b!"k" b!" you"), (2, .setRange b!"k" 6 b!"w"), (3, .get b!"k"),
   (3, .getRange b!"k" (-3) (-1)), (4, .setEX b!"e" b!"x" 1), (5, .get b!"e"), (2000000000, .get b!"e"),
   (2000000000, .incrBy b!"n" 41), (2000000001, .incr b!"n"), (2000000002, .get b!"n"),
   (2000000003, .hSet b!"h" b!"f" b!"1"), (2000000003, .hSet b!"h" b!"g" b!"two"),
   (2000000004, .hDel b!"h" [b!"f", b!"x"]), (2000000004, .hMGet b!"h" [b!"f", b!"g"]),
   (2000000005, .get b!"h"), (2000000006, .del b!"k"), (2000000007, .get b!"k")]

theorem verbatim_of {v : Bytes} (h : (atoi v).isNone ∧ (parseFloat v).isNone) : canon v = v :=
  canon_of_verbatim (.inl ⟨by simpa using h.1, by simpa using h.2⟩)

theorem safeExample_safe : Ref.SafeRun Ref.empty safeExample := by
  simp only [safeExample, Ref.SafeRun, Ref.Safe, and_true, true_and]
  refine ⟨⟨verbatim_of (by decide +kernel), fun e h => by cases h⟩, ?_, ?_, ⟨verbatim_of (by decide +kernel), by decide, by decide⟩,
    ⟨?_, ?_⟩, ⟨?_, ?_⟩, by decide +kernel, verbatim_of (by decide +kernel), ?_⟩
  · intro s h
    have : s = b!"hello" := by
      have e : GoRes.ok b!"hello" = GoRes.ok s := h
      injection e with e; exact e.symm
    subst this; exact verbatim_of (by decide +kernel)
  · intro _
    refine ⟨by decide, by decide +kernel, fun s h => ?_⟩
    have : s = b!"hello you" := by
      have e : GoRes.ok b!"hello you" = GoRes.ok s := h
      injection e with e; exact e.symm
    subst this; exact verbatim_of (by decide +kernel)
  · intro e h; cases h
  · intro s m h; cases h
  · intro e h d hd
    have h : some ({ val := .str b!"41", dl := none } : Ref.Entry) = some e := h
    cases h; cases hd
  · intro s m h hm
    have h : some (Ref.RVal.str b!"41") = some (.str s) := h
    cases h
    have : m = 41 := by
      have e : atoi b!"41" = some 41 := by decide +kernel
      rw [e] at hm; cases hm; rfl
    subst this; decide
  · intro m h _
    have e : GoRes.ok [(b!"f", b!"1"), (b!"g", b!"two")] = GoRes.ok m := h
    injection e with e; subst e; decide +kernel

example : Monotone 0 safeExample ∧ Ref.SafeRun Ref.empty safeExample ∧
    Ref.outs Ref.empty safeExample =
      [.str (.ok b!"OK"), .int (.ok 9), .int (.ok 9), .str (.ok b!"hello wou"), .str (.ok b!"wou"), .str (.ok b!"OK"),
       .str (.ok b!"x"), .str (.err .keyNil), .int (.ok 41), .int (.ok 42), .str (.ok b!"42"), .int (.ok 1), .int (.ok 1),
       .int (.ok 1), .slots (.ok [.err .keyNil, .ok b!"two"]), .str (.err .wrongType), .int (.ok 1),
       .str (.err .keyNil)] :=
  ⟨by simp [safeExample, Monotone], safeExample_safe, by decide +kernel⟩

/-- Another, with fractions, `MSetNX`, the listing of a hash and a sweep. -/
def safeExample2 : History :=
  [(0, .set b!"k" b!"2.5"), (0, .incr b!"k"), (0, .append b!"k" b!"125"), (0, .get b!"k"), (1, .mSetNX [(b!"n", b!"x")]),
   (1, .mSetNX [(b!"n", b!"y"), (b!"k", b!"z")]), (1, .hMSet b!"h" [(b!"f", b!"v"), (b!"g", b!"w")]), (1, .hKeys b!"h"), (1, .hVals b!"h"),
   (1, .hGetAll b!"n"), (2, .flush), (2, .pSetEX b!"e" b!"x" 1), (3000000, .cronTick), (3000000, .get b!"e")]

theorem safeExample2_safe : Ref.SafeRun Ref.empty safeExample2 := by
  have hfresh : ∀ {st : Ref.Store} {t : Int} {k : Bytes}, (∀ e, st k = some e → e.dl = none) → Ref.Fresh st t k :=
    fun h e he d hd => by rw [h e he] at hd; cases hd
  have hone : ∀ {e' : Ref.Entry}, e'.dl = none → ∀ e, some e' = some e → e.dl = none := fun h e he => by cases he; exact h
  simp only [safeExample2, Ref.SafeRun, Ref.Safe, and_true, true_and]
  refine ⟨⟨by decide +kernel, fun e h => by cases h⟩, ⟨hfresh (hone (e' := ⟨.str b!"2.5", none⟩) rfl), ?_⟩, ?_, ⟨by decide, ?_, .inr ⟨_, rfl, by decide +kernel⟩⟩,
    ⟨by decide, ?_, .inl (by decide +kernel)⟩, ⟨by decide, ?_⟩, ?_, ⟨?_, ?_⟩, ?_, ⟨by decide +kernel, by decide, by decide⟩, by decide, ?_⟩
  · intro s m h hm
    have h : some (Ref.RVal.str b!"2.5") = some (.str s) := h
    cases h
    have e : atoi b!"2.5" = none := by decide +kernel
    rw [e] at hm; cases hm
  · intro s h
    have e : GoRes.ok b!"2.5" = GoRes.ok s := h
    injection e with e; subst e; decide +kernel
  · intro p hp
    simp only [List.mem_cons, List.not_mem_nil, or_false] at hp
    subst hp
    exact hfresh (fun e h => by cases h)
  · intro p hp
    simp only [List.mem_cons, List.not_mem_nil, or_false] at hp
    rcases hp with rfl | rfl
    · exact hfresh (hone (e' := ⟨.str b!"x", none⟩) rfl)
    · exact hfresh (hone (e' := ⟨.str b!"2.5125", none⟩) rfl)
  · intro p hp
    simp only [List.mem_cons, List.not_mem_nil, or_false] at hp
    rcases hp with rfl | rfl <;> decide +kernel
  · intro h
    have e : GoRes.ok [(b!"f", b!"v"), (b!"g", b!"w")] = (GoRes.ok [] : Res (List (Bytes × Bytes))) := h
    injection e with e; cases e
  · intro h
    have e : GoRes.ok [(b!"f", b!"v"), (b!"g", b!"w")] = (GoRes.ok [] : Res (List (Bytes × Bytes))) := h
    injection e with e; cases e
  · intro m h p hp
    have e : GoRes.ok [(b!"f", b!"v"), (b!"g", b!"w")] = GoRes.ok m := h
    injection e with e; subst e
    simp only [List.mem_cons, List.not_mem_nil, or_false] at hp
    rcases hp with rfl | rfl <;> exact ⟨by decide +kernel, by decide +kernel⟩
  · intro m h
    have e : (GoRes.err .wrongType : Res (List (Bytes × Bytes))) = GoRes.ok m := h
    cases e
  · intro k
    by_cases hk : k = b!"e"
    · subst hk; decide +kernel
    · show Ref.live (upd Ref.empty b!"e" _) _ k = none
      simp [Ref.live, upd, hk, Ref.empty]

example : Monotone 0 safeExample2 ∧ Ref.SafeRun Ref.empty safeExample2 ∧
    Ref.outs Ref.empty safeExample2 =
      [.str (.ok b!"OK"), .int (.err .wrongType), .int (.ok 6), .str (.ok b!"2.5125"), .int (.ok 1), .int (.ok 0), .int (.ok 2),
       .strs (.ok [b!"f", b!"g"]), .strs (.ok [b!"v", b!"w"]), .pairs (.err .wrongType), .unit, .str (.ok b!"OK"), .unit, .str (.err .keyNil)] :=
  ⟨by simp [safeExample2, Monotone], safeExample2_safe, by decide +kernel⟩

/-- One history for each situation `Ref.Safe` excludes. -/
def unsafeExamples : List History :=
  [-- a number that is not written canonically
   [(0, .set b!"k" b!"+1"), (0, .get b!"k")],
   -- a plain write to a key with a deadline
   [(0, .setEX b!"k" b!"a" 1), (0, .set b!"k" b!"b"), (2000000000, .get b!"k")],
   [(0, .setEX b!"k" b!"a" 1), (0, .getSet b!"k" b!"b"), (2000000000, .get b!"k")],
   [(0, .setEX b!"k" b!"a" 1), (0, .mSet [(b!"k", b!"b")]), (2000000000, .get b!"k")],
   -- calls that do not look at the deadline
   [(0, .setEX b!"k" b!"a" 1), (2000000000, .setNX b!"k" b!"b")],
   [(0, .setEX b!"k" b!"5" 1), (2000000000, .incr b!"k")],
   [(0, .setEX b!"k" b!"5" 1), (2000000000, .exists_ [b!"k"])],
   -- durations that are not positive or do not fit
   [(0, .setEX b!"k" b!"a" 0)],
   [(0, .setEX b!"k" b!"a" 9223372037), (9300000000000000000, .get b!"k")],
   -- counters that overflow
   [(0, .set b!"k" b!"9223372036854775807"), (0, .incr b!"k")],
   [(0, .decrBy b!"k" (-9223372036854775808))],
   -- the empty SetRange
   [(0, .setRange b!"k" 2 [])],
   -- a SetRange no memory can hold
   [(0, .setRange b!"k" (2 ^ 60) b!"x")],
   -- GetSet, MGet and Type on a hash
   [(0, .hSet b!"k" b!"f" b!"v"), (0, .getSet b!"k" b!"w"), (0, .get b!"k")],
   [(0, .hSet b!"k" b!"f" b!"v"), (0, .mGet [b!"k"])],
   [(0, .hSet b!"k" b!"f" b!"v"), (0, .type b!"k")],
   -- a hash without fields
   [(0, .hSet b!"k" b!"f" b!"v"), (0, .hDel b!"k" [b!"f"]), (0, .exists_ [b!"k"])],
   [(0, .hMSet b!"k" []), (0, .exists_ [b!"k"])],
   -- HExists and HIncrBy of a present field
   [(0, .hSet b!"k" b!"f" b!"v"), (0, .hExists b!"k" b!"f"), (0, .hLen b!"k")],
   [(0, .hSet b!"k" b!"f" b!"1"), (0, .hIncrBy b!"k" b!"f" 1), (0, .hGet b!"k" b!"f")],
   -- a number that is not written canonically, in a field
   [(0, .hSet b!"k" b!"f" b!"01"), (0, .hGet b!"k" b!"f")],
   -- MSetNX of several pairs, some of them new, or of none
   [(0, .set b!"a" b!"x"), (0, .mSetNX [(b!"a", b!"y"), (b!"b", b!"z")]), (0, .get b!"b")],
   [(0, .mSetNX [(b!"a", b!"y"), (b!"b", b!"z")])],
   [(0, .mSetNX [])],
   -- HVals of a number
   [(0, .hSet b!"k" b!"f" b!"1"), (0, .hVals b!"k")],
   -- calls excluded altogether
   [(0, .incr b!"k"), (0, .incrByFloat b!"k" (.ofInt 1))],
   [(0, .hIncrByFloat b!"k" b!"f" (.ofInt 1)), (0, .hIncrByFloat b!"k" b!"f" (.ofInt 1)),
    (0, .hGet b!"k" b!"f")],
   [(0, .hKeys b!"k")],
   [(0, .hVals b!"k")],
   [(0, .hSet b!"k" b!"f" b!"v"), (0, .hGetAll b!"k")],
   [(0, .set b!"k" b!"v"), (1, .cronTick), (1, .get b!"k")]]

/-- C90 is false of all histories: in each of the excluded situations the answers differ. -/
theorem C90_violated : ∀ h ∈ unsafeExamples, outs Cache.new h ≠ Ref.outs Ref.empty h := by
  decide +kernel

end Verif

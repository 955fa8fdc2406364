import Verif.Cache.Ref
import Verif.Cache.PropsHash
/-!
# The cache and the reference: how their states correspond

Lemmas for `Cache/PropsRef.lean`.
-/
namespace Verif.Ref
open Verif Cache

/-- A stored scalar and the text it stands for. -/
def ScRel (sc : Scalar) (s : Bytes) : Prop :=
  (sc = .str s ∧ NonNumeric s) ∨ (∃ n : Int64, (sc = .int n ∨ sc = .int64 n) ∧ s = itoa n) ∨
    ∃ x, sc = .float x ∧ s = formatFloat x ∧ atoi s = none

/-- The texts of the fields of an entry. -/
def texts (h : HashEntry) : List (Bytes × Bytes) := h.fields.map fun p => (p.1, fmtScalar p.2)

/-- A stored hash and the map it stands for. -/
structure HRel (h : HashEntry) (m : List (Bytes × Bytes)) : Prop where
  texts : texts h = m
  nodup : (m.map (·.1)).Nodup
  length : h.length = m.length

/-- Stored value and reference value. -/
def ValRel (w : Val) : RVal → Prop
  | .str s => ∃ sc, w = .scalar sc ∧ ScRel sc s
  | .hash m => ∃ h, w = .hash h ∧ HRel h m ∧ m ≠ []

/-- Nothing there, or something whose deadline has passed. -/
def Gone (t : Int) (d : Option Val) (x : Option Int) : Prop :=
  (d = none ∧ x = none) ∨ (d ≠ none ∧ ∃ dl, x = some dl ∧ dl < t)

/-- One key: same value and deadline, or the deadline has passed on both sides. -/
def Rel (t : Int) (d : Option Val) (x : Option Int) : Option Entry → Prop
  | none => d = none ∧ x = none
  | some e => (∃ w, d = some w ∧ ValRel w e.val ∧ x = e.dl) ∨
      (Gone t d x ∧ ∃ dl, e.dl = some dl ∧ dl < t)

/-- Cache and reference at time `t`. -/
def Sim (t : Int) (c : Cache) (st : Store) : Prop := ∀ k, Rel t (c.data k) (c.exp k) (st k)

theorem Rel.later {s t : Int} (h : s ≤ t) {d : Option Val} {x : Option Int} {o : Option Entry}
    (r : Rel s d x o) : Rel t d x o := by
  cases o with
  | none => exact r
  | some e =>
    rcases r with r | ⟨h1, dl, h3, h4⟩
    · exact .inl r
    · refine .inr ⟨?_, dl, h3, by omega⟩
      rcases h1 with h1 | ⟨h1, d, h2, h5⟩
      · exact .inl h1
      · exact .inr ⟨h1, d, h2, by omega⟩

theorem Sim.later {s t : Int} (h : s ≤ t) {c : Cache} {st : Store} (r : Sim s c st) : Sim t c st :=
  fun k => (r k).later h

theorem Sim.new (t : Int) : Sim t Cache.new empty := fun _ => ⟨rfl, rfl⟩

theorem ScRel.fmt {sc : Scalar} {s : Bytes} (h : ScRel sc s) : fmtScalar sc = s := by
  rcases h with ⟨rfl, _⟩ | ⟨n, rfl | rfl, rfl⟩ | ⟨x, rfl, rfl, _⟩ <;> rfl

theorem ScRel.of_canon {v : Bytes} (h : canon v = v) : ScRel (tryInt64 v) v := by
  unfold canon at h
  unfold tryInt64
  cases ha : atoi v with
  | some n => rw [ha] at h; exact .inr (.inl ⟨n, .inl rfl, h.symm⟩)
  | none =>
    rw [ha] at h
    cases hp : parseFloat v with
    | some x => rw [hp] at h; exact .inr (.inr ⟨x, rfl, h.symm, ha⟩)
    | none => exact .inl ⟨rfl, ha, hp⟩

theorem ValRel.of_canon {v : Bytes} (h : canon v = v) : ValRel (.scalar (tryInt64 v)) (.str v) :=
  ⟨_, rfl, .of_canon h⟩

/-- Update one key on both sides. -/
theorem Sim.upd {t : Int} {c c' : Cache} {st : Store} (r : Sim t c st) (k : Bytes) (o : Option Entry)
    (hk : Rel t (c'.data k) (c'.exp k) o) (ho : ∀ j, j ≠ k → SameAt c' c j) : Sim t c' (upd st k o) := by
  intro j
  by_cases h : j = k
  · subst h; simpa using hk
  · simpa [h, (ho j h).1, (ho j h).2] using r j

theorem Sim.store {t : Int} {c : Cache} {st : Store} (r : Sim t c st) (k : Bytes) {w : Val} {v : RVal}
    {dl : Option Int} (hv : ValRel w v) (hx : c.exp k = dl) : Sim t (c.store k w) (Verif.upd st k (some ⟨v, dl⟩)) :=
  r.upd k _ (.inl ⟨w, by simp [Cache.store], hv, hx⟩) fun j h => sameAt_store h

theorem Sim.erase {t : Int} {c c' : Cache} {st : Store} (r : Sim t c st) (k : Bytes)
    (h1 : c'.data k = none) (h2 : c'.exp k = none) (ho : ∀ j, j ≠ k → SameAt c' c j) :
    Sim t c' (Verif.upd st k none) := r.upd k none ⟨h1, h2⟩ ho

/-- What a lookup meets on both sides. -/
inductive Meets (t : Int) (k : Bytes) (st : Store) (c' : Cache) : Option Val → Prop where
  | absent (h : live st t k = none) (h1 : c'.data k = none) (h2 : c'.exp k = none) : Meets t k st c' none
  | present (e : Entry) (w : Val) (h : live st t k = some e) (hv : ValRel w e.val) (h1 : c'.data k = some w)
      (h2 : c'.exp k = e.dl) : Meets t k st c' (some w)

theorem Sim.load {t : Int} {c : Cache} {st : Store} (r : Sim t c st) (k : Bytes) :
    Sim t (c.load t k).1 st ∧ Meets t k st (c.load t k).1 (c.load t k).2 := by
  have rk := r k
  rcases stale_dec c t k with hs | hs
  · have hl : (c.load t k).2 = none := by rw [load_snd, liveVal_none_of_stale hs]
    rw [hl, load_fst_of_stale hs]
    obtain ⟨h1, d, h2, h3⟩ := hs
    have hcase : ∃ e, st k = some e ∧ ∃ d, e.dl = some d ∧ d < t := by
      cases hst : st k with
      | none => rw [hst] at rk; exact absurd rk.1 h1
      | some e =>
        rw [hst] at rk
        rcases rk with ⟨w, _, _, hx⟩ | ⟨_, hd⟩
        · exact ⟨e, rfl, d, by rw [← hx, h2], h3⟩
        · exact ⟨e, rfl, hd⟩
    obtain ⟨e, he, d', hdl, h4⟩ := hcase
    constructor
    · intro j
      by_cases hj : j = k
      · subst hj; rw [he]; exact .inr ⟨.inl ⟨by simp, by simp⟩, d', hdl, h4⟩
      · simpa [hj] using r j
    · refine .absent ?_ (by simp) (by simp)
      simp only [live, he, Option.filter, hdl]
      rw [if_neg (by simp; omega)]
  · rw [load_snd, liveVal_of_not_stale hs, load_fst_of_not_stale hs]
    refine ⟨r, ?_⟩
    cases hst : st k with
    | none =>
      rw [hst] at rk; rw [rk.1]
      exact .absent (by simp [live, hst]) rk.1 rk.2
    | some e =>
      rw [hst] at rk
      rcases rk with ⟨w, hd, hv, hx⟩ | ⟨⟨h1, h2⟩ | hg, d, h3, h4⟩
      · rw [hd]
        refine .present e w ?_ hv hd hx
        obtain ⟨v, dl⟩ := e
        simp only [live, hst, Option.filter]
        cases dl with
        | none => simp
        | some d =>
          simp only []
          rw [if_pos]
          simp only [decide_eq_true_eq]
          false_or_by_contra
          rename_i hlt
          exact hs ⟨by simp [hd], d, hx, by omega⟩
      · rw [h1]
        refine .absent ?_ h1 h2
        simp only [live, hst, Option.filter, h3]
        rw [if_neg (by simp; omega)]
      · exact absurd hg hs

/-- The same without a lookup, for a key whose deadline has not passed. -/
theorem Sim.fresh {t : Int} {c : Cache} {st : Store} (r : Sim t c st) {k : Bytes} (hf : Fresh st t k) :
    Meets t k st c (c.data k) := by
  have h := r.load k
  have hs : ¬ Stale c t k := by
    rintro ⟨h1, d, h2, h3⟩
    have rk := r k
    cases hst : st k with
    | none => rw [hst] at rk; exact h1 rk.1
    | some e =>
      rw [hst] at rk
      rcases rk with ⟨w, _, _, hx⟩ | ⟨_, d', hd, h4⟩
      · have := hf e hst d (by rw [← hx, h2]); omega
      · have := hf e hst d' hd; omega
  rw [load_snd, liveVal_of_not_stale hs, load_fst_of_not_stale hs] at h
  exact h.2

theorem Sim.noDeadline {t : Int} {c : Cache} {st : Store} (r : Sim t c st) {k : Bytes} (h : NoDeadline st k) :
    c.exp k = none := by
  have rk := r k
  cases hst : st k with
  | none => rw [hst] at rk; exact rk.2
  | some e =>
    rw [hst] at rk
    rcases rk with ⟨w, _, _, hx⟩ | ⟨_, d, hx, _⟩
    · rw [hx, h e hst]
    · rw [h e hst] at hx; cases hx

/-! ## Maps -/

theorem fget_texts (h : HashEntry) (f : Bytes) : fget (texts h) f = h.get f := by
  obtain ⟨fs, n⟩ := h
  simp only [fget, texts, HashEntry.get]
  induction fs with
  | nil => rfl
  | cons p fs ih =>
    obtain ⟨g, v⟩ := p
    simp only [List.map_cons, List.find?_cons, hfind]
    by_cases e : g = f
    · simp [e]
    · rw [if_neg e, show (g == f) = false by simpa using e]; exact ih

theorem HRel.get {h : HashEntry} {m : List (Bytes × Bytes)} (r : HRel h m) (f : Bytes) : h.get f = fget m f := by
  rw [← r.texts, fget_texts]

theorem HRel.isSome {h : HashEntry} {m : List (Bytes × Bytes)} (r : HRel h m) (f : Bytes) :
    (hfind h.fields f).isSome = (fget m f).isSome := by
  rw [← r.get, HashEntry.get]; simp

theorem texts_hput (fs : List (Bytes × Scalar)) (n n' : Int) (hn : (fs.map (·.1)).Nodup) (f v : Bytes) (sc : Scalar)
    (hv : fmtScalar sc = v) : texts ⟨hput fs f sc, n'⟩ = fput (texts ⟨fs, n⟩) f v := by
  unfold fput
  rw [fget_texts]
  simp only [HashEntry.get, texts, Option.isSome_map]
  induction fs with
  | nil => simp [hput, hfind, hv]
  | cons p fs ih =>
    obtain ⟨g, w⟩ := p
    simp only [List.map_cons, List.nodup_cons] at hn
    by_cases e : g = f
    · subst e
      simp only [hput, hfind, if_true, List.map_cons, hv, Option.isSome_some, List.map_map]
      congr 1
      apply List.map_congr_left
      intro q hq
      have : q.1 ≠ g := fun h => hn.1 (h ▸ List.mem_map_of_mem hq)
      simp [this]
    · simp only [hput, hfind, if_neg e, List.map_cons]
      rw [ih hn.2]
      by_cases hs : (hfind fs f).isSome <;> simp [hs]

theorem fput_keys_nodup {m : List (Bytes × Bytes)} (h : (m.map (·.1)).Nodup) (f v : Bytes) :
    ((fput m f v).map (·.1)).Nodup := by
  unfold fput
  split
  · have : (m.map fun p => if p.1 = f then (f, v) else p).map (·.1) = m.map (·.1) := by
      rw [List.map_map]; apply List.map_congr_left; intro p _
      by_cases e : p.1 = f <;> simp [e]
    rw [this]; exact h
  · rename_i hs
    rw [List.map_append, List.nodup_append]
    refine ⟨h, by simp, ?_⟩
    intro a ha b hb
    simp only [List.map_cons, List.map_nil, List.mem_singleton] at hb
    subst hb
    rintro rfl
    apply hs
    obtain ⟨p, hp, rfl⟩ := List.mem_map.1 ha
    simp only [fget, Option.isSome_map, List.find?_isSome]
    exact ⟨p, hp, by simp⟩

theorem fput_length (m : List (Bytes × Bytes)) (f v : Bytes) :
    (fput m f v).length = m.length + if (fget m f).isSome then 0 else 1 := by
  unfold fput; split <;> simp

theorem fput_ne_nil (m : List (Bytes × Bytes)) (f v : Bytes) : fput m f v ≠ [] := by
  unfold fput
  split
  · rename_i h; intro e; simp at e; subst e; simp [fget] at h
  · simp

theorem HRel.put {h : HashEntry} {m : List (Bytes × Bytes)} (r : HRel h m) (f v : Bytes) {sc : Scalar}
    (hv : fmtScalar sc = v) :
    HRel (HashEntry.mk (hput h.fields f sc) (h.length + if (fget m f).isSome then 0 else 1)) (fput m f v) := by
  refine ⟨?_, fput_keys_nodup r.nodup f v, ?_⟩
  · rw [texts_hput h.fields h.length _ _ f v sc hv]
    · rw [show Ref.texts (HashEntry.mk h.fields h.length) = m from r.texts]
    · have := r.nodup; rw [← r.texts] at this; simpa [Ref.texts, Function.comp_def] using this
  · simp only; rw [fput_length, r.length]; split <;> simp

theorem HRel.set {h : HashEntry} {m : List (Bytes × Bytes)} (r : HRel h m) (f : Bytes) {v : Bytes}
    (hv : canon v = v) : HRel (h.set f v).1 (fput m f v) ∧ (h.set f v).2 = if (fget m f).isSome then 0 else 1 := by
  simp only [HashEntry.set, r.isSome]
  exact ⟨r.put f v (ScRel.of_canon hv).fmt, trivial⟩

theorem HRel.empty : HRel HashEntry.empty [] := ⟨rfl, by simp, rfl⟩

theorem HRel.mset {fv : List (Bytes × Bytes)} (hv : ∀ p ∈ fv, canon p.2 = p.2) {h : HashEntry}
    {m : List (Bytes × Bytes)} (r : HRel h m) (n : Int) :
    HRel (hMSetLoop fv h n).1 (fv.foldl (fun m p => fput m p.1 p.2) m) ∧
      (hMSetLoop fv h n).2 = n + ((fv.foldl (fun m p => fput m p.1 p.2) m).length - m.length) := by
  induction fv generalizing h m n with
  | nil => exact ⟨r, by simp [hMSetLoop]⟩
  | cons p fv ih =>
    obtain ⟨f, v⟩ := p
    obtain ⟨h1, h2⟩ := r.set f (hv (f, v) (by simp))
    obtain ⟨h3, h4⟩ := ih (fun p hp => hv p (by simp [hp])) h1 (n + (h.set f v).2)
    refine ⟨h3, ?_⟩
    simp only [hMSetLoop, List.foldl_cons]
    rw [h4, h2, fput_length]; split <;> simp <;> omega

theorem foldl_fput_ne_nil {fv : List (Bytes × Bytes)} (hne : fv ≠ []) (m : List (Bytes × Bytes)) :
    fv.foldl (fun m p => fput m p.1 p.2) m ≠ [] := by
  rw [← List.dropLast_concat_getLast hne, List.foldl_append]
  simp only [List.foldl_cons, List.foldl_nil]
  exact fput_ne_nil _ _ _

theorem texts_hDelLoop (gs : List Bytes) (fs : List (Bytes × Scalar)) (hn : (fs.map (·.1)).Nodup) (n : Int) :
    (hDelLoop gs fs n).1 = fs.filter fun p => p.1 ∉ gs := by
  induction gs generalizing fs n with
  | nil => simp only [hDelLoop]; rw [List.filter_eq_self.2 (by simp)]
  | cons g gs ih =>
    simp only [hDelLoop]
    have key : ∀ fs : List (Bytes × Scalar), (fs.map (·.1)).Nodup →
        hdelete fs g = fs.filter fun p => p.1 ≠ g := by
      intro fs hn
      induction fs with
      | nil => rfl
      | cons p fs ih =>
        obtain ⟨f, v⟩ := p
        simp only [List.map_cons, List.nodup_cons] at hn
        by_cases e : f = g
        · subst e
          simp only [hdelete, if_true]
          rw [List.filter_cons_of_neg (by simp), List.filter_eq_self.2]
          intro q hq
          have : q.1 ≠ f := fun h => hn.1 (h ▸ List.mem_map_of_mem hq)
          simp [this]
        · simp only [hdelete, if_neg e]
          rw [List.filter_cons_of_pos (by simp [e]), ih hn.2]
    split
    · rw [ih _ (hn.sublist ((hdelete_sublist fs g).map _)), key fs hn, List.filter_filter]
      apply List.filter_congr
      intro p _
      by_cases h1 : p.1 = g <;> by_cases h2 : p.1 ∈ gs <;> simp [h1, h2]
    · rename_i hg
      rw [ih fs hn]
      apply List.filter_congr
      intro p hp
      have : p.1 ≠ g := by
        intro e
        have := hfind_eq_none.1 hg
        exact this (e ▸ List.mem_map_of_mem hp)
      simp [this]

theorem HRel.del {h : HashEntry} {m : List (Bytes × Bytes)} (r : HRel h m) (gs : List Bytes) :
    HRel (HashEntry.mk (hDelLoop gs h.fields 0).1
        (if (hDelLoop gs h.fields 0).2 ≠ 0 then h.length - (hDelLoop gs h.fields 0).2 else h.length)) (fdel m gs) ∧
      (hDelLoop gs h.fields 0).2 = m.length - (fdel m gs).length := by
  have hn : (h.fields.map (·.1)).Nodup := by
    have := r.nodup; rw [← r.texts] at this; simpa [Ref.texts, Function.comp_def] using this
  have e1 : Ref.texts (HashEntry.mk (hDelLoop gs h.fields 0).1 0) = fdel m gs := by
    rw [← r.texts]
    simp only [Ref.texts, texts_hDelLoop gs h.fields hn, fdel, List.filter_map]
    rfl
  have hl := hDelLoop_length gs h.fields 0
  have e2 : ((hDelLoop gs h.fields 0).1.length : Int) = (fdel m gs).length := by
    rw [← e1]; simp [Ref.texts]
  have e3 : h.fields.length = m.length := by rw [← r.texts]; simp [Ref.texts]
  refine ⟨⟨e1, ?_, ?_⟩, by omega⟩
  · exact r.nodup.sublist ((List.filter_sublist).map _)
  · have := r.length
    simp only; split <;> omega

/-! ## Texts -/

theorem overwrite_eq (s : Bytes) (p : Nat) (r : Bytes) :
    writeLoop p r (padLoop (p - s.length) s) = overwrite s p r := by
  refine (setRange_isOverwrite p s r).unique ⟨?_, ?_, ?_, ?_⟩
  · simp [overwrite]; omega
  · intro i hi
    simp only [overwrite]
    rw [List.append_assoc, List.getElem?_append_right (by simp; omega), List.getElem?_append_left (by simp; omega)]
    congr 1; simp; omega
  · intro i hi hor
    simp only [overwrite]
    by_cases h : i < p
    · rw [List.append_assoc, List.getElem?_append_left (by simp; omega), List.getElem?_take, if_pos h,
        List.getElem?_append_left hi]
    · rw [List.getElem?_append_right (by simp; omega), List.getElem?_drop]
      congr 1; simp; omega
  · intro i hi hp
    simp only [overwrite]
    rw [List.append_assoc, List.getElem?_append_left (by simp; omega), List.getElem?_take, if_pos hp,
      List.getElem?_append_right hi, List.getElem?_replicate, if_pos (by omega)]

theorem overwrite_nil (p : Nat) (r : Bytes) : List.replicate p 0 ++ r = overwrite [] p r := by
  simp [overwrite]

theorem between_eq (s : Bytes) (a b : Int64) : subRange s a b = between s a.toInt b.toInt := by
  rw [subRange_spec, bytesBetween_eq]
  simp only [between, fromEnd]
  rw [List.take_drop]
  generalize (if a.toInt < 0 then (s.length : Int) + a.toInt else a.toInt) = x
  generalize (if b.toInt < 0 then (s.length : Int) + b.toInt else b.toInt) = y
  by_cases h : max x 0 ≤ y + 1
  · congr 2; omega
  · rw [List.drop_of_length_le (by simp; omega), List.drop_of_length_le (by simp; omega)]

end Verif.Ref

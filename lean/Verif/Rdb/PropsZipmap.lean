import Verif.Rdb.PropsPacked

/-!
# C72, exactly: which packed maps are loaded right

Behind each entry the loader skips a byte the format does not have (zipmap.go:162).  If the entries behind the first one
carry no unused bytes, then a map comes out right just when it has at most one entry: what is read takes more bytes than
there are.  Unused bytes can hide a second copy (`C72_lucky`).
-/

namespace Verif.Rdb

/-- Bytes of a length. -/
def zlen (n : Nat) : Nat := if n < 254 then 1 else 5

/-- Bytes of a pair without unused bytes. -/
def zsize (p : Bytes × Bytes) : Nat := zlen p.1.length + p.1.length + zlen p.2.length + 1 + p.2.length

def total (ps : List (Bytes × Bytes)) : Nat := (ps.map zsize).sum

theorem encZmLen_length (n : Nat) : (encZmLen n).length = zlen n := by
  unfold encZmLen zlen
  split
  · rfl
  · simp [leInt]

/-! ## What the loop reads -/

theorem zmLen_size {s : Bytes} {i n j : Nat} (h : zmLen s [] i = some (n, j)) :
    i + zlen n ≤ j ∧ (j = i + 1 → ∃ b : UInt8, s[i]? = some b ∧ b.toNat < 254) := by
  unfold zmLen at h
  cases hb : s[i]? with
  | none => rw [hb] at h; cases h
  | some b =>
    rw [hb] at h
    simp only [Option.bind_eq_bind, Option.bind_some] at h
    split at h
    · cases hx : slice (s ++ []) (i + 1) (i + 5) with
      | none => rw [hx] at h; cases h
      | some x =>
        rw [hx] at h
        simp only [Option.bind_some, Option.pure_def, Option.some.injEq, Prod.mk.injEq] at h
        refine ⟨?_, fun e => by omega⟩
        unfold zlen
        split <;> omega
    · rename_i hlt
      simp only [Option.pure_def, Option.some.injEq, Prod.mk.injEq] at h
      obtain ⟨rfl, rfl⟩ := h
      refine ⟨?_, fun _ => ⟨b, rfl, by omega⟩⟩
      unfold zlen
      rw [if_pos (by omega)]
      exact Nat.le_refl _

theorem slice_some {s x : Bytes} {a b : Nat} (h : slice s a b = some x) : a ≤ b ∧ b ≤ s.length ∧ x.length = b - a ∧ x = (s.drop a).take (b - a) := by
  unfold slice at h
  split at h
  · rename_i hc
    simp only [Option.some.injEq] at h
    subst h
    refine ⟨hc.1, hc.2, ?_, rfl⟩
    rw [List.length_take, List.length_drop]
    omega
  · cases h

/-- One turn of the loop. -/
theorem zmLoop_turn {s : Bytes} {fuel i : Nat} {m m' : List (Bytes × Bytes)} (h : zmLoop s (fuel + 1) i m = some m')
    (hi : i + 1 < s.length) : ∃ i1 i2 i3 vfl key value, zmLen s [] i = some (key.length, i1) ∧ slice s i1 (i1 + key.length) = some key ∧
      zmLen s [] (i1 + key.length) = some (value.length, i2) ∧ zmLen s [] i2 = some (vfl, i3) ∧
      slice s i3 (i3 + value.length) = some value ∧
      zmLoop s fuel (i3 + value.length + vfl + 1) (mapPut m key value) = some m' := by
  rw [zmLoop, if_pos hi] at h
  obtain ⟨⟨kl, i1⟩, h1, h⟩ := Option.bind_eq_some_iff.1 h
  obtain ⟨key, h2, h⟩ := Option.bind_eq_some_iff.1 h
  obtain ⟨⟨vl, i2⟩, h3, h⟩ := Option.bind_eq_some_iff.1 h
  obtain ⟨⟨vfl, i3⟩, h4, h⟩ := Option.bind_eq_some_iff.1 h
  obtain ⟨value, h5, h⟩ := Option.bind_eq_some_iff.1 h
  have e1 := slice_some h2
  have e2 := slice_some h5
  obtain rfl : key.length = kl := by omega
  obtain rfl : value.length = vl := by omega
  exact ⟨i1, i2, i3, vfl, key, value, h1, h2, h3, h4, h5, h⟩

theorem zmLoop_cost {s : Bytes} : ∀ (fuel i : Nat) {m m' : List (Bytes × Bytes)}, zmLoop s fuel i m = some m' →
    ∃ ps : List (Bytes × Bytes), m' = ps.foldl (fun m p => mapPut m p.1 p.2) m ∧
      (ps ≠ [] → i + total ps + ps.length ≤ s.length + 1) := by
  intro fuel
  induction fuel with
  | zero => intro i m m' h; cases h
  | succ fuel ih =>
    intro i m m' h
    by_cases hi : i + 1 < s.length
    · obtain ⟨i1, i2, i3, vfl, key, value, h1, h2, h3, h4, h5, h6⟩ := zmLoop_turn h hi
      obtain ⟨ps, p1, p2⟩ := ih _ h6
      refine ⟨(key, value) :: ps, p1, fun _ => ?_⟩
      have a1 := (zmLen_size h1).1
      have a3 := (zmLen_size h3).1
      have a4 := (zmLen_size h4).1
      have a5 := slice_some h5
      have a6 : 1 ≤ zlen vfl := by unfold zlen; split <;> omega
      have ht : total ((key, value) :: ps) = zsize (key, value) + total ps := by simp [total]
      have hz : zsize (key, value) = zlen key.length + key.length + zlen value.length + 1 + value.length := rfl
      rw [ht, hz, List.length_cons]
      by_cases hps : ps = []
      · subst hps
        simp only [total, List.map_nil, List.sum_nil, List.length_nil]
        omega
      · have := p2 hps
        omega
    · rw [zmLoop, if_neg hi] at h
      cases h
      exact ⟨[], rfl, fun h => absurd rfl h⟩

/-- An entry in its place is read and put. -/
theorem zmLoop_entry {pre R k v fr : Bytes} (hk : k.length < 2 ^ 32) (hvl : v.length < 2 ^ 32) (hfl : fr.length < 254)
    (fuel : Nat) (m : List (Bytes × Bytes)) :
    zmLoop (pre ++ (encZmEnt (k, v, fr) ++ R)) (fuel + 1) pre.length m =
      zmLoop (pre ++ (encZmEnt (k, v, fr) ++ R)) fuel ((pre ++ encZmEnt (k, v, fr)).length + 1) (mapPut m k v) := by
  obtain ⟨S, hS⟩ : ∃ S, S = pre ++ (encZmEnt (k, v, fr) ++ R) := ⟨_, rfl⟩
  have eF : encZmLen fr.length = [UInt8.ofNat fr.length] := by simp [encZmLen, hfl]
  have e0 : S = pre ++ (encZmLen k.length ++ (k ++ encZmLen v.length ++ encZmLen fr.length ++ v ++ fr ++ R)) := by
    rw [hS, eF]; simp [encZmEnt]
  have e2 : S = (pre ++ encZmLen k.length ++ k) ++ (encZmLen v.length ++ (encZmLen fr.length ++ v ++ fr ++ R)) := by
    rw [e0]; simp
  have e3 : S = (pre ++ encZmLen k.length ++ k ++ encZmLen v.length) ++ (encZmLen fr.length ++ (v ++ fr ++ R)) := by
    rw [e0]; simp
  have e4 : S = (pre ++ encZmLen k.length ++ k ++ encZmLen v.length ++ encZmLen fr.length) ++ v ++ (fr ++ R) := by
    rw [e0]; simp
  have a0 : zmLen S [] pre.length = some (k.length, (pre ++ encZmLen k.length).length) := by rw [e0]; exact zmLen_at hk rfl
  have a1 : slice S ((pre ++ encZmLen k.length).length) ((pre ++ encZmLen k.length).length + k.length) = some k := by
    have : S = (pre ++ encZmLen k.length) ++ k ++ (encZmLen v.length ++ encZmLen fr.length ++ v ++ fr ++ R) := by rw [e0]; simp
    rw [this]; exact slice_mid rfl rfl
  have a2 : zmLen S [] ((pre ++ encZmLen k.length).length + k.length) =
      some (v.length, (pre ++ encZmLen k.length ++ k ++ encZmLen v.length).length) := by
    rw [e2]; exact zmLen_at hvl (by simp only [List.length_append])
  have a3 : zmLen S [] ((pre ++ encZmLen k.length ++ k ++ encZmLen v.length).length) =
      some (fr.length, (pre ++ encZmLen k.length ++ k ++ encZmLen v.length ++ encZmLen fr.length).length) := by
    rw [e3]; exact zmLen_at (by omega) rfl
  have a4 : slice S ((pre ++ encZmLen k.length ++ k ++ encZmLen v.length ++ encZmLen fr.length).length)
      ((pre ++ encZmLen k.length ++ k ++ encZmLen v.length ++ encZmLen fr.length).length + v.length) = some v := by
    rw [e4]; exact slice_mid rfl rfl
  have hpos : pre.length + 1 < S.length := by
    have l1 : 1 ≤ (encZmLen k.length).length := by unfold encZmLen; split <;> simp
    have l2 : 1 ≤ (encZmLen v.length).length := by unfold encZmLen; split <;> simp
    rw [e0]
    simp only [List.length_append]
    omega
  rw [← hS, zmLoop, if_pos hpos, a0]
  simp only [Option.bind_eq_bind, Option.bind_some, a1, a2, a3, a4]
  congr 1
  simp only [encZmEnt, List.length_append, List.length_singleton, eF]
  omega

/-! ## Counting -/

theorem lookup_foldPut {ps : List (Bytes × Bytes)} : ∀ {m : List (Bytes × Bytes)} {q v : Bytes},
    (ps.foldl (fun m p => mapPut m p.1 p.2) m).lookup q = some v → (q, v) ∈ ps ∨ m.lookup q = some v := by
  induction ps with
  | nil => exact fun h => .inr h
  | cons p ps ih =>
    intro m q v h
    rcases ih h with h | h
    · exact .inl (List.mem_cons_of_mem _ h)
    · rw [lookup_mapPut] at h
      split at h
      · rename_i e
        cases h
        subst e
        exact .inl (List.mem_cons_self ..)
      · exact .inr h

theorem total_erase {p : Bytes × Bytes} {ps : List (Bytes × Bytes)} (h : p ∈ ps) :
    total ps = zsize p + total (ps.erase p) ∧ ps.length = (ps.erase p).length + 1 := by
  induction ps with
  | nil => cases h
  | cons a ps ih =>
    by_cases ha : a = p
    · subst ha
      simp [total]
    · have := ih ((List.mem_cons.1 h).resolve_left (fun e => ha e.symm))
      rw [List.erase_cons_tail (by simpa using ha)]
      simp only [total, List.map_cons, List.sum_cons, List.length_cons] at this ⊢
      omega

/-- Different pairs that are all among `ps` do not take more than `ps`. -/
theorem total_sub {es : List (Bytes × Bytes)} : ∀ {ps : List (Bytes × Bytes)}, es.Nodup → (∀ e ∈ es, e ∈ ps) →
    total es ≤ total ps ∧ es.length ≤ ps.length := by
  induction es with
  | nil => exact fun _ _ => ⟨Nat.zero_le _, Nat.zero_le _⟩
  | cons e es ih =>
    intro ps hn h
    obtain ⟨h1, h2⟩ := total_erase (h e (List.mem_cons_self ..))
    have := ih (ps := ps.erase e) (List.nodup_cons.1 hn).2 (fun x hx => by
      refine (List.mem_erase_of_ne ?_).2 (h x (List.mem_cons_of_mem _ hx))
      rintro rfl
      exact (List.nodup_cons.1 hn).1 hx)
    simp only [total, List.map_cons, List.sum_cons, List.length_cons] at this h1 ⊢
    omega

theorem shift_all {v : Bytes} {x : UInt8} (h : v.drop 1 ++ [x] = v) : ∀ y ∈ v, y = x := by
  induction v with
  | nil => intro y hy; cases hy
  | cons a v ih =>
    simp only [List.drop_succ_cons, List.drop_zero] at h
    cases v with
    | nil =>
      simp only [List.nil_append, List.cons.injEq, and_true] at h
      intro y hy
      rw [List.mem_singleton.1 hy, h]
    | cons b v =>
      simp only [List.cons_append, List.cons.injEq] at h
      obtain ⟨rfl, h⟩ := h
      have := ih (by simpa using h)
      intro y hy
      rcases List.mem_cons.1 hy with rfl | hy
      · exact this _ (List.mem_cons_self ..)
      · exact this y hy

/-- The map a list of entries stands for. -/
def asMap (es : List (Bytes × Bytes × Bytes)) : List (Bytes × Bytes) := es.map fun e => (e.1, e.2.1)

theorem enc_total {es : List (Bytes × Bytes × Bytes)} (hp : ∀ e ∈ es, e.2.2 = []) : (es.flatMap encZmEnt).length = total (asMap es) := by
  induction es with
  | nil => rfl
  | cons e es ih =>
    obtain ⟨k, v, fr⟩ := e
    have := hp _ (List.mem_cons_self ..)
    simp only at this
    subst this
    have := ih (fun e he => hp e (List.mem_cons_of_mem _ he))
    simp only [List.flatMap_cons, List.length_append, this, asMap, List.map_cons, total, List.sum_cons, zsize, encZmEnt, encZmLen_length,
      List.length_singleton, List.length_nil]
    omega

theorem lookup_asMap {es : List (Bytes × Bytes × Bytes)} (hn : (es.map (·.1)).Nodup) {e : Bytes × Bytes × Bytes} (he : e ∈ es) :
    (asMap es).lookup e.1 = some e.2.1 := by
  induction es with
  | nil => cases he
  | cons a es ih =>
    simp only [List.map_cons, List.nodup_cons] at hn
    simp only [asMap, List.map_cons, List.lookup_cons]
    rcases List.mem_cons.1 he with rfl | he
    · simp
    · have : e.1 ≠ a.1 := fun h => hn.1 (h ▸ List.mem_map_of_mem he)
      rw [beq_eq_false_iff_ne.mpr this]
      exact ih hn.2 he

theorem nodup_asMap {es : List (Bytes × Bytes × Bytes)} (hn : (es.map (·.1)).Nodup) : (asMap es).Nodup := by
  induction es with
  | nil => exact List.nodup_nil
  | cons a es ih =>
    simp only [List.map_cons, List.nodup_cons] at hn
    simp only [asMap, List.map_cons, List.nodup_cons]
    refine ⟨fun h => ?_, ih hn.2⟩
    obtain ⟨b, hb, e⟩ := List.mem_map.1 h
    exact hn.1 ((Prod.mk.inj e).1 ▸ List.mem_map_of_mem hb)

/-- C72, exactly, when the entries behind the first carry no unused bytes: the loader gives the map just when it has at
most one entry. -/
theorem C72_exact (cnt : UInt8) (es : List (Bytes × Bytes × Bytes)) (hv : ZmValid es) (hp : ∀ e ∈ es.tail, e.2.2 = []) :
    (∃ m, zipmapLoad (encZipmap cnt es) = some m ∧ ∀ q, m.lookup q = (asMap es).lookup q) ↔ es.length ≤ 1 := by
  constructor
  · rintro ⟨m, hm, hl⟩
    match es, hv, hp, hm, hl with
    | [], _, _, _, _ => simp
    | [_], _, _, _, _ => simp
    | (k1, v1, f1) :: e2 :: rest, hv, hp, hm, hl =>
      exfalso
      have hp : ∀ e ∈ e2 :: rest, e.2.2 = [] := hp
      obtain ⟨hk, hvl, hfl⟩ := hv.1 _ (List.mem_cons_self ..)
      obtain ⟨X, hX⟩ : ∃ X, X = (e2 :: rest).flatMap encZmEnt ++ [255] := ⟨_, rfl⟩
      obtain ⟨pre, hpre⟩ : ∃ pre, pre = [cnt] ++ encZmEnt (k1, v1, f1) := ⟨_, rfl⟩
      have hS : encZipmap cnt ((k1, v1, f1) :: e2 :: rest) = [cnt] ++ (encZmEnt (k1, v1, f1) ++ X) := by
        simp [encZipmap, hX]
      have hS' : encZipmap cnt ((k1, v1, f1) :: e2 :: rest) = pre ++ X := by rw [hS, hpre, List.append_assoc]
      have hXl : X.length = total (asMap (e2 :: rest)) + 1 := by
        rw [hX, List.length_append, enc_total hp]; rfl
      have hloop : zmLoop (pre ++ X) (pre ++ X).length (pre.length + 1) [(k1, v1)] = some m := by
        rw [hS] at hm
        unfold zipmapLoad at hm
        have h0 : ([cnt] ++ (encZmEnt (k1, v1, f1) ++ X))[0]? = some cnt := rfl
        simp only [h0, Option.bind_eq_bind, Option.bind_some] at hm
        have := zmLoop_entry (pre := [cnt]) (R := X) hk hvl hfl ([cnt] ++ (encZmEnt (k1, v1, f1) ++ X)).length []
        rw [show ([cnt] : Bytes).length = 1 from rfl] at this
        rw [this] at hm
        rw [hpre, List.append_assoc]
        simpa only [mapPut, List.append_assoc] using hm
      have hk1 : ∀ e ∈ e2 :: rest, e.1 ≠ k1 := by
        intro e he h
        have := hv.2
        simp only [List.map_cons, List.nodup_cons] at this
        exact this.1 (h ▸ List.mem_map_of_mem he)
      have hsub : ∀ {ps : List (Bytes × Bytes)}, m = ps.foldl (fun m p => mapPut m p.1 p.2) [(k1, v1)] → ∀ p ∈ asMap (e2 :: rest), p ∈ ps := by
        intro ps hps p hpm
        obtain ⟨e, he, rfl⟩ := List.mem_map.1 hpm
        have h1 := hl e.1
        rw [lookup_asMap hv.2 (List.mem_cons_of_mem _ he), hps] at h1
        rcases lookup_foldPut h1 with h | h
        · exact h
        · rw [List.lookup_cons, beq_eq_false_iff_ne.mpr (hk1 e he)] at h
          cases h
      have hnd : (asMap (e2 :: rest)).Nodup := nodup_asMap (by
        have := hv.2
        simp only [List.map_cons, List.nodup_cons] at this ⊢
        exact this.2)
      have hXpos : 1 ≤ total (asMap (e2 :: rest)) := by
        simp only [asMap, List.map_cons, total, List.sum_cons, zsize]
        omega
      obtain ⟨fuel, hfuel⟩ : ∃ f, (pre ++ X).length = f + 1 := ⟨(pre ++ X).length - 1, by rw [List.length_append]; omega⟩
      rw [hfuel] at hloop
      by_cases hi : pre.length + 1 + 1 < (pre ++ X).length
      · obtain ⟨i1, i2, i3, vfl, key, value, h1, h2, h3, h4, h5, h6⟩ := zmLoop_turn hloop hi
        obtain ⟨ps, p1, p2⟩ := zmLoop_cost _ _ h6
        have hs := hsub (ps := (key, value) :: ps) p1
        obtain ⟨q1, q2⟩ := total_sub hnd hs
        have a1 := (zmLen_size h1).1
        have a3 := (zmLen_size h3).1
        have a4 := zmLen_size h4
        have a5 := slice_some h5
        have a6 : 1 ≤ zlen vfl := by unfold zlen; split <;> omega
        have ht : total ((key, value) :: ps) = zlen key.length + key.length + zlen value.length + 1 + value.length + total ps := by
          simp [total, zsize]
        rw [ht] at q1
        rw [List.length_append] at a5
        have hps : ps = [] := by
          refine Decidable.byContradiction fun hne => ?_
          have := p2 hne
          have := List.length_pos_iff.mpr hne
          rw [List.length_append] at *
          omega
        subst hps
        simp only [total, List.map_nil, List.sum_nil] at q1
        have hrest : rest = [] := by
          cases rest with
          | nil => rfl
          | cons a b => simp [asMap] at q2
        subst hrest
        obtain ⟨k2, v2, f2⟩ := e2
        have hf2 := hp _ (List.mem_cons_self ..)
        simp only at hf2
        subst hf2
        have hkv := hs (k2, v2) (by simp [asMap])
        rw [List.mem_singleton, Prod.mk.injEq] at hkv
        obtain ⟨rfl, rfl⟩ := hkv
        have hXl' : X.length = zlen k2.length + k2.length + zlen v2.length + 1 + v2.length + 1 := by
          rw [hXl]
          simp [asMap, total, zsize]
        have e3 : i3 = i2 + 1 := by omega
        have e2 : i2 = pre.length + 1 + (zlen k2.length + k2.length + zlen v2.length) := by omega
        obtain ⟨b, hb, hb'⟩ := a4.2 e3
        have hXs : X = (encZmLen k2.length ++ k2 ++ encZmLen v2.length ++ [0]) ++ (v2 ++ [255]) := by
          rw [hX]
          simp [encZmEnt]
        have hfront : (pre ++ (encZmLen k2.length ++ k2 ++ encZmLen v2.length ++ [0])).length = i2 := by
          simp only [List.length_append, encZmLen_length, List.length_singleton]
          omega
        have hSd : (pre ++ X).drop i2 = v2 ++ [255] := by
          rw [hXs, ← List.append_assoc pre, ← hfront, List.drop_left]
        have hv2 : v2 = v2.drop 1 ++ [255] := by
          have := a5.2.2.2
          rw [e3, ← List.drop_drop, hSd] at this
          cases hv : v2 with
          | nil =>
            exfalso
            have : (pre ++ X)[i2]? = some 255 := by
              have := congrArg (fun l => l[0]?) hSd
              simp only [List.getElem?_drop, Nat.add_zero] at this
              rw [this, hv]
              rfl
            rw [this] at hb
            cases hb
            exact absurd hb' (by decide)
          | cons x t =>
            rw [hv] at this
            simp only [List.cons_append, List.drop_succ_cons, List.drop_zero] at this
            rw [List.take_of_length_le (by simp)] at this
            simpa using this
        have hall := shift_all hv2.symm
        have : (pre ++ X)[i2]? = some 255 := by
          have := congrArg (fun l => l[0]?) hSd
          simp only [List.getElem?_drop, Nat.add_zero] at this
          rw [this]
          cases hv : v2 with
          | nil => rfl
          | cons x t =>
            rw [hall x (by rw [hv]; exact List.mem_cons_self ..)]
            rfl
        rw [this] at hb
        cases hb
        exact absurd hb' (by decide)
      · rw [zmLoop, if_neg hi] at hloop
        cases hloop
        have := hsub (ps := []) rfl (e2.1, e2.2.1) (by simp [asMap])
        cases this
  · intro h
    exact ⟨_, C72_one_partial cnt es hv h, fun _ => rfl⟩

/-- With unused bytes behind the second entry a map of two entries can come out right: the unused bytes hold the rest of a
second copy of the entry. -/
theorem C72_lucky : ZmValid [([6], [], []), ([1, 6, 0, 0, 9, 6], [0], [0, 9, 6, 1, 0, 0])] ∧
    zipmapLoad (encZipmap 2 [([6], [], []), ([1, 6, 0, 0, 9, 6], [0], [0, 9, 6, 1, 0, 0])]) =
      some [([6], []), ([1, 6, 0, 0, 9, 6], [0])] := by
  refine ⟨⟨?_, by decide⟩, by decide +kernel⟩
  intro e he
  simp only [List.mem_cons, List.not_mem_nil, or_false] at he
  rcases he with rfl | rfl <;> decide

/-- Two maps that meet the hypotheses, one of each kind. -/
example : ZmValid [(b!"a", b!"1", [0, 0])] ∧ ZmValid [(b!"a", b!"1", [0]), (b!"b", b!"2", [])] := by
  refine ⟨⟨?_, by decide⟩, ⟨?_, by decide⟩⟩ <;> intro e he <;>
    simp only [List.mem_cons, List.not_mem_nil, or_false] at he
  · subst he; decide +kernel
  · rcases he with rfl | rfl <;> decide +kernel

end Verif.Rdb

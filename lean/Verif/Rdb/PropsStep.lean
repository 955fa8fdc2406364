import Verif.Rdb.PropsExact2
/-!
# C71: what a 64 bit integer does to the rest of a packed list

Five of its eight bytes are taken (ziplist.go:115-116, 127-129), the other three are read as elements.
-/
namespace Verif.Rdb

/-- Elements the loader keeps in step with, in front of anything. -/
theorem zlLoop_front {es : List (Bytes × ZVal)} (he : ∀ e ∈ es, PrevField e.1 ∧ e.2.Valid ∧ Aligned e.2) {pre tail : Bytes} {fuel : Nat} :
    zlLoop (pre ++ (encZEnts es ++ tail)) (es.length + fuel) pre.length =
      (zlLoop (pre ++ (encZEnts es ++ tail)) fuel (pre ++ encZEnts es).length).map (es.map (fun e => seen e.2) ++ ·) := by
  induction es generalizing pre with
  | nil => simp [encZEnts]
  | cons e es ih =>
    obtain ⟨p, v⟩ := e
    obtain ⟨hp, hv, ha⟩ := he (p, v) (by simp)
    simp only at hp hv ha
    have e1 : pre ++ (encZEnts ((p, v) :: es) ++ tail) = pre ++ p ++ (v.enc ++ (encZEnts es ++ tail)) := by simp [encZEnts]
    have e2 : pre ++ (encZEnts ((p, v) :: es) ++ tail) = (pre ++ p) ++ v.enc ++ (encZEnts es ++ tail) := by simp [encZEnts]
    have e3 : pre ++ (encZEnts ((p, v) :: es) ++ tail) = (pre ++ p ++ v.enc) ++ (encZEnts es ++ tail) := by simp [encZEnts]
    have e4 : pre ++ encZEnts ((p, v) :: es) = (pre ++ p ++ v.enc) ++ encZEnts es := by simp [encZEnts]
    obtain ⟨h1, h2, h3⟩ := prev_size (pre := pre) (post := v.enc ++ (encZEnts es ++ tail)) hp rfl
    obtain ⟨size, length, h4, h5⟩ := entry_at (pre := pre ++ p) (post := encZEnts es ++ tail) hv ha
    have h6 := ih (fun e h => he e (List.mem_cons_of_mem _ h)) (pre := pre ++ p ++ v.enc)
    rw [← e1] at h1 h2 h3
    rw [← e2] at h4
    rw [← e3, ← e4] at h6
    obtain ⟨b, hb⟩ := Option.isSome_iff_exists.mp h3
    have hb' : b ≠ 255 := by intro e; rw [hb, e] at h2; exact h2 rfl
    rw [show ((p, v) :: es).length + fuel = es.length + fuel + 1 by simp; omega]
    simp only [zlLoop, hb, Option.bind_eq_bind, Option.bind_some, if_neg hb', h1]
    rw [List.length_append] at h4
    simp only [h4, Option.bind_some, h5]
    rw [List.length_append, List.length_append] at h6
    rw [h6]
    cases zlLoop (pre ++ (encZEnts ((p, v) :: es) ++ tail)) fuel (pre ++ encZEnts ((p, v) :: es)).length <;> simp

/-- One 64 bit integer: its first five bytes are the element, and reading goes on at its sixth. -/
theorem zlLoop_int64 {p : Bytes} (hp : PrevField p) (v : Int) {pre tail : Bytes} {fuel : Nat} :
    zlLoop (pre ++ (p ++ (ZVal.int64 v).enc ++ tail)) (fuel + 1) pre.length =
      (zlLoop (pre ++ (p ++ (ZVal.int64 v).enc ++ tail)) fuel (pre.length + p.length + 6)).map ((leInt 8 v).take 5 :: ·) := by
  have e1 : pre ++ (p ++ (ZVal.int64 v).enc ++ tail) = pre ++ p ++ ((ZVal.int64 v).enc ++ tail) := by simp
  obtain ⟨h1, h2, h3⟩ := prev_size (pre := pre) (post := (ZVal.int64 v).enc ++ tail) hp rfl
  rw [← e1] at h1 h2 h3
  obtain ⟨b, hb⟩ := Option.isSome_iff_exists.mp h3
  have hb' : b ≠ 255 := by intro e; rw [hb, e] at h2; exact h2 rfl
  have g0 : (pre ++ (p ++ (ZVal.int64 v).enc ++ tail))[pre.length + p.length]? = some 0xe0 := by
    have : pre ++ (p ++ (ZVal.int64 v).enc ++ tail) = (pre ++ p) ++ (0xe0 :: (leInt 8 v ++ tail)) := by simp [ZVal.enc]
    rw [this, ← List.length_append]; simp
  have hs : slice (pre ++ (p ++ (ZVal.int64 v).enc ++ tail)) (pre.length + p.length + 1) (pre.length + p.length + 5 + 1) = some ((leInt 8 v).take 5) := by
    have e : pre ++ (p ++ (ZVal.int64 v).enc ++ tail) = (pre ++ p ++ [0xe0]) ++ (leInt 8 v).take 5 ++ ((leInt 8 v).drop 5 ++ tail) := by
      simp [ZVal.enc]
      rw [← List.append_assoc ((leInt 8 v).take 5), List.take_append_drop]
    rw [e]
    exact slice_mid (by simp; omega) (by simp; omega)
  have hz : zlEntry (pre ++ (p ++ (ZVal.int64 v).enc ++ tail)) (pre.length + p.length) = some (1, 5, (leInt 8 v).take 5) := by
    unfold zlEntry
    simp only [g0, Option.bind_eq_bind, Option.bind_some, Option.pure_def]
    simp (decide := true) only [if_true, if_false, Option.bind_some, hs]
  simp only [zlLoop, hb, Option.bind_eq_bind, Option.bind_some, if_neg hb', h1, hz]
  cases zlLoop (pre ++ (p ++ (ZVal.int64 v).enc ++ tail)) fuel (pre.length + p.length + (5 + 1)) <;> rfl

theorem leInt8_cons (v : Int) : ∃ x y z, leInt 8 v = (leInt 8 v).take 5 ++ [x, y, z] ∧
    x = UInt8.ofNat (v / 2 ^ 40 % 256).toNat ∧ y = UInt8.ofNat (v / 2 ^ 48 % 256).toNat ∧ z = UInt8.ofNat (v / 2 ^ 56 % 256).toNat := by
  refine ⟨_, _, _, ?_, rfl, rfl, rfl⟩
  simp only [leInt_succ, leInt_zero, List.take_succ_cons, List.take_zero, List.cons_append, List.nil_append]
  have a : v / 256 / 256 / 256 / 256 / 256 = v / 2 ^ 40 := by omega
  have b : v / 256 / 256 / 256 / 256 / 256 / 256 = v / 2 ^ 48 := by omega
  have c : v / 256 / 256 / 256 / 256 / 256 / 256 / 256 = v / 2 ^ 56 := by omega
  rw [c, b, a]

theorem count_le {es : List (Bytes × ZVal)} (h : ∀ e ∈ es, PrevField e.1 ∧ e.2.Valid) : es.length ≤ (encZEnts es).length := by
  induction es with
  | nil => simp
  | cons e es ih =>
    have := ih (fun e h' => h e (List.mem_cons_of_mem _ h'))
    have hp := prevField_pos (h e (by simp)).1
    simp only [encZEnts, List.flatMap_cons, List.length_append, List.length_cons] at this ⊢
    omega

theorem zlEnts_append (a b : List (Bytes × ZVal)) : encZEnts (a ++ b) = encZEnts a ++ encZEnts b := by simp [encZEnts]

theorem zlEnts_cons (p : Bytes) (v : ZVal) (b : List (Bytes × ZVal)) : encZEnts ((p, v) :: b) = p ++ v.enc ++ encZEnts b := by simp [encZEnts]

/-- C71 fails without any notice: behind elements that are read, a 64 bit integer between -2^40 and -1 comes out as its
first five bytes, and all that follows it is dropped. -/
theorem C71_violated_dropped (hdr : Bytes) (a b : List (Bytes × ZVal)) (p : Bytes) (v : Int) (hv : ZlValid hdr (a ++ (p, .int64 v) :: b))
    (ha : ∀ e ∈ a, Aligned e.2) (h1 : -(2 ^ 40) ≤ v) (h2 : v < 0) :
    ziplistLoad (encZiplist hdr (a ++ (p, .int64 v) :: b)) = some (a.map (fun e => seen e.2) ++ [(leInt 8 v).take 5]) := by
  obtain ⟨hl, he⟩ := hv
  have hp : PrevField p := (he (p, .int64 v) (by simp)).1
  have hea : ∀ e ∈ a, PrevField e.1 ∧ e.2.Valid := fun e h => he e (by simp [h])
  obtain ⟨x, y, z, hx, hx1, -, -⟩ := leInt8_cons v
  have hx2 : x = 255 := by rw [hx1, show v / 2 ^ 40 = -1 by omega]; decide
  subst hx2
  have e1 : encZiplist hdr (a ++ (p, .int64 v) :: b) = hdr ++ (encZEnts a ++ (p ++ (ZVal.int64 v).enc ++ (encZEnts b ++ [255]))) := by
    simp [encZiplist, zlEnts_append, zlEnts_cons]
  have hc := count_le hea
  obtain ⟨f, hf⟩ : ∃ f, (encZiplist hdr (a ++ (p, .int64 v) :: b)).length + 1 = a.length + (f + 1 + 1) :=
    ⟨(encZiplist hdr (a ++ (p, .int64 v) :: b)).length - 1 - a.length, by rw [e1]; simp [ZVal.enc]; omega⟩
  unfold ziplistLoad
  rw [hf, e1, ← hl, zlLoop_front (fun e h => ⟨(hea e h).1, (hea e h).2, ha e h⟩)]
  have e2 : hdr ++ (encZEnts a ++ (p ++ (ZVal.int64 v).enc ++ (encZEnts b ++ [255]))) =
      (hdr ++ encZEnts a) ++ (p ++ (ZVal.int64 v).enc ++ (encZEnts b ++ [255])) := by simp
  rw [e2, zlLoop_int64 hp]
  have g : ((hdr ++ encZEnts a) ++ (p ++ (ZVal.int64 v).enc ++ (encZEnts b ++ [255])))[(hdr ++ encZEnts a).length + p.length + 6]? = some 255 := by
    have : (hdr ++ encZEnts a) ++ (p ++ (ZVal.int64 v).enc ++ (encZEnts b ++ [255])) =
        (hdr ++ encZEnts a ++ p ++ [0xe0] ++ (leInt 8 v).take 5) ++ (255 :: [y, z] ++ (encZEnts b ++ [255])) := by
      have : (ZVal.int64 v).enc = [0xe0] ++ ((leInt 8 v).take 5 ++ [255, y, z]) := by rw [← hx]; rfl
      rw [this]
      simp
    rw [this]
    exact get_mid (by simp; omega)
  have hd : zlLoop ((hdr ++ encZEnts a) ++ (p ++ (ZVal.int64 v).enc ++ (encZEnts b ++ [255]))) (f + 1) ((hdr ++ encZEnts a).length + p.length + 6) = some [] := by
    rw [zlLoop, g]; rfl
  rw [hd]; rfl

/-- C71 fails with a panic: behind elements that are read, any 64 bit integer from 0 to 2^40-1 at the end of the list. -/
theorem C71_violated_last (hdr : Bytes) (a : List (Bytes × ZVal)) (p : Bytes) (v : Int) (hv : ZlValid hdr (a ++ [(p, .int64 v)]))
    (ha : ∀ e ∈ a, Aligned e.2) (h1 : 0 ≤ v) (h2 : v < 2 ^ 40) :
    ziplistLoad (encZiplist hdr (a ++ [(p, .int64 v)])) = none := by
  obtain ⟨hl, he⟩ := hv
  have hp : PrevField p := (he (p, .int64 v) (by simp)).1
  have hea : ∀ e ∈ a, PrevField e.1 ∧ e.2.Valid := fun e h => he e (by simp [h])
  obtain ⟨x, y, z, hx, hx1, hy1, hz1⟩ := leInt8_cons v
  have hx2 : x = 0 := by rw [hx1, show v / 2 ^ 40 = 0 by omega]; decide
  have hy2 : y = 0 := by rw [hy1, show v / 2 ^ 48 = 0 by omega]; decide
  have hz2 : z = 0 := by rw [hz1, show v / 2 ^ 56 = 0 by omega]; decide
  subst hx2 hy2 hz2
  have e1 : encZiplist hdr (a ++ [(p, .int64 v)]) = hdr ++ (encZEnts a ++ (p ++ (ZVal.int64 v).enc ++ [255])) := by
    simp [encZiplist, zlEnts_append, zlEnts_cons, encZEnts]
  have hc := count_le hea
  obtain ⟨f, hf⟩ : ∃ f, (encZiplist hdr (a ++ [(p, .int64 v)])).length + 1 = a.length + (f + 1 + 1 + 1) :=
    ⟨(encZiplist hdr (a ++ [(p, .int64 v)])).length - 2 - a.length, by rw [e1]; simp [ZVal.enc]; omega⟩
  unfold ziplistLoad
  rw [hf, e1, ← hl, zlLoop_front (fun e h => ⟨(hea e h).1, (hea e h).2, ha e h⟩)]
  have e2 : hdr ++ (encZEnts a ++ (p ++ (ZVal.int64 v).enc ++ [255])) = (hdr ++ encZEnts a) ++ (p ++ (ZVal.int64 v).enc ++ [255]) := by simp
  rw [e2, zlLoop_int64 hp]
  have e3 : (hdr ++ encZEnts a) ++ (p ++ (ZVal.int64 v).enc ++ [255]) =
      (hdr ++ encZEnts a ++ p ++ [0xe0] ++ (leInt 8 v).take 5) ++ [0, 0, 0, 255] := by
    have : (ZVal.int64 v).enc = [0xe0] ++ ((leInt 8 v).take 5 ++ [0, 0, 0]) := by rw [← hx]; rfl
    rw [this]
    simp
  have e4 : (hdr ++ encZEnts a).length + p.length + 6 = (hdr ++ encZEnts a ++ p ++ [0xe0] ++ (leInt 8 v).take 5).length := by simp; omega
  rw [e3, e4]
  generalize (hdr ++ encZEnts a ++ p ++ [0xe0] ++ (leInt 8 v).take 5) = q
  have g0 : (q ++ [0, 0, 0, 255])[q.length]? = some (0 : UInt8) := by simp
  have g1 : (q ++ [0, 0, 0, 255])[q.length + 1]? = some (0 : UInt8) := by simp
  have g2 : (q ++ [0, 0, 0, 255])[q.length + 1 + 1]? = some (0 : UInt8) := by rw [Nat.add_assoc]; simp
  have g3 : (q ++ [0, 0, 0, 255])[q.length + 1 + 1 + 1]? = some (255 : UInt8) := by rw [Nat.add_assoc, Nat.add_assoc]; simp
  generalize q ++ [0, 0, 0, 255] = w at g0 g1 g2 g3
  have z1 : zlEntry w (q.length + 1) = some (1, 0, []) := by
    unfold zlEntry; rw [g1]; rfl
  have z2 : zlEntry w (q.length + 1 + 1 + 1) = none := by
    unfold zlEntry; rw [g3]; rfl
  have p1 : zlPrevSize w q.length = some 1 := by
    unfold zlPrevSize; rw [g0]; rfl
  have p2 : zlPrevSize w (q.length + 1 + 1) = some 1 := by
    unfold zlPrevSize; rw [g2]; rfl
  have l2 : zlLoop w (f + 1) (q.length + 1 + (0 + 1)) = none := by
    rw [zlLoop, Nat.zero_add, g2]
    simp [p2, z2]
  have l1 : zlLoop w (f + 1 + 1) q.length = none := by
    rw [zlLoop, g0]
    simp [p1, z1, l2]
  rw [l1]; rfl

example : ZlValid (List.replicate 10 0) ([([0], .str6 b!"a")] ++ ([3], .int64 (-5000000000)) :: [([10], .str6 b!"b")]) ∧
    ziplistLoad (encZiplist (List.replicate 10 0) ([([0], .str6 b!"a")] ++ ([3], .int64 (-5000000000)) :: [([10], .str6 b!"b")])) =
      some [b!"a", [0, 14, 250, 213, 254]] := by
  refine ⟨⟨rfl, ?_⟩, by decide +kernel⟩
  intro e he
  simp at he
  rcases he with rfl | rfl | rfl
  · exact ⟨.inl ⟨0, by decide, rfl⟩, by simp [ZVal.Valid]⟩
  · exact ⟨.inl ⟨3, by decide, rfl⟩, by simp [ZVal.Valid, Signed]⟩
  · exact ⟨.inl ⟨10, by decide, rfl⟩, by simp [ZVal.Valid]⟩

end Verif.Rdb

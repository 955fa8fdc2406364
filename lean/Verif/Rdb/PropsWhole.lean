import Verif.Cache.PropsCounter
import Verif.Rdb.PropsModule
import Verif.Rdb.PropsExact2
import Verif.Rdb.PropsZipmap

/-! # Exactly which snapshots are loaded right (C65) -/

namespace Verif.Rdb

open Verif.Resp

/-- The values that the code recreates by the right command. -/
def Val.Recreated : Val → Prop
  | .str v => v.Read
  | .set l vs => l.Supported ∧ ∀ v ∈ vs, v.Read
  /- the code sends member and score in the wrong order, which is right only if they are the same text -/
  | .zset l vs => l.Supported ∧ ∀ p ∈ vs, p.1.Read ∧ p.1.value = formatFloat ((parseFloat p.2).getD F64.nan)
  | .zset2 l vs => l.Supported ∧ ∀ p ∈ vs, p.1.Read ∧ p.1.value = b!"0" ∧ p.2 = F64.zero
  | .quicklist l ns => l.Supported ∧ ∀ n ∈ ns, n.1.Read ∧ ∀ e ∈ n.2.2, Kept e.2
  | .zipmap e _ m => e.Read ∧ m.length ≤ 1
  | .ziplist e _ z | .hashZiplist e _ z => e.Read ∧ ∀ x ∈ z, Kept x.2
  | .intset e w xs => e.Read ∧ IntsOk w xs
  | .zsetZiplist e hdr z => e.Read ∧ ∃ xs, ziplistLoad (encZiplist hdr z) = some xs ∧
      xs.take (xs.length / 2 * 2) = (pairs (z.map (·.2.value))).flatMap fun p => [formatFloat ((parseFloat p.2).getD F64.nan), p.1]
  | .list _ _ | .hash _ _ => False

theorem evenPart_eq {α : Type} : ∀ l : List α, evenPart l = l.take (l.length / 2 * 2)
  | [] => by simp [evenPart]
  | [_] => by simp [evenPart]
  | a :: b :: l => by
    have : (a :: b :: l).length / 2 * 2 = l.length / 2 * 2 + 2 := by simp; omega
    rw [this, evenPart, evenPart_eq l]; rfl

/-- Packed maps carry unused bytes at most behind their first entry. -/
def Val.Tight : Val → Prop
  | .zipmap _ _ m => ∀ e ∈ m.tail, e.2.2 = []
  | _ => True

/-! ## Strings -/

theorem loadString_read {e : StrEnc} (hs : e.Read) (hv : e.Valid) {ps : List Piece} {rest : Bytes} {r : Rd}
    (h : Holds (e.pieces ++ ps) rest r) : ∃ r', loadString r = (.ok e.value, r') ∧ Holds ps rest r' := by
  by_cases hp : e.Supported
  · exact loadString_at hp hv h
  · cases e with
    | raw l s =>
      have : s = [] := by
        rcases hs with h | h | h
        · exact absurd (.inl h) hp
        · exact absurd (.inr h) hp
        · exact h
      subst this
      simp only [StrEnc.pieces, List.append_assoc] at h
      obtain ⟨r1, h1, h⟩ := loadLen_wide hp h
      obtain ⟨r2, h2, h⟩ := Holds.read h
      refine ⟨r2, ?_, h⟩
      simp only [List.length_nil] at h2
      simp [loadString, h1, h2, StrEnc.value]
    | int8 v => exact absurd trivial hp
    | int16 v => exact absurd hs hp
    | int32 v => exact absurd hs hp
    | lzf lc lu ts => exact absurd hs hp

/-- What becomes of a string that is not read right: nothing, a failure, or another number. -/
theorem loadString_wrong {e : StrEnc} (hs : ¬ e.Read) (hv : e.Valid) {ps : List Piece} {rest : Bytes} {r : Rd}
    (h : Holds (e.pieces ++ ps) rest r) :
    (loadString r).1 = .ok [] ∨ (loadString r).1 = .panic ∨
      ∃ n v r', v < 0 ∧ e.value = itoaInt v ∧ loadString r = (.ok (natText n), r') ∧ Holds ps rest r' := by
  cases e with
  | raw l s =>
    left
    have hl : ¬ l.Supported := fun hl => hs (by rcases hl with h | h; exact .inl h; exact .inr (.inl h))
    simp only [StrEnc.pieces, List.append_assoc] at h
    obtain ⟨r1, h1, h⟩ := loadLen_wide hl h
    simp [loadString, h1, Resp.read]
  | int8 v => exact absurd trivial hs
  | int16 v =>
    right; right
    obtain ⟨r1, h1, h⟩ := loadLen_tag (k := 1) (by decide) h
    obtain ⟨r2, h2, h⟩ := Holds.readFull h
    rw [leInt_length] at h2
    exact ⟨le (leInt 2 v), v, r2, by simpa [StrEnc.Read] using hs, rfl, by simp [loadString, h1, h2], h⟩
  | int32 v =>
    right; right
    obtain ⟨r1, h1, h⟩ := loadLen_tag (k := 2) (by decide) h
    obtain ⟨r2, h2, h⟩ := Holds.readFull h
    rw [leInt_length] at h2
    exact ⟨le (leInt 4 v), v, r2, by simpa [StrEnc.Read] using hs, rfl, by simp [loadString, h1, h2], h⟩
  | lzf lc lu ts => exact .inr (.inl (C63_violated_lzf lc lu ts hv hs ps rest r h))

/-- A string read right leaves the reader behind it. -/
theorem loadString_right {e : StrEnc} (hv : e.Valid) {ps : List Piece} {rest : Bytes} {r r' : Rd}
    (h : Holds (e.pieces ++ ps) rest r) (hl : loadString r = (.ok e.value, r')) : e.Read ∧ Holds ps rest r' := by
  have hr : e.Read := (C63_exact e hv ps rest r h).mp (by rw [hl])
  obtain ⟨r1, h1, h2⟩ := loadString_read hr hv h
  rw [hl] at h1
  simp only [Prod.mk.injEq, true_and] at h1
  exact ⟨hr, h1 ▸ h2⟩

/-! ## Lists of strings -/

theorem loadStrings_read {vs : List StrEnc} (hs : ∀ v ∈ vs, v.Read) (hv : ∀ v ∈ vs, v.Valid) {ps : List Piece} {rest : Bytes} {r : Rd}
    (h : Holds (vs.flatMap (·.pieces) ++ ps) rest r) :
    ∃ r', loadStrings vs.length r = (.ok (vs.map (·.value)), r') ∧ Holds ps rest r' := by
  induction vs generalizing r with
  | nil => exact ⟨r, rfl, h⟩
  | cons v vs ih =>
    simp only [List.flatMap_cons, List.append_assoc] at h
    obtain ⟨r1, h1, h⟩ := loadString_read (hs v (by simp)) (hv v (by simp)) h
    obtain ⟨r2, h2, h⟩ := ih (fun v h => hs v (by simp [h])) (fun v h => hv v (by simp [h])) h
    exact ⟨r2, by simp [loadStrings, h1, h2], h⟩

theorem loadStrings_right {vs : List StrEnc} (hv : ∀ v ∈ vs, v.Valid) {ps : List Piece} {rest : Bytes} {r r' : Rd}
    (h : Holds (vs.flatMap (·.pieces) ++ ps) rest r) (hl : loadStrings vs.length r = (.ok (vs.map (·.value)), r')) :
    ∀ v ∈ vs, v.Read := by
  induction vs generalizing r with
  | nil => simp
  | cons v vs ih =>
    simp only [List.flatMap_cons, List.append_assoc] at h
    obtain ⟨s, r1, h1, h2⟩ := andThen_eq_ok hl
    obtain ⟨ss, r2, h3, h4⟩ := andThen_eq_ok h2
    simp only [List.map_cons, Prod.mk.injEq, GoRes.ok.injEq, List.cons.injEq] at h4
    obtain ⟨⟨rfl, rfl⟩, rfl⟩ := h4
    obtain ⟨g1, g2⟩ := loadString_right (hv v (by simp)) h h1
    intro w hw
    rcases List.mem_cons.mp hw with rfl | hw
    · exact g1
    · exact ih (fun v h => hv v (by simp [h])) g2 h3 w hw

/-! ## Sorted sets -/

theorem formatFloat_ne_nil (x : F64) : formatFloat x ≠ [] := by
  intro h
  cases hn : x.isNaN with
  | false =>
    have := parseFloat_formatFloat hn
    rw [h] at this
    exact absurd this (by simp [show parseFloat [] = none from by decide])
  | true => simp [formatFloat, hn] at h

theorem formatFloat_zero : formatFloat F64.zero = b!"0" := by decide +kernel

theorem formatFloat_eq_zero {x : F64} (h : formatFloat x = b!"0") : x = F64.zero := by
  cases hn : x.isNaN with
  | false =>
    have h1 := parseFloat_formatFloat hn
    have h2 := parseFloat_formatFloat (x := F64.zero) (by decide)
    rw [h] at h1
    rw [formatFloat_zero, h1] at h2
    exact Option.some.inj h2
  | true => simp [formatFloat, hn] at h

theorem loadScored_read {vs : List (StrEnc × Bytes)} (hs : ∀ v ∈ vs, v.1.Read)
    (hv : ∀ v ∈ vs, v.1.Valid ∧ v.2.length < 253 ∧ (parseFloat v.2).isSome) {ps : List Piece} {rest : Bytes} {r : Rd}
    (h : Holds ((vs.flatMap fun p => p.1.pieces ++ [.one (UInt8.ofNat p.2.length), .full p.2]) ++ ps) rest r) :
    ∃ r', loadScored false vs.length r =
      (.ok (vs.flatMap fun p => [p.1.value, formatFloat ((parseFloat p.2).getD F64.nan)]), r') ∧ Holds ps rest r' := by
  induction vs generalizing r with
  | nil => exact ⟨r, rfl, h⟩
  | cons v vs ih =>
    simp only [List.flatMap_cons, List.append_assoc, List.cons_append, List.nil_append] at h
    obtain ⟨v1, v2, v3⟩ := hv v (by simp)
    obtain ⟨r1, h1, h⟩ := loadString_read (hs v (by simp)) v1 h
    obtain ⟨r2, h2, h⟩ := loadDouble_text v2 h
    obtain ⟨r3, h3, h⟩ := ih (fun v h => hs v (by simp [h])) (fun v h => hv v (by simp [h])) h
    obtain ⟨x, hx⟩ := Option.isSome_iff_exists.mp v3
    rw [hx] at h2
    refine ⟨r3, ?_, h⟩
    simp [loadScored, h1, h2, h3, hx]

theorem loadScored_right {vs : List (StrEnc × Bytes)}
    (hv : ∀ v ∈ vs, v.1.Valid ∧ v.2.length < 253 ∧ (parseFloat v.2).isSome) {ps : List Piece} {rest : Bytes} {r r' : Rd}
    (h : Holds ((vs.flatMap fun p => p.1.pieces ++ [.one (UInt8.ofNat p.2.length), .full p.2]) ++ ps) rest r)
    (hl : loadScored false vs.length r =
      (.ok (vs.flatMap fun p => [formatFloat ((parseFloat p.2).getD F64.nan), p.1.value]), r')) :
    ∀ p ∈ vs, p.1.Read ∧ p.1.value = formatFloat ((parseFloat p.2).getD F64.nan) := by
  induction vs generalizing r with
  | nil => simp
  | cons v vs ih =>
    simp only [List.flatMap_cons, List.append_assoc, List.cons_append, List.nil_append] at h
    obtain ⟨v1, v2, v3⟩ := hv v (by simp)
    obtain ⟨x, hx⟩ := Option.isSome_iff_exists.mp v3
    obtain ⟨s, r1, h1, k1⟩ := andThen_eq_ok hl
    obtain ⟨y, r2, h2, k2⟩ := andThen_eq_ok k1
    obtain ⟨ss, r3, h3, k3⟩ := andThen_eq_ok k2
    simp only [Bool.false_eq_true, if_false] at h2
    simp only [List.flatMap_cons, List.cons_append, List.nil_append, Prod.mk.injEq, GoRes.ok.injEq, List.cons.injEq, hx,
      Option.getD_some] at k3
    obtain ⟨⟨rfl, e2, rfl⟩, rfl⟩ := k3
    have hread : v.1.Read := by
      refine Classical.byContradiction fun hn => ?_
      rcases loadString_wrong hn v1 h with g | g | ⟨n, w, q, hw, g1, g2, g3⟩
      · rw [h1] at g
        exact formatFloat_ne_nil _ (GoRes.ok.inj g)
      · rw [h1] at g; cases g
      · rw [h1] at g2
        simp only [Prod.mk.injEq, GoRes.ok.injEq] at g2
        obtain ⟨g2, rfl⟩ := g2
        obtain ⟨q2, d1, d2⟩ := loadDouble_text v2 g3
        rw [h2, hx] at d1
        simp only [Prod.mk.injEq, GoRes.ok.injEq] at d1
        obtain ⟨rfl, rfl⟩ := d1
        rw [e2, g1] at g2
        exact natText_ne_negative hw g2.symm
    obtain ⟨q, g1, g2⟩ := loadString_read hread v1 h
    rw [h1] at g1
    simp only [Prod.mk.injEq, GoRes.ok.injEq] at g1
    obtain ⟨g1, rfl⟩ := g1
    obtain ⟨q2, d1, d2⟩ := loadDouble_text v2 g2
    rw [h2] at d1
    simp only [Prod.mk.injEq] at d1
    obtain ⟨_, rfl⟩ := d1
    intro w hw
    rcases List.mem_cons.mp hw with rfl | hw
    · exact ⟨hread, by rw [hx]; exact g1.symm⟩
    · exact ih (fun v h => hv v (by simp [h])) d2 h3 w hw

theorem loadScored2_read {vs : List (StrEnc × F64)} (hs : ∀ v ∈ vs, v.1.Read) (hv : ∀ v ∈ vs, v.1.Valid) {ps : List Piece}
    {rest : Bytes} {r : Rd} (h : Holds ((vs.flatMap fun p => p.1.pieces ++ DblEnc.pieces (.binary p.2)) ++ ps) rest r) :
    ∃ r', loadScored true vs.length r = (.ok (vs.flatMap fun p => [p.1.value, b!"0"]), r') ∧ Holds ps rest r' := by
  induction vs generalizing r with
  | nil => exact ⟨r, rfl, h⟩
  | cons v vs ih =>
    simp only [List.flatMap_cons, List.append_assoc, DblEnc.pieces, List.cons_append, List.nil_append] at h
    obtain ⟨r1, h1, h⟩ := loadString_read (hs v (by simp)) (hv v (by simp)) h
    obtain ⟨r2, h2, h⟩ := Holds.readFull h
    rw [leInt_length] at h2
    obtain ⟨r3, h3, h⟩ := ih (fun v h => hs v (by simp [h])) (fun v h => hv v (by simp [h])) h
    refine ⟨r3, ?_, h⟩
    simp [loadScored, h1, loadBinaryDouble, h2, h3, formatFloat_zero]

theorem loadScored2_right {vs : List (StrEnc × F64)} (hv : ∀ v ∈ vs, v.1.Valid) {ps : List Piece}
    {rest : Bytes} {r r' : Rd} (h : Holds ((vs.flatMap fun p => p.1.pieces ++ DblEnc.pieces (.binary p.2)) ++ ps) rest r)
    (hl : loadScored true vs.length r = (.ok (vs.flatMap fun p => [formatFloat p.2, p.1.value]), r')) :
    ∀ p ∈ vs, p.1.Read ∧ p.1.value = b!"0" ∧ p.2 = F64.zero := by
  induction vs generalizing r with
  | nil => simp
  | cons v vs ih =>
    simp only [List.flatMap_cons, List.append_assoc, DblEnc.pieces, List.cons_append, List.nil_append] at h
    have v1 := hv v (by simp)
    obtain ⟨s, r1, h1, k1⟩ := andThen_eq_ok hl
    obtain ⟨y, r2, h2, k2⟩ := andThen_eq_ok k1
    obtain ⟨ss, r3, h3, k3⟩ := andThen_eq_ok k2
    simp only [if_true] at h2
    have hy : y = F64.zero := by
      obtain ⟨a, r4, h4, k4⟩ := andThen_eq_ok h2
      simp only [Prod.mk.injEq, GoRes.ok.injEq] at k4
      exact k4.1.symm
    subst hy
    simp only [List.flatMap_cons, List.cons_append, List.nil_append, Prod.mk.injEq, GoRes.ok.injEq, List.cons.injEq,
      formatFloat_zero] at k3
    obtain ⟨⟨rfl, e2, rfl⟩, rfl⟩ := k3
    have hread : v.1.Read := by
      refine Classical.byContradiction fun hn => ?_
      rcases loadString_wrong hn v1 h with g | g | ⟨n, w, q, hw, g1, g2, g3⟩
      · rw [h1] at g
        exact formatFloat_ne_nil _ (GoRes.ok.inj g)
      · rw [h1] at g; cases g
      · rw [g1] at e2
        exact natText_ne_negative (n := 0) hw e2
    obtain ⟨q, g1, g2⟩ := loadString_read hread v1 h
    rw [h1] at g1
    simp only [Prod.mk.injEq, GoRes.ok.injEq] at g1
    obtain ⟨g1, rfl⟩ := g1
    obtain ⟨q2, d1, d2⟩ := Holds.readFull g2
    rw [leInt_length] at d1
    simp only [loadBinaryDouble, d1, andThen_ok, Prod.mk.injEq, true_and] at h2
    subst h2
    intro w hw
    rcases List.mem_cons.mp hw with rfl | hw
    · exact ⟨hread, e2.symm, formatFloat_eq_zero (by rw [g1, ← e2])⟩
    · exact ih (fun v h => hv v (by simp [h])) d2 h3 w hw

/-! ## Packed lists -/

/-- The list read from a packed list begins with its elements only if they are all read right. -/
theorem zlLoop_prefix {es : List (Bytes × ZVal)} (he : ∀ e ∈ es, PrevField e.1 ∧ e.2.Valid) {pre post : Bytes} {fuel : Nat}
    {xs X Y : List Bytes} (h : zlLoop (pre ++ (encZEnts es ++ 255 :: post)) fuel pre.length = some xs)
    (hx : xs ++ X = es.map (·.2.value) ++ Y) : ∀ e ∈ es, Aligned e.2 ∧ seen e.2 = e.2.value := by
  induction es generalizing pre fuel xs with
  | nil => simp
  | cons e es ih =>
    obtain ⟨p, v⟩ := e
    cases fuel with
    | zero => simp [zlLoop] at h
    | succ fuel =>
      obtain ⟨hp, hv⟩ := he (p, v) (by simp)
      simp only at hp hv
      have hrest := fun e h => he e (List.mem_cons_of_mem _ h)
      have e1 : pre ++ (encZEnts ((p, v) :: es) ++ 255 :: post) = pre ++ p ++ (v.enc ++ (encZEnts es ++ 255 :: post)) := by
        simp [encZEnts]
      have e2 : pre ++ (encZEnts ((p, v) :: es) ++ 255 :: post) = (pre ++ p) ++ v.enc ++ (encZEnts es ++ 255 :: post) := by
        simp [encZEnts]
      have e3 : pre ++ (encZEnts ((p, v) :: es) ++ 255 :: post) = (pre ++ p ++ v.enc) ++ (encZEnts es ++ 255 :: post) := by
        simp [encZEnts]
      obtain ⟨h1, h2, h3⟩ := prev_size (pre := pre) (post := v.enc ++ (encZEnts es ++ 255 :: post)) hp rfl
      rw [← e1] at h1 h2 h3
      obtain ⟨b, hb⟩ := Option.isSome_iff_exists.mp h3
      have hb' : b ≠ 255 := by intro e; rw [hb, e] at h2; exact h2 rfl
      simp only [zlLoop, hb, Option.bind_eq_bind, Option.bind_some, if_neg hb', h1] at h
      cases hz : zlEntry (pre ++ (encZEnts ((p, v) :: es) ++ 255 :: post)) (pre.length + p.length) with
      | none => rw [hz] at h; simp at h
      | some y =>
        obtain ⟨size, length, str⟩ := y
        rw [hz] at h
        simp only [Option.bind_some] at h
        cases hr : zlLoop (pre ++ (encZEnts ((p, v) :: es) ++ 255 :: post)) fuel (pre.length + p.length + (length + size)) with
        | none => rw [hr] at h; simp at h
        | some rest =>
          rw [hr] at h
          simp only [Option.bind_some, Option.pure_def, Option.some.injEq] at h
          subst h
          simp only [List.map_cons, List.cons_append, List.cons.injEq] at hx
          obtain ⟨hstr, hre⟩ := hx
          have hlen : v.value.length ≤ 255 := hstr ▸ entry_short hz
          have hal : Aligned v := by
            cases v with
            | str14 s => exact Nat.lt_succ_of_le hlen
            | str32 s => exact Nat.lt_succ_of_le hlen
            | int64 v =>
              rw [e2, ← List.length_append] at hz
              have := entry_int64 hz
              exact absurd (hstr.symm.trans this) (text_ne_raw v 5 8 (by omega) (by omega) (by omega))
            | _ => trivial
          obtain ⟨size', length', h4, h5⟩ := entry_at (pre := pre ++ p) (post := encZEnts es ++ 255 :: post) hv hal
          rw [← e2, List.length_append, hz] at h4
          simp only [Option.some.injEq, Prod.mk.injEq] at h4
          obtain ⟨rfl, rfl, h6⟩ := h4
          rw [h5, e3, ← List.length_append, ← List.length_append] at hr
          intro e hm
          rcases List.mem_cons.mp hm with rfl | hm
          · exact ⟨hal, h6.symm.trans hstr⟩
          · exact ih hrest hr hre e hm

theorem ziplist_prefix {hdr : Bytes} {es : List (Bytes × ZVal)} (hv : ZlValid hdr es) {xs X Y : List Bytes}
    (h : ziplistLoad (encZiplist hdr es) = some xs) (hx : xs ++ X = es.map (·.2.value) ++ Y) : ∀ e ∈ es, Kept e.2 := by
  intro e he
  obtain ⟨h1, h2⟩ := hv
  refine kept_iff.mp (zlLoop_prefix h2 (pre := hdr) (post := []) (fuel := (encZiplist hdr es).length + 1) (xs := xs) ?_ hx e he)
  rw [h1, ← h]
  unfold ziplistLoad
  simp [encZiplist]

theorem itoaInt_ne_packed {v : Int} {l : Bytes} : itoaInt v ≠ l ++ [255] := by
  intro h
  obtain ⟨l', b, hl, hb1, hb2⟩ := itoaInt_last v
  rw [hl] at h
  have := (List.append_inj_right' h rfl)
  simp only [List.cons.injEq, and_true] at this
  subst this
  exact absurd hb2 (by decide)

/-- A string that holds packed data is read right if anything but the empty string is read. -/
theorem read_of_packed {e : StrEnc} (hv : e.Valid) {ps : List Piece} {rest : Bytes} {r r' : Rd} {s : Bytes}
    (h : Holds (e.pieces ++ ps) rest r) (hl : loadString r = (.ok s, r')) (hne : s ≠ []) (hi : ∀ v, e.value ≠ itoaInt v) :
    e.Read ∧ s = e.value ∧ Holds ps rest r' := by
  have hread : e.Read := by
    refine Classical.byContradiction fun hn => ?_
    rcases loadString_wrong hn hv h with g | g | ⟨n, w, q, hw, g1, g2, g3⟩
    · rw [hl] at g; exact hne (GoRes.ok.inj g)
    · rw [hl] at g; cases g
    · exact hi w g1
  obtain ⟨q, g1, g2⟩ := loadString_read hread hv h
  rw [hl] at g1
  simp only [Prod.mk.injEq, GoRes.ok.injEq] at g1
  obtain ⟨rfl, rfl⟩ := g1
  exact ⟨hread, rfl, g2⟩

theorem ziplistLoad_nil : ziplistLoad [] = none := rfl
theorem zipmapLoad_nil : zipmapLoad [] = none := rfl
theorem intsetLoad_nil : intsetLoad [] = none := rfl

theorem loadNodes_read {ns : List (StrEnc × Bytes × List (Bytes × ZVal))} (hs : ∀ n ∈ ns, n.1.Read ∧ ∀ e ∈ n.2.2, Kept e.2)
    (hv : ∀ n ∈ ns, n.1.Valid ∧ n.1.value = encZiplist n.2.1 n.2.2 ∧ ZlValid n.2.1 n.2.2) {ps : List Piece} {rest : Bytes} {r : Rd}
    (h : Holds (ns.flatMap (·.1.pieces) ++ ps) rest r) :
    ∃ r', loadNodes ns.length r = (.ok (ns.flatMap fun n => n.2.2.map (·.2.value)), r') ∧ Holds ps rest r' := by
  induction ns generalizing r with
  | nil => exact ⟨r, rfl, h⟩
  | cons n ns ih =>
    simp only [List.flatMap_cons, List.append_assoc] at h
    obtain ⟨v1, v2, v3⟩ := hv n (by simp)
    have s1 := hs n (by simp)
    obtain ⟨r1, h1, h⟩ := loadString_read s1.1 v1 h
    obtain ⟨r2, h2, h⟩ := ih (fun v h => hs v (by simp [h])) (fun v h => hv v (by simp [h])) h
    refine ⟨r2, ?_, h⟩
    have hz := (C71_exact _ _ v3).mpr s1.2
    simp [loadNodes, h1, v2, hz, h2]

theorem loadNodes_right {ns : List (StrEnc × Bytes × List (Bytes × ZVal))}
    (hv : ∀ n ∈ ns, n.1.Valid ∧ n.1.value = encZiplist n.2.1 n.2.2 ∧ ZlValid n.2.1 n.2.2) {ps : List Piece} {rest : Bytes} {r r' : Rd}
    (h : Holds (ns.flatMap (·.1.pieces) ++ ps) rest r)
    (hl : loadNodes ns.length r = (.ok (ns.flatMap fun n => n.2.2.map (·.2.value)), r')) :
    ∀ n ∈ ns, n.1.Read ∧ ∀ e ∈ n.2.2, Kept e.2 := by
  induction ns generalizing r with
  | nil => simp
  | cons n ns ih =>
    simp only [List.flatMap_cons, List.append_assoc] at h
    obtain ⟨v1, v2, v3⟩ := hv n (by simp)
    obtain ⟨s, r1, h1, k1⟩ := andThen_eq_ok hl
    cases hz : ziplistLoad s with
    | none => simp [hz] at k1
    | some xs =>
      simp only [hz] at k1
      obtain ⟨ss, r2, h2, k2⟩ := andThen_eq_ok k1
      simp only [Prod.mk.injEq, GoRes.ok.injEq, List.flatMap_cons] at k2
      obtain ⟨k2, rfl⟩ := k2
      obtain ⟨g1, rfl, g2⟩ := read_of_packed v1 h h1 (by rintro rfl; rw [ziplistLoad_nil] at hz; cases hz)
        (by intro v hc; exact itoaInt_ne_packed (hc.symm.trans v2))
      rw [v2] at hz
      have hk := ziplist_prefix v3 hz k2
      have hz' := (C71_exact _ _ v3).mpr hk
      rw [hz] at hz'
      rw [Option.some.inj hz'] at k2
      rw [List.append_cancel_left k2] at h2
      intro m hm
      rcases List.mem_cons.mp hm with rfl | hm
      · exact ⟨g1, hk⟩
      · exact ih (fun v h => hv v (by simp [h])) g2 h2 m hm

/-! ## Packed maps and integer sets -/

theorem lookup_of_nodup {m : List (Bytes × Bytes)} (hn : (m.map (·.1)).Nodup) (k v : Bytes) :
    m.lookup k = some v ↔ (k, v) ∈ m := by
  induction m with
  | nil => simp
  | cons p m ih =>
    obtain ⟨a, b⟩ := p
    simp only [List.map_cons, List.nodup_cons] at hn
    by_cases hk : k = a
    · subst hk
      simp only [List.lookup_cons, beq_self_eq_true, List.mem_cons, Prod.mk.injEq, true_and, Option.some.injEq]
      constructor
      · intro h; exact .inl h.symm
      · rintro (h | h)
        · exact h.symm
        · exact absurd (List.mem_map_of_mem (f := (·.1)) h) hn.1
    · have : (k == a) = false := by simpa using hk
      simp only [List.lookup_cons, this, ih hn.2, List.mem_cons, Prod.mk.injEq, hk, false_and, false_or]

theorem lookup_perm {m m' : List (Bytes × Bytes)} (hp : m.Perm m') (hn : (m'.map (·.1)).Nodup) (k : Bytes) :
    m.lookup k = m'.lookup k := by
  have hn' : (m.map (·.1)).Nodup := (hp.map _).nodup_iff.mpr hn
  apply Option.ext
  intro v
  rw [lookup_of_nodup hn', lookup_of_nodup hn, hp.mem_iff]

theorem flat_inj {α : Type} {a b : List (α × α)} (h : a.flatMap (fun p => [p.1, p.2]) = b.flatMap fun p => [p.1, p.2]) : a = b := by
  induction a generalizing b with
  | nil =>
    cases b with
    | nil => rfl
    | cons p b => simp at h
  | cons p a ih =>
    cases b with
    | nil => simp at h
    | cons q b =>
      simp only [List.flatMap_cons, List.cons_append, List.nil_append, List.cons.injEq] at h
      obtain ⟨h1, h2, h3⟩ := h
      rw [ih h3, Prod.ext h1 h2]

theorem itoaInt_ge (v : Int) : ∀ b ∈ itoaInt v, 45 ≤ b.toNat := by
  have hd : ∀ n : Nat, ∀ b ∈ natText n, 45 ≤ b.toNat := by
    intro n b hb
    have := List.all_eq_true.mp (natText_all_digits n) b hb
    simp only [isDigit, Bool.and_eq_true, decide_eq_true_eq] at this
    have h0 : (48 : UInt8).toNat = 48 := rfl
    have : 48 ≤ b.toNat := by simpa using this.1
    omega
  intro b hb
  unfold itoaInt at hb
  split at hb
  · rcases List.mem_cons.mp hb with rfl | hb
    · decide
    · exact hd _ b hb
  · exact hd _ b hb

theorem itoaInt_ne_intset {v : Int} {w : Nat} {xs : List Int} (hw : w = 2 ∨ w = 4 ∨ w = 8) : itoaInt v ≠ encIntset w xs := by
  intro h
  have h0 : (0 : UInt8) ∈ encIntset w xs := by
    unfold encIntset
    rcases hw with rfl | rfl | rfl <;> simp (decide := true) [leInt, List.range_succ]
  have := itoaInt_ge v 0 (h ▸ h0)
  exact absurd this (by decide)

/-! ## Values -/

theorem loadObj_read {ord : MapOrd} (hord : ∀ n l, (ord n l).Perm l) (n : Nat) {key : Bytes} {v : Val} (hs : v.Recreated) (hv : v.Valid)
    {ps : List Piece} {rest : Bytes} {r : Rd} (h : Holds (v.pieces ++ ps) rest r) :
    ∃ r', loadObj ord n v.tag key r = (.ok (.cmd (recreate key v.data)), r') ∧ Holds ps rest r' := by
  cases v with
  | str v =>
    obtain ⟨r1, h1, h⟩ := loadString_read hs hv h
    exact ⟨r1, by simp [loadObj, Val.tag, h1, recreate, Val.data], h⟩
  | set l vs =>
    obtain ⟨v1, v2, v3⟩ := hv
    simp only [Val.pieces, List.append_assoc] at h
    obtain ⟨r1, h1, h⟩ := loadLen_at hs.1 v2 h
    obtain ⟨r2, h2, h⟩ := loadStrings_read hs.2 v3 h
    exact ⟨r2, by simp [loadObj, Val.tag, h1, h2, recreate, Val.data], h⟩
  | zset l vs =>
    obtain ⟨v1, v2, v3⟩ := hv
    simp only [Val.pieces, List.append_assoc] at h
    obtain ⟨r1, h1, h⟩ := loadLen_at hs.1 v2 h
    obtain ⟨r2, h2, h⟩ := loadScored_read (fun p hp => (hs.2 p hp).1) v3 h
    refine ⟨r2, ?_, h⟩
    have : (vs.flatMap fun p => [p.1.value, formatFloat ((parseFloat p.2).getD F64.nan)]) =
        vs.flatMap fun p => [formatFloat ((parseFloat p.2).getD F64.nan), p.1.value] := by
      rw [List.flatMap_def, List.flatMap_def]
      congr 1
      exact List.map_congr_left fun p hp => by rw [(hs.2 p hp).2]
    simp [loadObj, Val.tag, h1, h2, recreate, Val.data, this, List.flatMap_map]
  | zset2 l vs =>
    obtain ⟨v1, v2, v3⟩ := hv
    simp only [Val.pieces, List.append_assoc] at h
    obtain ⟨r1, h1, h⟩ := loadLen_at hs.1 v2 h
    obtain ⟨r2, h2, h⟩ := loadScored2_read (fun p hp => (hs.2 p hp).1) v3 h
    refine ⟨r2, ?_, h⟩
    have : (vs.flatMap fun p => [p.1.value, b!"0"]) = vs.flatMap fun p => [formatFloat p.2, p.1.value] := by
      rw [List.flatMap_def, List.flatMap_def]
      congr 1
      exact List.map_congr_left fun p hp => by rw [(hs.2 p hp).2.1, (hs.2 p hp).2.2, formatFloat_zero]
    simp [loadObj, Val.tag, h1, h2, recreate, Val.data, this, List.flatMap_map]
  | quicklist l ns =>
    obtain ⟨v1, v2, v3⟩ := hv
    simp only [Val.pieces, List.append_assoc] at h
    obtain ⟨r1, h1, h⟩ := loadLen_at hs.1 v1 h
    obtain ⟨r2, h2, h⟩ := loadNodes_read hs.2 v3 h
    exact ⟨r2, by simp [loadObj, Val.tag, h1, h2, recreate, Val.data], h⟩
  | zipmap e cnt m =>
    obtain ⟨v1, v2, v3, v4⟩ := hv
    obtain ⟨r1, h1, h⟩ := loadString_read hs.1 v2 h
    refine ⟨r1, ?_, h⟩
    have hz := C72_one_partial cnt m v4 hs.2
    have ho : ord n (m.map fun e => (e.1, e.2.1)) = m.map fun e => (e.1, e.2.1) := by
      have hp := hord n (m.map fun e => (e.1, e.2.1))
      have hl : m.length ≤ 1 := hs.2
      match m, hl, hp with
      | [], _, hp => exact List.perm_nil.mp hp
      | [x], _, hp => exact List.perm_singleton.mp hp
    simp [loadObj, Val.tag, h1, v3, hz, orPanic, ho, recreate, Val.data]
  | ziplist e hdr z =>
    obtain ⟨v1, v2, v3, v4⟩ := hv
    obtain ⟨r1, h1, h⟩ := loadString_read hs.1 v2 h
    have hz := (C71_exact hdr z v4).mpr hs.2
    exact ⟨r1, by simp [loadObj, Val.tag, h1, v3, hz, orPanic, recreate, Val.data], h⟩
  | intset e w xs =>
    obtain ⟨v1, v2, v3, v4, v5, v6⟩ := hv
    obtain ⟨r1, h1, h⟩ := loadString_read hs.1 v2 h
    obtain ⟨ys, hy, hy2⟩ := intset_texts v4 v5 v6 hs.2
    exact ⟨r1, by simp [loadObj, Val.tag, h1, v3, hy, orPanic, recreate, Val.data, hy2], h⟩
  | hashZiplist e hdr z =>
    obtain ⟨v1, v2, v3, v4, v5⟩ := hv
    obtain ⟨r1, h1, h⟩ := loadString_read hs.1 v3 h
    have hz := (C71_exact hdr z v5).mpr hs.2
    have hp := pairs_flat (z.map (·.2.value)) (by simpa using v2)
    exact ⟨r1, by simp [loadObj, Val.tag, h1, v4, hz, orPanic, recreate, Val.data, hp], h⟩
  | zsetZiplist e hdr z =>
    obtain ⟨v1, v2, v3, v4, v5⟩ := hv
    obtain ⟨r1, h1, h⟩ := loadString_read hs.1 v3 h
    obtain ⟨xs, hx, hx2⟩ := hs.2
    exact ⟨r1, by simp [loadObj, Val.tag, h1, v4, hx, orPanic, recreate, Val.data, evenPart_eq, hx2, List.flatMap_map], h⟩
  | list l vs => exact hs.elim
  | hash l vs => exact hs.elim

/-- The count of a container that is not empty, if anything was read. -/
theorem len_of_some {l : LenEnc} {n : Nat} (hn : n < l.limit) {ps : List Piece} {rest : Bytes} {r r' : Rd} {k : Nat × Bool}
    (h : Holds (l.pieces n ++ ps) rest r) (hl : loadLen r = (.ok k, r')) : (k.1 = n ∧ l.Supported ∧ Holds ps rest r') ∨ k.1 = 0 := by
  by_cases hs : l.Supported
  · left
    obtain ⟨r1, h1, h2⟩ := loadLen_at hs hn h
    rw [hl] at h1
    simp only [Prod.mk.injEq, GoRes.ok.injEq] at h1
    obtain ⟨rfl, rfl⟩ := h1
    exact ⟨rfl, hs, h2⟩
  · right
    obtain ⟨r1, h1, h2⟩ := loadLen_wide hs h
    rw [hl] at h1
    simp only [Prod.mk.injEq, GoRes.ok.injEq] at h1
    rw [h1.1]

theorem orPanic_ok {α : Type} {x : Option α} {r r' : Rd} {a : α} (h : orPanic x r = (.ok a, r')) : x = some a ∧ r = r' := by
  cases x with
  | none => simp [orPanic] at h
  | some b =>
    simp only [orPanic, Prod.mk.injEq, GoRes.ok.injEq] at h
    exact ⟨by rw [h.1], h.2⟩

theorem loadObj_right {ord : MapOrd} (hord : ∀ n l, (ord n l).Perm l) (n : Nat) {key : Bytes} {v : Val} (hv : v.Valid) (ht : v.Tight)
    {ps : List Piece} {rest : Bytes} {r r' : Rd} (h : Holds (v.pieces ++ ps) rest r)
    (hl : loadObj ord n v.tag key r = (.ok (.cmd (recreate key v.data)), r')) : v.Recreated := by
  cases v with
  | str v =>
    simp only [loadObj, Val.tag] at hl
    obtain ⟨s, r1, h1, k1⟩ := andThen_eq_ok hl
    simp only [Prod.mk.injEq, GoRes.ok.injEq, Obj.cmd.injEq, Val.data, recreate, List.cons.injEq, true_and, and_true] at k1
    obtain ⟨rfl, rfl⟩ := k1
    exact (loadString_right hv h h1).1
  | list l vs =>
    simp (decide := true) only [loadObj, Val.tag, if_false, if_true] at hl
    obtain ⟨s, r1, h1, k1⟩ := andThen_eq_ok hl
    obtain ⟨s, r2, h2, k2⟩ := andThen_eq_ok k1
    simp [Val.data, recreate] at k2
  | hash l vs =>
    simp (decide := true) only [loadObj, Val.tag, if_false, if_true] at hl
    obtain ⟨s, r1, h1, k1⟩ := andThen_eq_ok hl
    obtain ⟨s, r2, h2, k2⟩ := andThen_eq_ok k1
    simp [Val.data, recreate] at k2
  | set l vs =>
    obtain ⟨v1, v2, v3⟩ := hv
    simp only [Val.pieces, List.append_assoc] at h
    simp (decide := true) only [loadObj, Val.tag, if_false, if_true] at hl
    obtain ⟨k, r1, h1, k1⟩ := andThen_eq_ok hl
    obtain ⟨ss, r2, h2, k2⟩ := andThen_eq_ok k1
    simp only [Prod.mk.injEq, GoRes.ok.injEq, Obj.cmd.injEq, Val.data, recreate, List.cons.injEq, true_and] at k2
    obtain ⟨rfl, rfl⟩ := k2
    rcases len_of_some v2 h h1 with ⟨g1, g2, g3⟩ | g
    · rw [g1] at h2
      exact ⟨g2, loadStrings_right v3 g3 h2⟩
    · rw [g] at h2
      simp only [loadStrings, Prod.mk.injEq, GoRes.ok.injEq] at h2
      exact absurd (by simpa using h2.1.symm) v1
  | zset l vs =>
    obtain ⟨v1, v2, v3⟩ := hv
    simp only [Val.pieces, List.append_assoc] at h
    simp (decide := true) only [loadObj, Val.tag, if_false, if_true] at hl
    obtain ⟨k, r1, h1, k1⟩ := andThen_eq_ok hl
    obtain ⟨ss, r2, h2, k2⟩ := andThen_eq_ok k1
    simp only [Prod.mk.injEq, GoRes.ok.injEq, Obj.cmd.injEq, Val.data, recreate, List.cons.injEq, true_and, List.flatMap_map] at k2
    obtain ⟨rfl, rfl⟩ := k2
    rcases len_of_some v2 h h1 with ⟨g1, g2, g3⟩ | g
    · rw [g1] at h2
      exact ⟨g2, loadScored_right v3 g3 (by simpa using h2)⟩
    · rw [g] at h2
      simp only [loadScored, Prod.mk.injEq, GoRes.ok.injEq] at h2
      cases vs with
      | nil => exact absurd rfl v1
      | cons => simp at h2
  | zset2 l vs =>
    obtain ⟨v1, v2, v3⟩ := hv
    simp only [Val.pieces, List.append_assoc] at h
    simp (decide := true) only [loadObj, Val.tag, if_false, if_true] at hl
    obtain ⟨k, r1, h1, k1⟩ := andThen_eq_ok hl
    obtain ⟨ss, r2, h2, k2⟩ := andThen_eq_ok k1
    simp only [Prod.mk.injEq, GoRes.ok.injEq, Obj.cmd.injEq, Val.data, recreate, List.cons.injEq, true_and, List.flatMap_map] at k2
    obtain ⟨rfl, rfl⟩ := k2
    rcases len_of_some v2 h h1 with ⟨g1, g2, g3⟩ | g
    · rw [g1] at h2
      exact ⟨g2, loadScored2_right v3 g3 (by simpa using h2)⟩
    · rw [g] at h2
      simp only [loadScored, Prod.mk.injEq, GoRes.ok.injEq] at h2
      cases vs with
      | nil => exact absurd rfl v1
      | cons => simp at h2
  | quicklist l ns =>
    obtain ⟨v1, v2, v3⟩ := hv
    simp only [Val.pieces, List.append_assoc] at h
    simp (decide := true) only [loadObj, Val.tag, if_false, if_true] at hl
    obtain ⟨k, r1, h1, k1⟩ := andThen_eq_ok hl
    obtain ⟨ss, r2, h2, k2⟩ := andThen_eq_ok k1
    simp only [Prod.mk.injEq, GoRes.ok.injEq, Obj.cmd.injEq, Val.data, recreate, List.cons.injEq, true_and] at k2
    obtain ⟨rfl, rfl⟩ := k2
    rcases len_of_some v1 h h1 with ⟨g1, g2, g3⟩ | g
    · rw [g1] at h2
      exact ⟨g2, loadNodes_right v3 g3 h2⟩
    · rw [g] at h2
      simp only [loadNodes, Prod.mk.injEq, GoRes.ok.injEq] at h2
      exfalso
      apply v2
      have := h2.1.symm
      rw [List.flatMap_eq_nil_iff] at this ⊢
      intro n hn
      simpa using this n hn
  | zipmap e cnt m =>
    obtain ⟨v1, v2, v3, v4⟩ := hv
    simp (decide := true) only [loadObj, Val.tag, if_false, if_true] at hl
    obtain ⟨s, r1, h1, k1⟩ := andThen_eq_ok hl
    obtain ⟨m', r2, h2, k2⟩ := andThen_eq_ok k1
    obtain ⟨hz, rfl⟩ := orPanic_ok h2
    simp only [Prod.mk.injEq, GoRes.ok.injEq, Obj.cmd.injEq, Val.data, recreate, List.cons.injEq, true_and] at k2
    obtain ⟨k2, rfl⟩ := k2
    obtain ⟨g1, rfl, g2⟩ := read_of_packed v2 h h1 (by rintro rfl; rw [zipmapLoad_nil] at hz; cases hz)
      (by intro v hc; exact itoaInt_ne_packed (l := cnt :: m.flatMap encZmEnt) (hc.symm.trans v3))
    rw [v3] at hz
    refine ⟨g1, (C72_exact cnt m v4 ht).mp ⟨m', hz, ?_⟩⟩
    have ho : ord n m' = asMap m := flat_inj k2
    have hp : m'.Perm (asMap m) := ho ▸ (hord n m').symm
    have hn : ((asMap m).map (·.1)).Nodup := by
      have := v4.2
      simpa [asMap, Function.comp_def] using this
    exact lookup_perm hp hn
  | ziplist e hdr z =>
    obtain ⟨v1, v2, v3, v4⟩ := hv
    simp (decide := true) only [loadObj, Val.tag, if_false, if_true] at hl
    obtain ⟨s, r1, h1, k1⟩ := andThen_eq_ok hl
    obtain ⟨xs, r2, h2, k2⟩ := andThen_eq_ok k1
    obtain ⟨hz, rfl⟩ := orPanic_ok h2
    simp only [Prod.mk.injEq, GoRes.ok.injEq, Obj.cmd.injEq, Val.data, recreate, List.cons.injEq, true_and] at k2
    obtain ⟨rfl, rfl⟩ := k2
    obtain ⟨g1, rfl, g2⟩ := read_of_packed v2 h h1 (by rintro rfl; rw [ziplistLoad_nil] at hz; cases hz)
      (by intro v hc; exact itoaInt_ne_packed (hc.symm.trans v3))
    rw [v3] at hz
    exact ⟨g1, (C71_exact hdr z v4).mp hz⟩
  | intset e w xs =>
    obtain ⟨v1, v2, v3, v4, v5, v6⟩ := hv
    simp (decide := true) only [loadObj, Val.tag, if_false, if_true] at hl
    obtain ⟨s, r1, h1, k1⟩ := andThen_eq_ok hl
    obtain ⟨ys, r2, h2, k2⟩ := andThen_eq_ok k1
    obtain ⟨hz, rfl⟩ := orPanic_ok h2
    simp only [Prod.mk.injEq, GoRes.ok.injEq, Obj.cmd.injEq, Val.data, recreate, List.cons.injEq, true_and] at k2
    obtain ⟨k2, rfl⟩ := k2
    obtain ⟨g1, rfl, g2⟩ := read_of_packed v2 h h1 (by rintro rfl; rw [intsetLoad_nil] at hz; cases hz)
      (by intro v hc; exact itoaInt_ne_intset v4 (hc.symm.trans v3))
    rw [v3] at hz
    refine ⟨g1, (C70_exact w v4 xs v5 v6).mp ?_⟩
    rw [hz, Option.map_some]
    congr 1
    have k3 : (ys.map Int64.toInt).map itoaInt = xs.map itoaInt := by rw [List.map_map]; exact k2
    exact List.map_inj_right (fun a b => itoaInt_injective) |>.mp k3
  | hashZiplist e hdr z =>
    obtain ⟨v1, v2, v3, v4, v5⟩ := hv
    simp (decide := true) only [loadObj, Val.tag, if_false, if_true] at hl
    obtain ⟨s, r1, h1, k1⟩ := andThen_eq_ok hl
    obtain ⟨xs, r2, h2, k2⟩ := andThen_eq_ok k1
    obtain ⟨hz, rfl⟩ := orPanic_ok h2
    simp only [Prod.mk.injEq, GoRes.ok.injEq, Obj.cmd.injEq, Val.data, recreate, List.cons.injEq, true_and] at k2
    obtain ⟨k2, rfl⟩ := k2
    rw [pairs_flat _ (by simpa using v2)] at k2
    subst k2
    obtain ⟨g1, rfl, g2⟩ := read_of_packed v3 h h1 (by rintro rfl; rw [ziplistLoad_nil] at hz; cases hz)
      (by intro v hc; exact itoaInt_ne_packed (hc.symm.trans v4))
    rw [v4] at hz
    exact ⟨g1, (C71_exact hdr z v5).mp hz⟩
  | zsetZiplist e hdr z =>
    obtain ⟨v1, v2, v3, v4, v5⟩ := hv
    simp (decide := true) only [loadObj, Val.tag, if_false, if_true] at hl
    obtain ⟨s, r1, h1, k1⟩ := andThen_eq_ok hl
    obtain ⟨xs, r2, h2, k2⟩ := andThen_eq_ok k1
    obtain ⟨hz, rfl⟩ := orPanic_ok h2
    simp only [Prod.mk.injEq, GoRes.ok.injEq, Obj.cmd.injEq, Val.data, recreate, List.cons.injEq, true_and, List.flatMap_map] at k2
    obtain ⟨k2, rfl⟩ := k2
    obtain ⟨g1, rfl, g2⟩ := read_of_packed v3 h h1 (by rintro rfl; rw [ziplistLoad_nil] at hz; cases hz)
      (by intro v hc; exact itoaInt_ne_packed (hc.symm.trans v4))
    rw [v4] at hz
    exact ⟨g1, xs, hz, by rw [← evenPart_eq]; exact k2⟩

/-! ## Records -/

/-- The entries that the code recreates. -/
def Recreated (k : StrEnc) (v : Val) : Prop := k.Read ∧ k.value ≠ [] ∧ v.Recreated

theorem loadRec_entry {ord : MapOrd} {n : Nat} {k : StrEnc} {v : Val} {ps : List Piece} {rest : Bytes} {r : Rd}
    (h : Holds (Item.pieces (.entry k v) ++ ps) rest r) :
    ∃ r1, loadRec ord n r = (andThen (loadString r1) fun key r =>
        if key = [] then (.err .syntaxErr, r)
        else andThen (loadObj ord n v.tag key r) fun o r => (.ok (.entry key o), r)) ∧
      Holds (k.pieces ++ (v.pieces ++ ps)) rest r1 := by
  simp only [Item.pieces, List.cons_append, List.append_assoc] at h
  obtain ⟨r1, h1, h⟩ := Holds.byte h
  refine ⟨r1, ?_, h⟩
  have ht := tag_lt v
  have hne : ∀ b : UInt8, 247 ≤ b.toNat → ¬ v.tag = b := by intro b hb e; rw [e] at ht; omega
  simp only [loadRec, h1, andThen_ok]
  rw [if_neg (hne _ (by decide)), if_neg (hne _ (by decide)), if_neg (hne _ (by decide)), if_neg (hne _ (by decide)),
    if_neg (hne _ (by decide)), if_neg (hne _ (by decide)), if_neg (hne _ (by decide)), if_neg (hne _ (by decide)),
    if_neg (hne _ (by decide))]

/-- The value of a record of a known type leads to a command for the key. -/
theorem loadObj_cmd {ord : MapOrd} {n : Nat} {v : Val} {key : Bytes} {r r' : Rd} {o : Obj} (h : loadObj ord n v.tag key r = (.ok o, r')) :
    ∃ name args, o = .cmd (name :: key :: args) := by
  cases v <;> simp (decide := true) only [loadObj, Val.tag, if_false, if_true] at h
  case str =>
    obtain ⟨a, r1, h1, h⟩ := andThen_eq_ok h
    simp only [Prod.mk.injEq, GoRes.ok.injEq] at h
    exact ⟨_, _, h.1.symm⟩
  all_goals
    obtain ⟨a, r1, h1, h⟩ := andThen_eq_ok h
    obtain ⟨a, r1, h1, h⟩ := andThen_eq_ok h
    simp only [Prod.mk.injEq, GoRes.ok.injEq] at h
    exact ⟨_, _, h.1.symm⟩

theorem recreate_form (key : Bytes) (d : Data) : ∃ name args, recreate key d = name :: key :: args := by
  cases d <;> exact ⟨_, _, rfl⟩

theorem entry_read {ord : MapOrd} (hord : ∀ n l, (ord n l).Perm l) (n : Nat) {k : StrEnc} {v : Val} (hs : Recreated k v)
    (hv : Item.Valid (.entry k v)) {ps : List Piece} {rest : Bytes} {r : Rd} (h : Holds (Item.pieces (.entry k v) ++ ps) rest r) :
    ∃ r', loadRec ord n r = (.ok (.entry k.value (.cmd (recreate k.value v.data))), r') ∧ Holds ps rest r' := by
  obtain ⟨r1, h1, h⟩ := loadRec_entry (ord := ord) (n := n) h
  obtain ⟨r2, h2, h⟩ := loadString_read hs.1 hv.1 h
  obtain ⟨r3, h3, h⟩ := loadObj_read hord n (key := k.value) hs.2.2 hv.2 h
  exact ⟨r3, by rw [h1, h2]; simp only [andThen_ok, if_neg hs.2.1, h3], h⟩

/-- Any other entry leads to another command, or to a failure. -/
theorem entry_wrong {ord : MapOrd} (hord : ∀ n l, (ord n l).Perm l) (n : Nat) {k : StrEnc} {v : Val} (hs : ¬ Recreated k v)
    (hv : Item.Valid (.entry k v)) (ht : v.Tight) {ps : List Piece} {rest : Bytes} {r r' : Rd}
    (h : Holds (Item.pieces (.entry k v) ++ ps) rest r) {x : Rec} (hl : loadRec ord n r = (.ok x, r')) :
    ∃ key args, x = .entry key (.cmd args) ∧ args ≠ recreate k.value v.data := by
  obtain ⟨r1, h1, h⟩ := loadRec_entry (ord := ord) (n := n) h
  rw [h1] at hl
  obtain ⟨key, r2, h2, k1⟩ := andThen_eq_ok hl
  split at k1
  · simp at k1
  · rename_i hk
    obtain ⟨o, r3, h3, k2⟩ := andThen_eq_ok k1
    simp only [Prod.mk.injEq, GoRes.ok.injEq] at k2
    obtain ⟨rfl, rfl⟩ := k2
    obtain ⟨name, args, rfl⟩ := loadObj_cmd h3
    refine ⟨key, _, rfl, ?_⟩
    intro hc
    obtain ⟨name', args', hf⟩ := recreate_form k.value v.data
    have hkey : key = k.value := by
      rw [hf] at hc
      simp only [List.cons.injEq] at hc
      exact hc.2.1
    subst hkey
    obtain ⟨g1, g2⟩ := loadString_right hv.1 h h2
    rw [hc] at h3
    exact hs ⟨g1, hk, loadObj_right hord n hv.2 ht g2 h3⟩

/-! ## The loop -/

theorem sendExpire_out (s : LState) (key : Bytes) : s.out <+: (s.sendExpire key).out := by
  unfold LState.sendExpire
  split
  · exact List.prefix_append _ _
  · exact List.prefix_rfl

/-- What was sent stays sent. -/
theorem loadLoop_out (ord : MapOrd) (fuel : Nat) (s : LState) (r : Rd) : s.out <+: (loadLoop ord fuel s r).2.out := by
  induction fuel generalizing s r with
  | zero => exact List.prefix_rfl
  | succ fuel ih =>
    have happ : ∀ x, match s.apply x with
        | .next s1 => s.out <+: s1.out
        | .ret s1 => s.out <+: s1.out
        | .fail s1 _ => s.out <+: s1.out := by
      intro x
      cases x with
      | aux k v =>
        simp only [LState.apply]
        by_cases hk : k = b!"repl-id"
        · rw [if_pos hk]; exact List.prefix_rfl
        · rw [if_neg hk]
          by_cases hk2 : k = b!"repl-offset"
          · rw [if_pos hk2]; cases atoi v <;> exact List.prefix_rfl
          · rw [if_neg hk2]; exact List.prefix_rfl
      | entry key o =>
        cases o with
        | cmd args => exact (List.prefix_append _ _).trans (sendExpire_out (s.send args) key)
        | unknown => exact sendExpire_out s key
        | stop => exact sendExpire_out s key
      | _ => exact List.prefix_rfl
    simp only [loadLoop]
    rcases loadRec ord s.out.length r with ⟨x | _ | _, r1⟩
    · have := happ x
      simp only
      cases h : s.apply x with
      | next s1 => rw [h] at this; exact this.trans (ih s1 r1)
      | ret s1 => rw [h] at this; exact this
      | fail s1 e => rw [h] at this; exact this
    · exact List.prefix_rfl
    · exact List.prefix_rfl

/-- One turn of the loop for an entry that is recreated. -/
theorem entry_step {s : LState} {k : StrEnc} {v : Val} {e : Option Nat} {db : Nat}
    (hp : ∀ t, e = some t → 0 < t ∧ t < 2 ^ 63) (he : s.expires = pend e) (hdb : s.db = Int64.ofNat db) :
    ∃ s1 e1 db1 out, s.apply (.entry k.value (.cmd (recreate k.value v.data))) = .next s1 ∧
      (∀ t, e1 = some t → 0 < t ∧ t < 2 ^ 63) ∧ s1.expires = pend e1 ∧ s1.db = Int64.ofNat db1 ∧
      s1.out = s.out ++ out.flatMap keyCmds ∧ ∀ l, meaning e db (.entry k v :: l) = out ++ meaning e1 db1 l := by
  simp only [LState.apply]
  cases e with
  | none =>
    have h0 : (s.send (recreate k.value v.data)).sendExpire k.value = s.send (recreate k.value v.data) := by
      have he0 : s.expires = 0 := he
      simp only [LState.sendExpire, LState.send, he0]
      rw [if_neg (by decide)]
    exact ⟨s.send (recreate k.value v.data), none, db, [⟨db, k.value, v.data, none⟩], by rw [h0], by simp, he, hdb,
      by simp [LState.send, keyCmds, hdb], fun _ => rfl⟩
  | some t =>
    obtain ⟨t1, t2⟩ := hp t rfl
    refine ⟨((s.send (recreate k.value v.data)).sendExpire k.value), none, db, [⟨db, k.value, v.data, some t⟩], rfl, by simp,
      ?_, ?_, ?_, fun _ => rfl⟩ <;> rw [sendExpire_some t1 t2 (by exact he)]
    · rfl
    · exact hdb
    · simp [LState.send, keyCmds, hdb]

theorem loop_exact {ord : MapOrd} (hord : ∀ n l, (ord n l).Perm l) {items : List Item} (hv : ∀ i ∈ items, i.Valid)
    (hs : ∀ i ∈ items, (∀ k v, i ≠ .entry k v) → i.Supported) (ht : ∀ k v, .entry k v ∈ items → v.Tight)
    {rest : Bytes} {r : Rd} (h : Holds (items.flatMap Item.pieces ++ [.one 255]) rest r)
    {fuel : Nat} (hf : items.length < fuel) {s : LState} {e : Option Nat} {db : Nat}
    (hp : ∀ t, e = some t → 0 < t ∧ t < 2 ^ 63) (he : s.expires = pend e) (hdb : s.db = Int64.ofNat db) :
    (∃ s', loadLoop ord fuel s r = (.ok (), s') ∧ s'.out = s.out ++ (meaning e db items).flatMap keyCmds) ↔
      ∀ k v, .entry k v ∈ items → Recreated k v := by
  induction items generalizing r fuel s e db with
  | nil =>
    cases fuel with
    | zero => simp at hf
    | succ fuel =>
      obtain ⟨r1, h1, h⟩ := Holds.byte h
      exact ⟨fun _ _ _ h => by simp at h, fun _ => ⟨s, by simp [loadLoop, loadRec, h1, LState.apply], by simp [meaning]⟩⟩
  | cons it items ih =>
    cases fuel with
    | zero => simp at hf
    | succ fuel =>
      simp only [List.flatMap_cons, List.append_assoc] at h
      have hv' := fun i h => hv i (List.mem_cons_of_mem _ h)
      have hs' := fun i h => hs i (List.mem_cons_of_mem _ h)
      have ht' := fun k v h => ht k v (List.mem_cons_of_mem _ h)
      have hf' : items.length < fuel := by simp at hf; omega
      have go : ∀ (x : Rec) (r1 : Rd) (s1 : LState) (e1 : Option Nat) (db1 : Nat) (out : List KeyRec),
          loadRec ord s.out.length r = (.ok x, r1) → s.apply x = .next s1 → Holds (items.flatMap Item.pieces ++ [.one 255]) rest r1 →
          (∀ t, e1 = some t → 0 < t ∧ t < 2 ^ 63) → s1.expires = pend e1 → s1.db = Int64.ofNat db1 →
          s1.out = s.out ++ out.flatMap keyCmds → (∀ l, meaning e db (it :: l) = out ++ meaning e1 db1 l) →
          ((∃ s', loadLoop ord (fuel + 1) s r = (.ok (), s') ∧ s'.out = s.out ++ (meaning e db (it :: items)).flatMap keyCmds) ↔
            ∀ k v, .entry k v ∈ items → Recreated k v) := by
        intro x r1 s1 e1 db1 out h1 ha g hp1 he1 hdb1 ho hm
        rw [← ih hv' hs' ht' g hf' hp1 he1 hdb1]
        simp only [loadLoop, h1, ha, ho, hm, List.flatMap_append, List.append_assoc]
      by_cases hent : ∃ k v, it = .entry k v
      · obtain ⟨k, v, rfl⟩ := hent
        by_cases hr : Recreated k v
        · obtain ⟨r1, h1, g⟩ := entry_read hord s.out.length hr (hv _ (by simp)) h
          obtain ⟨s1, e1, db1, out, ha, hp1, he1, hdb1, ho, hm⟩ := entry_step (k := k) (v := v) hp he hdb
          rw [go _ r1 s1 e1 db1 out h1 ha g hp1 he1 hdb1 ho hm]
          constructor
          · intro hq k' v' hm'
            rcases List.mem_cons.mp hm' with hm' | hm'
            · simp only [Item.entry.injEq] at hm'
              obtain ⟨rfl, rfl⟩ := hm'
              exact hr
            · exact hq k' v' hm'
          · intro hq k' v' hm'
            exact hq k' v' (List.mem_cons_of_mem _ hm')
        · refine ⟨?_, fun hq => absurd (hq k v (by simp)) hr⟩
          rintro ⟨s', h1, h2⟩
          exfalso
          rw [loadLoop] at h1
          rcases hl : loadRec ord s.out.length r with ⟨x | _ | _, r1⟩ <;> rw [hl] at h1 <;> simp only [Prod.mk.injEq, reduceCtorEq, false_and] at h1
          obtain ⟨key, args, rfl, hne⟩ := entry_wrong hord s.out.length hr (hv _ (by simp)) (ht k v (by simp)) h hl
          simp only [LState.apply] at h1
          have hpre := loadLoop_out ord fuel ((s.send args).sendExpire key) r1
          rw [h1] at hpre
          have hpre := (sendExpire_out (s.send args) key).trans hpre
          rw [h2] at hpre
          simp only [LState.send] at hpre
          rw [List.prefix_append_right_inj] at hpre
          simp only [meaning, List.flatMap_cons, keyCmds, List.cons_append, List.cons_prefix_cons, Prod.mk.injEq] at hpre
          exact hne hpre.1.2
      · have hne : ∀ k v, it ≠ .entry k v := fun k v hc => hent ⟨k, v, hc⟩
        obtain ⟨r1, s1, e1, db1, out, h1, ha, g, hp1, he1, hdb1, ho, hm⟩ :=
          step_at hord (hs it (by simp) hne) (hv it (by simp)) h hp he hdb
        rw [go _ r1 s1 e1 db1 out h1 ha g hp1 he1 hdb1 ho hm]
        constructor
        · intro hq k v hm'
          rcases List.mem_cons.mp hm' with hm' | hm'
          · exact absurd hm'.symm (hne k v)
          · exact hq k v hm'
        · intro hq k v hm'
          exact hq k v (List.mem_cons_of_mem _ hm')

/-- C65, exactly where it holds, whatever the keys and values: of a file whose other records (deadlines, databases, sizes,
texts about the server) are supported, and in which no string crosses the end of a block, exactly the right commands are sent
and the load succeeds if and only if every entry is `Recreated`. So a single entry outside this list spoils the load; nothing
that follows can make up for it. (Of the packed maps, those with unused bytes behind a later entry are left out: `C72_lucky`.) -/
theorem C65_exact (ord : MapOrd) (hord : ∀ n l, (ord n l).Perm l) (hdr : Bytes) (hh : Header hdr) (items : List Item)
    (hv : ∀ i ∈ items, i.Valid) (hs : ∀ i ∈ items, (∀ k v, i ≠ .entry k v) → i.Supported) (ht : ∀ k v, .entry k v ∈ items → v.Tight)
    (rest : Bytes) (r : Rd) (h : Holds (filePieces hdr items) rest r) (s : LState) (db : Nat) (hdb : s.db = Int64.ofNat db) :
    (∃ s', load ord s r = (.ok (), s') ∧ s'.out = s.out ++ (meaning none db items).flatMap keyCmds) ↔
      ∀ k v, .entry k v ∈ items → k.Read ∧ k.value ≠ [] ∧ v.Recreated := by
  obtain ⟨r1, h1, h2⟩ := Holds.read h
  rw [hh] at h1
  have hl := items_length items
  have hfl := congrArg List.length h2.flat
  simp only [bytes_append, List.length_append] at hfl
  have := loop_exact hord hv hs ht h2 (fuel := r1.flat.length + 1) (by omega) (s := { s with expires := 0 }) (e := none) (db := db)
    (by simp) rfl hdb
  simp only [load, h1]
  exact this

theorem swap_iff (g : Bytes → Bytes) : ∀ l : List (Bytes × Bytes),
    l.flatMap (fun p => [p.1, p.2]) = l.flatMap (fun p => [g p.2, p.1]) ↔ ∀ p ∈ l, p.1 = g p.2 ∧ p.2 = p.1
  | [] => by simp
  | p :: l => by
    simp only [List.flatMap_cons, List.cons_append, List.nil_append, List.cons.injEq, swap_iff g l, List.mem_cons, forall_eq_or_imp]
    exact ⟨fun ⟨a, b, c⟩ => ⟨⟨a, b⟩, c⟩, fun ⟨⟨a, b⟩, c⟩ => ⟨a, b, c⟩⟩

/-- C65: of packed sorted sets whose elements are all read as they are, those and only those are recreated in which every member is the same text as its score,
and that text the shortest of the score. -/
theorem C65_packed_zset_exact (e : StrEnc) (hdr : Bytes) (z : List (Bytes × ZVal)) (hv : (Val.zsetZiplist e hdr z).Valid) (hk : ∀ x ∈ z, Kept x.2) :
    (Val.zsetZiplist e hdr z).Recreated ↔ e.Read ∧
      ∀ p ∈ pairs (z.map (·.2.value)), p.1 = formatFloat ((parseFloat p.2).getD F64.nan) ∧ p.2 = p.1 := by
  obtain ⟨v1, v2, v3, v4, v5⟩ := hv
  have hz := (C71_exact hdr z v5).mpr hk
  have hp := pairs_flat (z.map (·.2.value)) (by simpa using v2)
  refine and_congr_right fun _ => ?_
  rw [hz]
  simp only [Option.some.injEq, exists_eq_left']
  have hlen : (z.map (·.2.value)).length / 2 * 2 = (z.map (·.2.value)).length := by simp only [List.length_map]; omega
  rw [hlen, List.take_length]
  conv => lhs; lhs; rw [← hp]
  exact swap_iff (fun s => formatFloat ((parseFloat s).getD F64.nan)) _

/-- A set in which each member is its own score is recreated; one with a member `m` of score 1 is not. -/
example : (∀ p ∈ pairs [b!"7", b!"7"], p.1 = formatFloat ((parseFloat p.2).getD F64.nan) ∧ p.2 = p.1) ∧
    ¬ ∀ p ∈ pairs [b!"m", b!"1"], p.1 = formatFloat ((parseFloat p.2).getD F64.nan) ∧ p.2 = p.1 := by decide +kernel

/-- A file with one value of each kind that is recreated, a sorted set whose member is the text of its score among them. -/
def sampleGood : List Item :=
  [.select .b6 3, .expireMs 77, .entry (.raw .b6 b!"a") (.str (.int16 300)),
   .entry (.int8 (-5)) (.set .b14 [.raw .b32 [], .raw .b6 b!"x"]),
   .entry (.raw .b6 b!"z") (.zset .b6 [(.raw .b6 b!"1.5", b!"15e-1")]),
   .entry (.raw .b6 b!"y") (.zset2 .b6 [(.raw .b6 b!"0", F64.zero)]),
   .entry (.raw .b6 b!"l") (.ziplist (.raw .b6 (encZiplist (List.replicate 10 0) [([0], .str6 b!"ab"), ([4], .imm 7)]))
     (List.replicate 10 0) [([0], .str6 b!"ab"), ([4], .imm 7)])]

/-- The same with an ordinary sorted set. -/
def sampleBad : List Item := sampleGood ++ [.entry (.raw .b6 b!"w") (.zset .b6 [(.raw .b6 b!"m", b!"1")])]

theorem sampleBad_hyp : (∀ i ∈ sampleBad, i.Valid) ∧ (∀ i ∈ sampleBad, (∀ k v, i ≠ .entry k v) → i.Supported) ∧
    (∀ k v, .entry k v ∈ sampleBad → v.Tight) := by
  refine ⟨?_, ?_, ?_⟩
  · have h15 : (parseFloat b!"15e-1").isSome = true := by decide +kernel
    have h1 : (parseFloat b!"1").isSome = true := by decide +kernel
    simp [sampleBad, sampleGood, Item.Valid, Val.Valid, StrEnc.Valid, StrEnc.value, Signed, LenEnc.limit, h15, h1, ZlValid, PrevField,
      encZiplist, encZEnts, ZVal.enc]
    rintro a b (⟨rfl, rfl⟩ | ⟨rfl, rfl⟩)
    · exact ⟨.inl ⟨0, by decide, rfl⟩, by simp [ZVal.Valid]⟩
    · exact ⟨.inl ⟨4, by decide, rfl⟩, by simp [ZVal.Valid]⟩
  · intro i hi hne
    simp only [sampleBad, sampleGood, List.cons_append, List.nil_append, List.mem_cons, List.not_mem_nil, or_false] at hi
    rcases hi with rfl | rfl | rfl | rfl | rfl | rfl | rfl | rfl
    · exact .inl rfl
    · trivial
    all_goals exact absurd rfl (hne _ _)
  · intro k v hm
    simp only [sampleBad, sampleGood, List.cons_append, List.nil_append, List.mem_cons, List.not_mem_nil, or_false, Item.entry.injEq,
      reduceCtorEq, false_or] at hm
    rcases hm with ⟨_, rfl⟩ | ⟨_, rfl⟩ | ⟨_, rfl⟩ | ⟨_, rfl⟩ | ⟨_, rfl⟩ | ⟨_, rfl⟩ <;> trivial

example : ∃ s', load idOrd .init (file (bytes (filePieces b!"REDIS0009" sampleGood))) = (.ok (), s') ∧
    s'.out = [(3, [b!"set", b!"a", b!"300"]), (3, [b!"pExpire", b!"a", b!"77"]), (3, [b!"sAdd", b!"-5", [], b!"x"]),
      (3, [b!"zAdd", b!"z", b!"1.5", b!"1.5"]), (3, [b!"zAdd", b!"y", b!"0", b!"0"]), (3, [b!"rPush", b!"l", b!"ab", b!"7"])] := by
  have hin : ∀ i ∈ sampleGood, i ∈ sampleBad := fun i hi => List.mem_append_left _ hi
  have hh := holds_small (filePieces b!"REDIS0009" sampleGood) [] (by decide +kernel)
  rw [List.append_nil] at hh
  have h15 : formatFloat ((parseFloat b!"15e-1").getD F64.nan) = b!"1.5" := by decide +kernel
  obtain ⟨s', h1, h2⟩ := (C65_exact idOrd idOrd_perm b!"REDIS0009" rfl sampleGood (fun i hi => sampleBad_hyp.1 i (hin i hi))
    (fun i hi => sampleBad_hyp.2.1 i (hin i hi)) (fun k v hi => sampleBad_hyp.2.2 k v (hin _ hi)) [] _ hh .init 0 rfl).mpr (by
      intro k v hm
      simp only [sampleGood, List.mem_cons, List.not_mem_nil, or_false, Item.entry.injEq, reduceCtorEq, false_or] at hm
      rcases hm with ⟨rfl, rfl⟩ | ⟨rfl, rfl⟩ | ⟨rfl, rfl⟩ | ⟨rfl, rfl⟩ | ⟨rfl, rfl⟩
      · simp [StrEnc.Read, StrEnc.value, Val.Recreated]
      · exact ⟨trivial, by decide, by simp [StrEnc.Read, Val.Recreated, LenEnc.Supported]⟩
      · refine ⟨.inl rfl, by decide, .inl rfl, ?_⟩
        intro p hp
        rw [List.mem_singleton] at hp
        subst hp
        exact ⟨.inl rfl, h15.symm⟩
      · refine ⟨.inl rfl, by decide, .inl rfl, ?_⟩
        intro p hp
        rw [List.mem_singleton] at hp
        subst hp
        exact ⟨.inl rfl, rfl, rfl⟩
      · refine ⟨.inl rfl, by decide, .inl rfl, ?_⟩
        simp [Kept])
  exact ⟨s', h1, by rw [h2]; decide +kernel⟩

example : ¬ ∃ s', load idOrd .init (file (bytes (filePieces b!"REDIS0009" sampleBad))) = (.ok (), s') ∧
    s'.out = (meaning none 0 sampleBad).flatMap keyCmds := by
  have hh := holds_small (filePieces b!"REDIS0009" sampleBad) [] (by decide +kernel)
  rw [List.append_nil] at hh
  intro hc
  have := (C65_exact idOrd idOrd_perm b!"REDIS0009" rfl sampleBad sampleBad_hyp.1 sampleBad_hyp.2.1 sampleBad_hyp.2.2 [] _ hh .init 0 rfl).mp
    hc (.raw .b6 b!"w") (.zset .b6 [(.raw .b6 b!"m", b!"1")]) (by simp [sampleBad])
  have h1 := (this.2.2.2 (.raw .b6 b!"m", b!"1") (by simp)).2
  revert h1
  decide +kernel

end Verif.Rdb

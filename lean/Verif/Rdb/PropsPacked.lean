import Verif.Rdb.PackedLemmas
import Verif.StrconvProps

/-! # C70 - C73: packed containers -/

namespace Verif.Rdb

/-! ## C70: integer sets -/

/-- C70 is false of the code: negative 16 and 32 bit elements come out as unsigned numbers. -/
theorem C70_violated :
    intsetLoad (encIntset 2 [-1]) = some [65535] ∧ intsetLoad (encIntset 4 [-1]) = some [4294967295] := by
  decide +kernel

/-- C70 for 64 bit elements: every list of integers is loaded as it was. -/
theorem C70_int64_partial (xs : List Int) (hl : xs.length < 2 ^ 32) (hx : ∀ x ∈ xs, Signed 8 x) :
    (intsetLoad (encIntset 8 xs)).map (·.map Int64.toInt) = some xs := by
  rw [intsetLoad_enc (.inr (.inr rfl)) hl, Option.map_some, List.map_map]
  congr 1
  conv => rhs; rw [← List.map_id xs]
  apply List.map_congr_left
  intro x h
  have hs := hx x h
  unfold Signed at hs
  simp only [Function.comp_apply, id]
  rw [Int64.toInt_ofNat']
  have hsz : (Int64.size : Int) = 2 ^ 64 := rfl
  simp only [Int.bmod_def, hsz]
  omega

/-- C70 for 16 and 32 bit elements: what is missing are the negative ones. -/
theorem C70_small_partial (w : Nat) (hw : w = 2 ∨ w = 4) (xs : List Int) (hl : xs.length < 2 ^ 32)
    (hx : ∀ x ∈ xs, Signed w x) (h0 : ∀ x ∈ xs, 0 ≤ x) :
    (intsetLoad (encIntset w xs)).map (·.map Int64.toInt) = some xs := by
  rw [intsetLoad_enc (by omega) hl, Option.map_some, List.map_map]
  congr 1
  conv => rhs; rw [← List.map_id xs]
  apply List.map_congr_left
  intro x h
  have hs := hx x h
  have hx0 := h0 x h
  unfold Signed at hs
  simp only [Function.comp_apply, id]
  rw [Int64.toInt_ofNat']
  have hsz : (Int64.size : Int) = 2 ^ 64 := rfl
  simp only [Int.bmod_def, hsz]
  rcases hw with rfl | rfl <;> omega

/-- Exactly which lists survive the 16 and 32 bit encodings: those without negative elements. -/
theorem C70_exactly_partial (w : Nat) (hw : w = 2 ∨ w = 4) (xs : List Int) (hl : xs.length < 2 ^ 32)
    (hx : ∀ x ∈ xs, Signed w x) :
    (intsetLoad (encIntset w xs)).map (·.map Int64.toInt) = some xs ↔ ∀ x ∈ xs, 0 ≤ x := by
  refine ⟨fun h x hm => ?_, C70_small_partial w hw xs hl hx⟩
  rw [intsetLoad_enc (by omega) hl, Option.map_some, List.map_map] at h
  have h := Option.some.inj h
  have hs := hx x hm
  unfold Signed at hs
  have : ∀ y ∈ xs.map (Int64.toInt ∘ fun x => Int64.ofNat (x % 256 ^ w).toNat), 0 ≤ y := by
    intro y hy
    rw [List.mem_map] at hy
    obtain ⟨z, hz, rfl⟩ := hy
    simp only [Function.comp_apply]
    rw [Int64.toInt_ofNat']
    have hsz : (Int64.size : Int) = 2 ^ 64 := rfl
    simp only [Int.bmod_def, hsz]
    rcases hw with rfl | rfl <;> omega
  rw [h] at this
  exact this x hm

/-- Lists that meet the hypotheses. -/
example : (∀ x ∈ [(-5 : Int), 2 ^ 62, -(2 ^ 63)], Signed 8 x) ∧ (∀ x ∈ [(0 : Int), 7, 32767], Signed 2 x ∧ 0 ≤ x) ∧
    intsetLoad (encIntset 2 [3, 300]) = some [3, 300] := by decide +kernel

/-! ## C71: packed lists -/

/-- C71 is false of the code: an 8 bit integer is loaded as its raw byte, … -/
theorem C71_violated :
    ziplistLoad (encZiplist (List.replicate 10 0) [([0], .int8 (-1))]) = some [[255]] := by decide +kernel

/-- … a text of 64 bytes comes with its length byte in front and without its last byte, … -/
theorem C71_violated_long :
    ziplistLoad (encZiplist (List.replicate 10 0) [([0], .str14 (List.replicate 64 97))]) =
      some [64 :: List.replicate 63 97] := by decide +kernel

/-- … and a 64 bit integer makes the loader lose its place and panic. -/
theorem C71_violated_int64 :
    ziplistLoad (encZiplist (List.replicate 10 0) [([0], .int64 (2 ^ 40))]) = none := by decide +kernel

/-- C71 as far as it holds: lists of texts up to 63 bytes and of the integers 0 to 12 are loaded as
they were, whatever the header and the previous-length fields hold. -/
theorem C71_short_partial (hdr : Bytes) (es : List (Bytes × ZVal)) (hv : ZlValid hdr es)
    (hs : ∀ e ∈ es, (∃ s, e.2 = .str6 s) ∨ (∃ n, e.2 = .imm n)) :
    ziplistLoad (encZiplist hdr es) = some (es.map (·.2.value)) := by
  rw [ziplistLoad_at hv]
  · congr 1
    apply List.map_congr_left
    intro e he
    rcases hs e he with ⟨s, h⟩ | ⟨n, h⟩ <;> rw [h] <;> rfl
  · intro e he
    rcases hs e he with ⟨s, h⟩ | ⟨n, h⟩ <;> rw [h] <;> trivial

/-- The number of elements, and the position of the right ones among them, is kept as long as there is
no 64 bit integer and no text of 256 bytes or more. -/
theorem C71_count_partial (hdr : Bytes) (es : List (Bytes × ZVal)) (hv : ZlValid hdr es)
    (h64 : ∀ e ∈ es, ∀ v, e.2 ≠ .int64 v) (hlong : ∀ e ∈ es, e.2.value.length < 256) :
    ∃ out : List Bytes, ziplistLoad (encZiplist hdr es) = some out ∧ out.length = es.length ∧
      ∀ (i : Nat) (e : Bytes × ZVal), es[i]? = some e → ((∃ s, e.2 = .str6 s) ∨ (∃ n, e.2 = .imm n)) → out[i]? = some e.2.value := by
  refine ⟨es.map fun e => seen e.2, ziplistLoad_at hv ?_, by simp, ?_⟩
  · intro e he
    have h1 := h64 e he
    have h2 := hlong e he
    obtain ⟨p, v⟩ := e
    cases v <;> simp_all [Aligned, ZVal.value]
  · intro i e hi hs
    rw [List.getElem?_map, hi]
    rcases hs with ⟨s, h⟩ | ⟨n, h⟩ <;> rw [Option.map_some, h] <;> rfl

/-- A ziplist that meets the hypotheses, with both kinds of previous-length fields. -/
example : ZlValid (List.replicate 10 0) [([0], .str6 b!"field"), ([7], .imm 12), ([254, 1, 1, 0, 0], .str6 [])] ∧
    ziplistLoad (encZiplist (List.replicate 10 0) [([0], .str6 b!"field"), ([7], .imm 12), ([254, 1, 1, 0, 0], .str6 [])]) =
      some [b!"field", b!"12", []] := by
  refine ⟨⟨rfl, ?_⟩, by decide +kernel⟩
  intro e he
  simp only [List.mem_cons, List.not_mem_nil, or_false] at he
  rcases he with rfl | rfl | rfl
  · exact ⟨.inl ⟨0, by decide, rfl⟩, show 5 < 64 by omega⟩
  · exact ⟨.inl ⟨7, by decide, rfl⟩, show 12 ≤ 12 by omega⟩
  · exact ⟨.inr ⟨[1, 1, 0, 0], rfl, rfl⟩, show 0 < 64 by omega⟩

/-! ## C72: packed maps -/

/-- C72 is false of the code: behind an entry one byte too many is skipped, so a map of two entries
makes the loader panic. -/
theorem C72_violated : zipmapLoad (encZipmap 2 [(b!"a", b!"1", []), (b!"b", b!"2", [])]) = none := by decide +kernel

/-- Another map is loaded without panic, but wrongly. -/
theorem C72_violated_silent :
    ∃ m, zipmapLoad (encZipmap 2 [(b!"a", b!"1", []), ([0], b!"2", [])]) = some m ∧ ([0], b!"2") ∉ m := by
  refine ⟨_, rfl, ?_⟩
  decide +kernel

/-- C72 as far as it holds: the empty map and maps of one entry, with keys and values of any length and
any padding. -/
theorem C72_one_partial (cnt : UInt8) (es : List (Bytes × Bytes × Bytes)) (hv : ZmValid es) (h1 : es.length ≤ 1) :
    zipmapLoad (encZipmap cnt es) = some (es.map fun e => (e.1, e.2.1)) := by
  match es, h1 with
  | [], _ => simp [zipmapLoad, encZipmap, zmLoop]
  | [(k, v, fr)], _ =>
    obtain ⟨hk, hvl, hf⟩ := hv.1 (k, v, fr) (by simp)
    simp only at hk hvl hf
    have hS : ∃ S, S = encZipmap cnt [(k, v, fr)] := ⟨_, rfl⟩
    obtain ⟨S, hS⟩ := hS
    have e0 : S = [cnt] ++ (encZmLen k.length ++ (k ++ encZmLen v.length ++ [UInt8.ofNat fr.length] ++ v ++ fr ++ [255])) := by
      simp [hS, encZipmap, encZmEnt]
    have e1 : S = ([cnt] ++ encZmLen k.length) ++ k ++ (encZmLen v.length ++ [UInt8.ofNat fr.length] ++ v ++ fr ++ [255]) := by
      simp [hS, encZipmap, encZmEnt]
    have e2 : S = ([cnt] ++ encZmLen k.length ++ k) ++ (encZmLen v.length ++ ([UInt8.ofNat fr.length] ++ v ++ fr ++ [255])) := by
      simp [hS, encZipmap, encZmEnt]
    have e3 : S = ([cnt] ++ encZmLen k.length ++ k ++ encZmLen v.length) ++ (encZmLen fr.length ++ (v ++ fr ++ [255])) := by
      simp [hS, encZipmap, encZmEnt, encZmLen, hf]
    have e4 : S = ([cnt] ++ encZmLen k.length ++ k ++ encZmLen v.length ++ encZmLen fr.length) ++ v ++ (fr ++ [255]) := by
      simp [hS, encZipmap, encZmEnt, encZmLen, hf]
    have a0 : zmLen S [] 1 = some (k.length, ([cnt] ++ encZmLen k.length).length) := by rw [e0]; exact zmLen_at hk rfl
    have a1 : slice S (([cnt] ++ encZmLen k.length).length) (([cnt] ++ encZmLen k.length).length + k.length) = some k := by
      rw [e1]; exact slice_mid rfl rfl
    have a2 : zmLen S [] (([cnt] ++ encZmLen k.length).length + k.length) =
        some (v.length, ([cnt] ++ encZmLen k.length ++ k ++ encZmLen v.length).length) := by
      rw [e2]; exact zmLen_at hvl (by simp only [List.length_append])
    have a3 : zmLen S [] (([cnt] ++ encZmLen k.length ++ k ++ encZmLen v.length).length) =
        some (fr.length, ([cnt] ++ encZmLen k.length ++ k ++ encZmLen v.length ++ encZmLen fr.length).length) := by
      rw [e3]; exact zmLen_at (by omega) rfl
    have a4 : slice S (([cnt] ++ encZmLen k.length ++ k ++ encZmLen v.length ++ encZmLen fr.length).length)
        (([cnt] ++ encZmLen k.length ++ k ++ encZmLen v.length ++ encZmLen fr.length).length + v.length) = some v := by
      rw [e4]; exact slice_mid rfl rfl
    have hlen : S.length = ([cnt] ++ encZmLen k.length ++ k ++ encZmLen v.length ++ encZmLen fr.length).length + v.length + fr.length + 1 := by
      rw [e4]; simp only [List.length_append, List.length_singleton]; omega
    have hpos : 1 + 1 < S.length := by
      have : 1 ≤ (encZmLen k.length).length := by unfold encZmLen; split <;> simp
      rw [hlen]; simp only [List.length_append, List.length_singleton]
      have : 1 ≤ (encZmLen v.length).length := by unfold encZmLen; split <;> simp
      omega
    have hg : S[0]? = some cnt := by rw [e0]; rfl
    rw [← hS]
    simp only [zipmapLoad, hg, Option.bind_eq_bind, Option.bind_some]
    rw [zmLoop, if_pos hpos, a0]
    simp only [Option.bind_eq_bind, Option.bind_some, a1, a2, a3, a4]
    have hf2 : ∃ f, S.length = f + 1 := ⟨S.length - 1, by omega⟩
    obtain ⟨f, hf2⟩ := hf2
    rw [hf2, zmLoop, if_neg (by omega)]
    rfl

/-- A map that meets the hypotheses, with padding. -/
example : ZmValid [(b!"foo", b!"bar", [0, 0])] ∧ zipmapLoad (encZipmap 1 [(b!"foo", b!"bar", [0, 0])]) = some [(b!"foo", b!"bar")] := by
  refine ⟨⟨?_, by simp⟩, by decide +kernel⟩
  intro e he
  simp only [List.mem_singleton] at he
  subst he
  decide +kernel

/-- Entries with one more byte behind each: what the loop of the loader steps over. -/
def encSpaced (es : List ((Bytes × Bytes × Bytes) × UInt8)) : Bytes := es.flatMap fun e => encZmEnt e.1 ++ [e.2]

theorem encSpaced_length (es : List ((Bytes × Bytes × Bytes) × UInt8)) : es.length ≤ (encSpaced es).length := by
  induction es with
  | nil => simp
  | cons e es ih =>
    have : encSpaced (e :: es) = encZmEnt e.1 ++ [e.2] ++ encSpaced es := rfl
    rw [this]
    simp only [List.length_append, List.length_cons, List.length_nil]
    omega

theorem zmLoop_spaced {es : List ((Bytes × Bytes × Bytes) × UInt8)}
    (hv : ∀ e ∈ es, e.1.1.length < 2 ^ 32 ∧ e.1.2.1.length < 2 ^ 32 ∧ e.1.2.2.length < 254) {pre : Bytes} {fuel : Nat}
    {m : List (Bytes × Bytes)} (hf : es.length < fuel) :
    zmLoop (pre ++ (encSpaced es ++ [255])) fuel pre.length m = some (es.foldl (fun m e => mapPut m e.1.1 e.1.2.1) m) := by
  induction es generalizing pre fuel m with
  | nil =>
    obtain ⟨f, rfl⟩ : ∃ f, fuel = f + 1 := ⟨fuel - 1, by simp at hf; omega⟩
    rw [zmLoop, if_neg (by simp [encSpaced])]
    rfl
  | cons e es ih =>
    obtain ⟨⟨k, v, fr⟩, x⟩ := e
    obtain ⟨f, rfl⟩ : ∃ f, fuel = f + 1 := ⟨fuel - 1, by simp at hf; omega⟩
    obtain ⟨hk, hvl, hfl⟩ := hv _ (List.mem_cons_self ..)
    simp only at hk hvl hfl
    obtain ⟨R, hR⟩ : ∃ R, R = encSpaced es ++ [255] := ⟨_, rfl⟩
    obtain ⟨S, hS⟩ : ∃ S, S = pre ++ (encSpaced (((k, v, fr), x) :: es) ++ [255]) := ⟨_, rfl⟩
    have eF : encZmLen fr.length = [UInt8.ofNat fr.length] := by simp [encZmLen, hfl]
    have e0 : S = pre ++ (encZmLen k.length ++ (k ++ encZmLen v.length ++ encZmLen fr.length ++ v ++ fr ++ [x] ++ R)) := by
      rw [hS, eF, hR]; simp [encSpaced, encZmEnt]
    have e2 : S = (pre ++ encZmLen k.length ++ k) ++ (encZmLen v.length ++ (encZmLen fr.length ++ v ++ fr ++ [x] ++ R)) := by
      rw [e0]; simp
    have e3 : S = (pre ++ encZmLen k.length ++ k ++ encZmLen v.length) ++ (encZmLen fr.length ++ (v ++ fr ++ [x] ++ R)) := by
      rw [e0]; simp
    have e4 : S = (pre ++ encZmLen k.length ++ k ++ encZmLen v.length ++ encZmLen fr.length) ++ v ++ (fr ++ [x] ++ R) := by
      rw [e0]; simp
    have e5 : S = (pre ++ encZmLen k.length ++ k ++ encZmLen v.length ++ encZmLen fr.length ++ v ++ fr ++ [x]) ++ R := by
      rw [e0]; simp
    have a0 : zmLen S [] pre.length = some (k.length, (pre ++ encZmLen k.length).length) := by rw [e0]; exact zmLen_at hk rfl
    have a1 : slice S ((pre ++ encZmLen k.length).length) ((pre ++ encZmLen k.length).length + k.length) = some k := by
      have : S = (pre ++ encZmLen k.length) ++ k ++ (encZmLen v.length ++ encZmLen fr.length ++ v ++ fr ++ [x] ++ R) := by rw [e0]; simp
      rw [this]; exact slice_mid rfl rfl
    have a2 : zmLen S [] ((pre ++ encZmLen k.length).length + k.length) =
        some (v.length, (pre ++ encZmLen k.length ++ k ++ encZmLen v.length).length) := by
      rw [e2]; exact zmLen_at hvl (by simp only [List.length_append])
    have a3 : zmLen S [] ((pre ++ encZmLen k.length ++ k ++ encZmLen v.length).length) =
        some (fr.length, (pre ++ encZmLen k.length ++ k ++ encZmLen v.length ++ encZmLen fr.length).length) := by
      rw [e3]; exact zmLen_at (by omega) rfl
    have a4 : slice S ((pre ++ encZmLen k.length ++ k ++ encZmLen v.length ++ encZmLen fr.length).length)
        ((pre ++ encZmLen k.length ++ k ++ encZmLen v.length ++ encZmLen fr.length).length + v.length) = some v := by
      rw [e4]; exact slice_mid rfl rfl
    have hpos : pre.length + 1 < S.length := by
      rw [e5, hR]
      have : 1 ≤ (encZmLen k.length).length := by unfold encZmLen; split <;> simp
      simp only [List.length_append, List.length_cons, List.length_nil]
      omega
    rw [← hS, zmLoop, if_pos hpos, a0]
    simp only [Option.bind_eq_bind, Option.bind_some, a1, a2, a3, a4]
    have hi : (pre ++ encZmLen k.length ++ k ++ encZmLen v.length ++ encZmLen fr.length).length + v.length + fr.length + 1 =
        (pre ++ encZmLen k.length ++ k ++ encZmLen v.length ++ encZmLen fr.length ++ v ++ fr ++ [x]).length := by
      simp only [List.length_append, List.length_cons, List.length_nil]
    rw [hi, e5, hR, ih (fun e he => hv e (List.mem_cons_of_mem _ he)) (by simp at hf; omega)]
    rfl

theorem lookup_mapPut (m : List (Bytes × Bytes)) (k v q : Bytes) :
    (mapPut m k v).lookup q = if q = k then some v else m.lookup q := by
  induction m with
  | nil =>
    simp only [mapPut, List.lookup_cons, List.lookup_nil]
    by_cases h : q = k
    · simp [h]
    · simp [h, beq_eq_false_iff_ne.mpr h]
  | cons e m ih =>
    obtain ⟨a, b⟩ := e
    simp only [mapPut]
    by_cases ha : a = k
    · subst ha
      rw [if_pos rfl]
      by_cases h : q = a
      · simp [h, List.lookup_cons]
      · simp [h, List.lookup_cons, beq_eq_false_iff_ne.mpr h]
    · rw [if_neg ha]
      simp only [List.lookup_cons]
      by_cases h : q = a
      · subst h; simp [ha]
      · simp only [beq_eq_false_iff_ne.mpr h, ih]

/-- The value given last for a key. -/
def lastFor (q : Bytes) (es : List ((Bytes × Bytes × Bytes) × UInt8)) : Option Bytes :=
  ((es.filter fun e => e.1.1 = q).getLast?).map fun e => e.1.2.1

/-- What the loader reads without loss: entries, any number of them and with keys in any order, that have one byte more
between them than the format has.  Each key gets the value given last for it, no other key appears. -/
theorem C72_spaced_partial (cnt : UInt8) (es : List ((Bytes × Bytes × Bytes) × UInt8))
    (hv : ∀ e ∈ es, e.1.1.length < 2 ^ 32 ∧ e.1.2.1.length < 2 ^ 32 ∧ e.1.2.2.length < 254) :
    ∃ m, zipmapLoad (cnt :: (encSpaced es ++ [255])) = some m ∧ ∀ q, m.lookup q = lastFor q es := by
  refine ⟨es.foldl (fun m e => mapPut m e.1.1 e.1.2.1) [], ?_, ?_⟩
  · unfold zipmapLoad
    have h0 : (cnt :: (encSpaced es ++ [255]))[0]? = some cnt := rfl
    simp only [h0, Option.bind_eq_bind, Option.bind_some]
    refine zmLoop_spaced (pre := [cnt]) hv ?_
    have : es.length ≤ (encSpaced es).length := encSpaced_length es
    simp only [List.length_cons, List.length_append]
    omega
  · intro q
    have gen : ∀ (es : List ((Bytes × Bytes × Bytes) × UInt8)) (m : List (Bytes × Bytes)),
        (es.foldl (fun m e => mapPut m e.1.1 e.1.2.1) m).lookup q = (lastFor q es).or (m.lookup q) := by
      intro es
      induction es with
      | nil => intro m; rfl
      | cons e es ih =>
        intro m
        rw [List.foldl_cons, ih, lookup_mapPut]
        unfold lastFor
        by_cases h : q = e.1.1
        · subst h
          cases hl : es.filter (fun x => x.1.1 = e.1.1) with
          | nil => simp [hl]
          | cons y ys =>
            have h1 : (e :: y :: ys).getLast? = (y :: ys).getLast? := by simp [List.getLast?_cons]
            simp only [List.filter_cons, decide_true, if_true, hl, h1]
            simp [List.getLast?_cons]
        · have h' : ¬ e.1.1 = q := fun e => h e.symm
          simp [h, h']
    rw [gen es []]
    simp

/-- Three entries with a byte between them, one key twice. -/
example : zipmapLoad (3 :: (encSpaced [((b!"a", b!"1", []), 7), ((b!"b", b!"2", [0]), 9), ((b!"a", b!"3", []), 0)] ++ [255])) =
    some [(b!"a", b!"3"), (b!"b", b!"2")] := by decide +kernel

/-! ## C73: putting into a packed map -/

/-- A sequence of `Set` calls; each comes with what lies behind the slice at that time. -/
def zmSets : Bytes → List (Bytes × Bytes × Bytes) → Option Bytes
  | s, [] => some s
  | s, (spare, k, v) :: l => (zmSet s spare k v).bind fun s => zmSets s l

/-- C73 is false of the code: the second key put in is not found, … -/
theorem C73_violated (sp1 sp2 sp3 : Bytes) :
    ∃ s n, zmSets zmNew [(sp1, b!"a", b!"v"), (sp2, b!"b", b!"w")] = some s ∧ zmLookup s sp3 b!"b" = some (n, false) := by
  refine ⟨[2, 1, 97, 1, 118, 1, 98, 1, 119, 255], 10, ?_, ?_⟩
  · have h1 : zmSet zmNew sp1 b!"a" b!"v" = some [1, 1, 97, 1, 118, 255] := rfl
    have h2 : zmSet [1, 1, 97, 1, 118, 255] sp2 b!"b" b!"w" = some [2, 1, 97, 1, 118, 1, 98, 1, 119, 255] := by
      simp [zmSet, zmLookup, zmLookupLoop, zmLen, slice, zmLenBytes]
    simp [zmSets, h1, h2]
  · simp [zmLookup, zmLookupLoop, zmLen, slice]

/-- … putting it in again changes the map, … -/
theorem C73_violated_again (sp : Bytes) :
    zmSet [2, 1, 97, 1, 118, 1, 98, 1, 119, 255] sp b!"b" b!"w" = some [3, 1, 97, 1, 118, 1, 98, 1, 119, 1, 98, 1, 119, 255] := by
  simp [zmSet, zmLookup, zmLookupLoop, zmLen, slice, zmLenBytes]

/-- … and looking for another key behind an empty value panics (with less than four spare bytes). -/
theorem C73_violated_panics (sp : Bytes) (h : sp.length < 4) :
    ∃ s, zmSet zmNew sp b!"a" [] = some s ∧ zmLookup s sp b!"b" = none := by
  refine ⟨[1, 1, 97, 0, 255], rfl, ?_⟩
  have hs : slice ([1, 1, 97, 0, 255] ++ sp) 5 9 = none := by
    unfold slice
    rw [if_neg]
    simp only [List.length_append, List.length_cons, List.length_nil]
    omega
  have h1 : zmLen [1, 1, 97, 0, 255] sp 1 = some (1, 2) := rfl
  have h2 : slice ([1, 1, 97, 0, 255] ++ sp) 2 3 = some b!"a" := by simp [slice]
  have h3 : zmLen [1, 1, 97, 0, 255] sp 3 = some (0, 4) := rfl
  have h4 : zmLen [1, 1, 97, 0, 255] sp 4 = none := by
    have hg : ([1, 1, 97, 0, 255] : Bytes)[4]? = some 255 := rfl
    simp only [zmLen, hg, Option.bind_eq_bind, Option.bind_some]
    rw [if_pos (by decide), hs]
    rfl
  have hg : ([1, 1, 97, 0, 255] : Bytes)[1]? = some 1 := rfl
  unfold zmLookup
  rw [zmLookupLoop, hg]
  simp only [h1, Option.bind_eq_bind, Option.bind_some, h2, h3, h4]
  rfl

/-- The first entry is found in whatever follows. -/
theorem lookup_first (c : UInt8) (k tail spare : Bytes) (hk : k.length < 2 ^ 32) :
    ∃ n, zmLookup (c :: (encZmLen k.length ++ k ++ tail)) spare k = some (n, true) := by
  have e0 : c :: (encZmLen k.length ++ k ++ tail) = [c] ++ (encZmLen k.length ++ (k ++ tail)) := by simp
  have a0 : zmLen (c :: (encZmLen k.length ++ k ++ tail)) spare 1 = some (k.length, ([c] ++ encZmLen k.length).length) := by rw [e0]; exact zmLen_at hk rfl
  have a1 : slice (c :: (encZmLen k.length ++ k ++ tail) ++ spare) (([c] ++ encZmLen k.length).length)
      (([c] ++ encZmLen k.length).length + k.length) = some k := by
    have : c :: (encZmLen k.length ++ k ++ tail) ++ spare = ([c] ++ encZmLen k.length) ++ k ++ (tail ++ spare) := by simp
    rw [this]; exact slice_mid rfl rfl
  obtain ⟨b, hb, hb'⟩ : ∃ b, (c :: (encZmLen k.length ++ k ++ tail))[1]? = some b ∧ b ≠ 255 := by
    unfold encZmLen
    split
    · refine ⟨UInt8.ofNat k.length, by simp, ?_⟩
      intro e
      have := congrArg UInt8.toNat e
      rw [ofNat_toNat (by omega)] at this
      have h255 : UInt8.toNat 255 = 255 := rfl
      omega
    · exact ⟨254, by simp, by decide⟩
  refine ⟨([c] ++ encZmLen k.length).length, ?_⟩
  unfold zmLookup
  rw [zmLookupLoop, hb]
  simp only [if_neg hb', a0, Option.bind_eq_bind, Option.bind_some, a1, if_true]
  rfl

/-- What `Set` can do to a map that starts with an entry. -/
theorem set_keeps (c : UInt8) (x tail spare k v s : Bytes) (hk : zmSet (c :: (x ++ tail ++ [255])) spare k v = some s) :
    ∃ c' tail', s = c' :: (x ++ tail' ++ [255]) := by
  unfold zmSet at hk
  cases hl : zmLookup (c :: (x ++ tail ++ [255])) spare k with
  | none => rw [hl] at hk; simp at hk
  | some p =>
    obtain ⟨n, ok⟩ := p
    rw [hl] at hk
    simp only [Option.bind_eq_bind, Option.bind_some] at hk
    cases ok with
    | true =>
      simp only [if_true, Option.pure_def, Option.some.injEq] at hk
      exact ⟨c, tail, hk.symm⟩
    | false =>
      have hd : (c :: (x ++ tail ++ [255])).dropLast = c :: (x ++ tail) := by
        rw [List.dropLast_cons_of_ne_nil (by simp), List.dropLast_concat]
      rw [hd] at hk
      simp only [Bool.false_eq_true, if_false, List.cons_append] at hk
      split at hk
      · simp only [Option.pure_def, Option.some.injEq] at hk
        refine ⟨c + 1, tail ++ (zmLenBytes k.length ++ k ++ (zmLenBytes v.length ++ v)), ?_⟩
        rw [← hk]; simp
      · simp only [Option.pure_def, Option.some.injEq] at hk
        refine ⟨c, tail ++ (zmLenBytes k.length ++ k ++ (zmLenBytes v.length ++ v)), ?_⟩
        rw [← hk]; simp

theorem set_new (spare k v : Bytes) (hk : k.length < 2 ^ 32) :
    zmSet zmNew spare k v = some (1 :: (encZmLen k.length ++ k ++ (zmLenBytes v.length ++ v) ++ [255])) := by
  have hl : zmLookup zmNew spare k = some (2, false) := rfl
  unfold zmSet
  rw [hl]
  simp only [Option.bind_eq_bind, Option.bind_some, Bool.false_eq_true, if_false]
  rw [zmLenBytes_eq hk]
  simp [zmNew]

/-- C73 as far as it holds: the first key put in is found ever after, whatever is put in later, … -/
theorem C73_first_found_partial (sp k v : Bytes) (hk : k.length < 2 ^ 32) (later : List (Bytes × Bytes × Bytes)) (s sp' : Bytes)
    (h : zmSets zmNew ((sp, k, v) :: later) = some s) : ∃ n, zmLookup s sp' k = some (n, true) := by
  rw [zmSets, set_new sp k v hk, Option.bind_some] at h
  have : ∀ (later : List (Bytes × Bytes × Bytes)) (c : UInt8) (tail : Bytes),
      zmSets (c :: (encZmLen k.length ++ k ++ tail ++ [255])) later = some s →
      ∃ c' tail', s = c' :: (encZmLen k.length ++ k ++ tail' ++ [255]) := by
    intro later
    induction later with
    | nil => intro c tail h; simp only [zmSets, Option.some.injEq] at h; exact ⟨c, tail, h.symm⟩
    | cons x later ih =>
      intro c tail h
      obtain ⟨a, k', v'⟩ := x
      simp only [zmSets] at h
      obtain ⟨s', h1, h2⟩ := Option.bind_eq_some_iff.mp h
      obtain ⟨c', tail', rfl⟩ := set_keeps _ _ _ _ _ _ _ h1
      exact ih _ _ h2
  obtain ⟨c, tail, rfl⟩ := this later _ _ h
  rw [List.append_assoc]
  exact lookup_first c k (tail ++ [255]) sp' hk

/-- … and putting it in again changes nothing, whatever was put in meanwhile. -/
theorem C73_first_again_partial (sp k v : Bytes) (hk : k.length < 2 ^ 32) (later : List (Bytes × Bytes × Bytes)) (s sp' v' : Bytes)
    (h : zmSets zmNew ((sp, k, v) :: later) = some s) : zmSet s sp' k v' = some s := by
  obtain ⟨n, hn⟩ := C73_first_found_partial sp k v hk later s sp' h
  simp [zmSet, hn]

/-- The keys that `Set` finds new: it puts them in. -/
def added : Bytes → List (Bytes × Bytes × Bytes) → Nat
  | _, [] => 0
  | s, (spare, k, v) :: l =>
    (match zmLookup s spare k with | some (_, false) => 1 | _ => 0) + (match zmSet s spare k v with | some s' => added s' l | none => 0)

/-- The first byte of a map counts what was put in, up to 254, which stands for "many". -/
theorem C73_count_partial (l : List (Bytes × Bytes × Bytes)) (s : Bytes) (h : zmSets zmNew l = some s) :
    s.head?.map UInt8.toNat = some (min 254 (added zmNew l)) := by
  have : ∀ (l : List (Bytes × Bytes × Bytes)) (c : UInt8) (t : Bytes), c.toNat ≤ 254 → zmSets (c :: (t ++ [255])) l = some s →
      s.head?.map UInt8.toNat = some (min 254 (c.toNat + added (c :: (t ++ [255])) l)) := by
    intro l
    induction l with
    | nil =>
      intro c t hc h
      simp only [zmSets, Option.some.injEq] at h
      subst h
      simp only [List.head?_cons, Option.map_some, added]
      congr 1
      omega
    | cons x l ih =>
      intro c t hc h
      obtain ⟨spare, k, v⟩ := x
      simp only [zmSets] at h
      obtain ⟨s', h1, h2⟩ := Option.bind_eq_some_iff.mp h
      simp only [added, h1]
      unfold zmSet at h1
      cases hl : zmLookup (c :: (t ++ [255])) spare k with
      | none => rw [hl] at h1; simp at h1
      | some p =>
        obtain ⟨n, ok⟩ := p
        rw [hl] at h1
        simp only [Option.bind_eq_bind, Option.bind_some] at h1
        cases ok with
        | true =>
          simp only [if_true, Option.pure_def, Option.some.injEq] at h1
          subst h1
          simpa using ih c t hc h2
        | false =>
          have hd : (c :: (t ++ [255])).dropLast = c :: t := by
            rw [List.dropLast_cons_of_ne_nil (by simp), List.dropLast_concat]
          rw [hd] at h1
          simp only [Bool.false_eq_true, if_false, List.cons_append] at h1
          split at h1
          · next hlt =>
            simp only [Option.pure_def, Option.some.injEq] at h1
            subst h1
            have hc1 : (c + 1).toNat = c.toNat + 1 := by rw [UInt8.toNat_add]; simp; omega
            have := ih (c + 1) _ (by rw [hc1]; omega) h2
            rw [this, hc1]
            simp only
            congr 1
            omega
          · next hge =>
            simp only [Option.pure_def, Option.some.injEq] at h1
            subst h1
            have := ih c _ hc h2
            rw [this]
            congr 1
            omega
  have h0 := this l 0 [] (by decide) h
  simpa [zmNew] using h0

/-- Three calls, of which two put something in. -/
example : (zmSets zmNew [([], b!"a", b!"v"), ([], b!"a", b!"w"), ([], b!"b", b!"w")]).map (·.head?) = some (some 2) := by decide +kernel

/-- With one key in the map, other keys are not found (values that start with a byte below 254). -/
theorem C73_others_partial (sp sp' k v k' : Bytes) (hk : k.length < 2 ^ 32) (hv : v.length < 2 ^ 32) (b : UInt8) (hb : b.toNat < 254)
    (hvb : v.head? = some b) (hne : k' ≠ k) :
    ∃ s n, zmSet zmNew sp k v = some s ∧ zmLookup s sp' k' = some (n, false) := by
  obtain ⟨v', rfl⟩ : ∃ v', v = b :: v' := by
    cases v with
    | nil => simp at hvb
    | cons a v' => simp only [List.head?_cons, Option.some.injEq] at hvb; subst hvb; exact ⟨v', rfl⟩
  have hs := set_new sp k (b :: v') hk
  rw [zmLenBytes_eq hv] at hs
  obtain ⟨S, hS⟩ : ∃ S, S = (1 : UInt8) :: (encZmLen k.length ++ k ++ (encZmLen (b :: v').length ++ b :: v') ++ [255]) := ⟨_, rfl⟩
  refine ⟨S, S.length, by rw [hs, hS], ?_⟩
  have e0 : S = [1] ++ (encZmLen k.length ++ (k ++ (encZmLen (b :: v').length ++ b :: v') ++ [255])) := by simp [hS]
  have a0 : zmLen S sp' 1 = some (k.length, ([1] ++ encZmLen k.length).length) := by rw [e0]; exact zmLen_at hk rfl
  have a1 : slice (S ++ sp') (([1] ++ encZmLen k.length).length) (([1] ++ encZmLen k.length).length + k.length) = some k := by
    have : S ++ sp' = ([1] ++ encZmLen k.length) ++ k ++ ((encZmLen (b :: v').length ++ b :: v') ++ [255] ++ sp') := by simp [hS]
    rw [this]; exact slice_mid rfl rfl
  have e2 : S = ([1] ++ encZmLen k.length ++ k) ++ (encZmLen (b :: v').length ++ (b :: v' ++ [255])) := by simp [hS]
  have a2 : zmLen S sp' (([1] ++ encZmLen k.length).length + k.length) =
      some ((b :: v').length, ([1] ++ encZmLen k.length ++ k ++ encZmLen (b :: v').length).length) := by
    rw [e2]; exact zmLen_at hv (by simp only [List.length_append])
  have e3 : S = ([1] ++ encZmLen k.length ++ k ++ encZmLen (b :: v').length) ++ b :: (v' ++ [255]) := by simp [hS]
  have a3 : zmLen S sp' (([1] ++ encZmLen k.length ++ k ++ encZmLen (b :: v').length).length) =
      some (b.toNat, ([1] ++ encZmLen k.length ++ k ++ encZmLen (b :: v').length).length + 1) := by
    have hg : S[([1] ++ encZmLen k.length ++ k ++ encZmLen (b :: v').length).length]? = some b := by
      rw [e3]; exact get_mid rfl
    simp only [zmLen, hg, Option.bind_eq_bind, Option.bind_some]
    rw [if_neg (by omega)]; rfl
  obtain ⟨q, hq, hq'⟩ : ∃ q, S[1]? = some q ∧ q ≠ 255 := by
    rw [hS]
    unfold encZmLen
    split
    · refine ⟨UInt8.ofNat k.length, by simp, ?_⟩
      intro e
      have := congrArg UInt8.toNat e
      rw [ofNat_toNat (by omega)] at this
      have h255 : UInt8.toNat 255 = 255 := rfl
      omega
    · exact ⟨254, by simp, by decide⟩
  have hlen : S.length = ([1] ++ encZmLen k.length ++ k ++ encZmLen (b :: v').length).length + (b :: v').length + 1 := by
    rw [e3]; simp only [List.length_append, List.length_cons, List.length_nil]; omega
  have hf2 : ∃ f, S.length = f + 1 := ⟨S.length - 1, by omega⟩
  obtain ⟨f, hf2⟩ := hf2
  unfold zmLookup
  rw [zmLookupLoop, hq]
  simp only [if_neg hq', a0, Option.bind_eq_bind, Option.bind_some, a1, if_neg hne, a2, a3]
  rw [hf2, zmLookupLoop, List.getElem?_eq_none (by omega), hf2]

/-- Keys that were never put in can be found: behind a value of one zero byte and a key of one byte, `Lookup` takes the
second value for a key. -/
theorem C73_violated_phantom (sp1 sp2 sp3 a w : Bytes) (b : UInt8) (ha : a.length < 2 ^ 32) (hw : w.length < 2 ^ 32)
    (hab : [b] ≠ a) (hwa : w ≠ a) (_never : w ≠ [b]) :
    ∃ s n, zmSets zmNew [(sp1, a, [0]), (sp2, [b], w)] = some s ∧ zmLookup s sp3 w = some (n, true) := by
  obtain ⟨s1, n1, hs1, hl1⟩ := C73_others_partial sp1 sp2 a [0] [b] ha (by decide) 0 (by decide) rfl hab
  have h1 := set_new sp1 a [0] ha
  rw [hs1, Option.some.injEq] at h1
  obtain ⟨S, hS⟩ : ∃ S, S = (2 : UInt8) :: (encZmLen a.length ++ a ++ [1, 0] ++ [1, b] ++ (encZmLen w.length ++ w) ++ [255]) := ⟨_, rfl⟩
  have h2 : zmSet s1 sp2 [b] w = some S := by
    unfold zmSet
    rw [hl1]
    simp only [Option.bind_eq_bind, Option.bind_some, Bool.false_eq_true, if_false]
    rw [h1, List.dropLast_cons_of_ne_nil (by simp), List.dropLast_concat, zmLenBytes_eq hw, hS]
    simp [zmLenBytes]
  have e0 : S = [2] ++ (encZmLen a.length ++ (a ++ [1, 0] ++ [1, b] ++ (encZmLen w.length ++ w) ++ [255])) := by simp [hS]
  have a0 : zmLen S sp3 1 = some (a.length, ([2] ++ encZmLen a.length).length) := by rw [e0]; exact zmLen_at ha rfl
  have a1 : slice (S ++ sp3) (([2] ++ encZmLen a.length).length) (([2] ++ encZmLen a.length).length + a.length) = some a := by
    have : S ++ sp3 = ([2] ++ encZmLen a.length) ++ a ++ ([1, 0] ++ [1, b] ++ (encZmLen w.length ++ w) ++ [255] ++ sp3) := by simp [hS]
    rw [this]; exact slice_mid rfl rfl
  have e2 : S = ([2] ++ encZmLen a.length ++ a) ++ 1 :: ([0, 1, b] ++ (encZmLen w.length ++ w) ++ [255]) := by simp [hS]
  have e3 : S = ([2] ++ encZmLen a.length ++ a ++ [1]) ++ 0 :: ([1, b] ++ (encZmLen w.length ++ w) ++ [255]) := by simp [hS]
  have g2 : S[([2] ++ encZmLen a.length).length + a.length]? = some 1 := by
    rw [e2]; exact get_mid (by simp only [List.length_append])
  have g3 : S[([2] ++ encZmLen a.length).length + a.length + 1]? = some 0 := by
    rw [e3]; exact get_mid (by simp only [List.length_append, List.length_cons, List.length_nil])
  have a2 : zmLen S sp3 (([2] ++ encZmLen a.length).length + a.length) = some (1, ([2] ++ encZmLen a.length).length + a.length + 1) := by
    simp only [zmLen, g2, Option.bind_eq_bind, Option.bind_some]; rfl
  have a3 : zmLen S sp3 (([2] ++ encZmLen a.length).length + a.length + 1) = some (0, ([2] ++ encZmLen a.length).length + a.length + 1 + 1) := by
    simp only [zmLen, g3, Option.bind_eq_bind, Option.bind_some]; rfl
  obtain ⟨P, hP⟩ : ∃ P, P = [2] ++ encZmLen a.length ++ a ++ [1, 0, 1, b] := ⟨_, rfl⟩
  have hPl : ([2] ++ encZmLen a.length).length + a.length + 1 + 1 + 1 + 0 + 1 = P.length := by
    rw [hP]; simp only [List.length_append, List.length_cons, List.length_nil]
  have e4 : S = P ++ (encZmLen w.length ++ (w ++ [255])) := by simp [hS, hP]
  have a4 : zmLen S sp3 P.length = some (w.length, (P ++ encZmLen w.length).length) := by rw [e4]; exact zmLen_at hw rfl
  have a5 : slice (S ++ sp3) ((P ++ encZmLen w.length).length) ((P ++ encZmLen w.length).length + w.length) = some w := by
    have : S ++ sp3 = (P ++ encZmLen w.length) ++ w ++ ([255] ++ sp3) := by simp [e4]
    rw [this]; exact slice_mid rfl rfl
  have first : ∀ (Q x t : Bytes), x.length < 2 ^ 32 → ∃ q, (Q ++ (encZmLen x.length ++ t))[Q.length]? = some q ∧ q ≠ 255 := by
    intro Q x t hx
    unfold encZmLen
    split
    · refine ⟨UInt8.ofNat x.length, by simp, ?_⟩
      intro e
      have := congrArg UInt8.toNat e
      rw [ofNat_toNat (by omega)] at this
      have h255 : UInt8.toNat 255 = 255 := rfl
      omega
    · exact ⟨254, by simp, by decide⟩
  obtain ⟨q, hq, hq'⟩ := first [2] a (a ++ [1, 0] ++ [1, b] ++ (encZmLen w.length ++ w) ++ [255]) ha
  obtain ⟨r, hr, hr'⟩ := first P w (w ++ [255]) hw
  rw [← e0] at hq
  rw [← e4] at hr
  have hq1 : S[1]? = some q := hq
  refine ⟨S, (P ++ encZmLen w.length).length, by simp [zmSets, hs1, h2], ?_⟩
  obtain ⟨f, hf2⟩ : ∃ f, S.length = f + 1 := ⟨S.length - 1, by rw [hS]; simp⟩
  unfold zmLookup
  rw [zmLookupLoop, hq1]
  simp only [if_neg hq', a0, Option.bind_eq_bind, Option.bind_some, a1, if_neg hwa, a2, a3]
  rw [hPl, hf2, zmLookupLoop, hr]
  simp only [if_neg hr', a4, Option.bind_eq_bind, Option.bind_some, a5, if_true]
  rfl

/-- Such a map: `zz` was never put in as a key. -/
example : zmSets zmNew [([], b!"a", [0]), ([], b!"b", b!"zz")] = some [2, 1, 97, 1, 0, 1, 98, 2, 122, 122, 255] ∧
    zmLookup [2, 1, 97, 1, 0, 1, 98, 2, 122, 122, 255] [] b!"zz" = some (8, true) := by decide +kernel

theorem lookup_spaced {es : List ((Bytes × Bytes × Bytes) × UInt8)}
    (hv : ∀ e ∈ es, e.1.1.length < 2 ^ 32 ∧ e.1.2.1.length < 2 ^ 32 ∧ e.1.2.2.length < 254) {pre spare q : Bytes} {fuel : Nat}
    (hf : es.length < fuel) :
    ∃ n, zmLookupLoop (pre ++ (encSpaced es ++ [255])) spare q fuel pre.length = some (n, decide (q ∈ es.map (·.1.1))) := by
  induction es generalizing pre fuel with
  | nil =>
    obtain ⟨f, rfl⟩ : ∃ f, fuel = f + 1 := ⟨fuel - 1, by simp at hf; omega⟩
    have hg : (pre ++ (encSpaced [] ++ [255]))[pre.length]? = some 255 := by
      show (pre ++ 255 :: [])[pre.length]? = _
      exact get_mid rfl
    refine ⟨(pre ++ (encSpaced [] ++ [255])).length, ?_⟩
    rw [zmLookupLoop, hg]
    rfl
  | cons e es ih =>
    obtain ⟨⟨k, v, fr⟩, x⟩ := e
    obtain ⟨f, rfl⟩ : ∃ f, fuel = f + 1 := ⟨fuel - 1, by simp at hf; omega⟩
    obtain ⟨hk, hvl, hfl⟩ := hv _ (List.mem_cons_self ..)
    simp only at hk hvl hfl
    obtain ⟨R, hR⟩ : ∃ R, R = encSpaced es ++ [255] := ⟨_, rfl⟩
    obtain ⟨S, hS⟩ : ∃ S, S = pre ++ (encSpaced (((k, v, fr), x) :: es) ++ [255]) := ⟨_, rfl⟩
    have eF : encZmLen fr.length = [UInt8.ofNat fr.length] := by simp [encZmLen, hfl]
    have e0 : S = pre ++ (encZmLen k.length ++ (k ++ encZmLen v.length ++ encZmLen fr.length ++ v ++ fr ++ [x] ++ R)) := by
      rw [hS, eF, hR]; simp [encSpaced, encZmEnt]
    have e2 : S = (pre ++ encZmLen k.length ++ k) ++ (encZmLen v.length ++ (encZmLen fr.length ++ v ++ fr ++ [x] ++ R)) := by
      rw [e0]; simp
    have e3 : S = (pre ++ encZmLen k.length ++ k ++ encZmLen v.length) ++ (encZmLen fr.length ++ (v ++ fr ++ [x] ++ R)) := by
      rw [e0]; simp
    have e5 : S = (pre ++ encZmLen k.length ++ k ++ encZmLen v.length ++ encZmLen fr.length ++ v ++ fr ++ [x]) ++ R := by
      rw [e0]; simp
    have a0 : zmLen S spare pre.length = some (k.length, (pre ++ encZmLen k.length).length) := by rw [e0]; exact zmLen_at hk rfl
    have a1 : slice (S ++ spare) ((pre ++ encZmLen k.length).length) ((pre ++ encZmLen k.length).length + k.length) = some k := by
      have : S ++ spare = (pre ++ encZmLen k.length) ++ k ++ (encZmLen v.length ++ encZmLen fr.length ++ v ++ fr ++ [x] ++ R ++ spare) := by
        rw [e0]; simp
      rw [this]; exact slice_mid rfl rfl
    have a2 : zmLen S spare ((pre ++ encZmLen k.length).length + k.length) =
        some (v.length, (pre ++ encZmLen k.length ++ k ++ encZmLen v.length).length) := by
      rw [e2]; exact zmLen_at hvl (by simp only [List.length_append])
    have a3 : zmLen S spare ((pre ++ encZmLen k.length ++ k ++ encZmLen v.length).length) =
        some (fr.length, (pre ++ encZmLen k.length ++ k ++ encZmLen v.length ++ encZmLen fr.length).length) := by
      rw [e3]; exact zmLen_at (by omega) rfl
    obtain ⟨b, hb, hb'⟩ : ∃ b, S[pre.length]? = some b ∧ b ≠ 255 := by
      rw [e0]
      unfold encZmLen
      split
      · refine ⟨UInt8.ofNat k.length, by simp, ?_⟩
        intro e
        have := congrArg UInt8.toNat e
        rw [ofNat_toNat (by omega)] at this
        have h255 : UInt8.toNat 255 = 255 := rfl
        omega
      · exact ⟨254, by simp, by decide⟩
    rw [← hS, zmLookupLoop, hb]
    simp only [if_neg hb', a0, Option.bind_eq_bind, Option.bind_some, a1]
    by_cases hq : q = k
    · refine ⟨(pre ++ encZmLen k.length).length, ?_⟩
      rw [if_pos hq]; simp [hq]
    · have hi : (pre ++ encZmLen k.length ++ k ++ encZmLen v.length ++ encZmLen fr.length).length + v.length + fr.length + 1 =
          (pre ++ encZmLen k.length ++ k ++ encZmLen v.length ++ encZmLen fr.length ++ v ++ fr ++ [x]).length := by
        simp only [List.length_append, List.length_cons, List.length_nil]
      obtain ⟨n, hn⟩ := ih (pre := pre ++ encZmLen k.length ++ k ++ encZmLen v.length ++ encZmLen fr.length ++ v ++ fr ++ [x])
        (fuel := f) (fun e he => hv e (List.mem_cons_of_mem _ he)) (by simp at hf; omega)
      refine ⟨n, ?_⟩
      rw [if_neg hq]
      simp only [a2, a3, Option.bind_some]
      rw [hi, e5, hR, hn]
      simp [hq]

/-- What Lookup reads without loss, whatever lies behind the slice: in a map whose entries have the unused-length byte and one
byte more between them, exactly the keys of the map are found. -/
theorem C73_spaced_partial (cnt : UInt8) (es : List ((Bytes × Bytes × Bytes) × UInt8)) (spare q : Bytes)
    (hv : ∀ e ∈ es, e.1.1.length < 2 ^ 32 ∧ e.1.2.1.length < 2 ^ 32 ∧ e.1.2.2.length < 254) :
    ∃ n, zmLookup (cnt :: (encSpaced es ++ [255])) spare q = some (n, decide (q ∈ es.map (·.1.1))) := by
  unfold zmLookup
  refine lookup_spaced (pre := [cnt]) hv ?_
  have : es.length ≤ (encSpaced es).length := encSpaced_length es
  simp only [List.length_cons, List.length_append]
  omega

example : zmLookup (2 :: (encSpaced [((b!"a", b!"1", []), 7), ((b!"b", b!"2", [0]), 9)] ++ [255])) [] b!"b" = some (8, true) := by
  decide +kernel

/-- Calls that meet the hypotheses. -/
example : zmSets zmNew [([], b!"a", b!"v"), ([], b!"b", b!"w"), ([], b!"a", b!"x")] = some [2, 1, 97, 1, 118, 1, 98, 1, 119, 255] := by
  decide +kernel

end Verif.Rdb

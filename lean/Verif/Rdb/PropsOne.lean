import Verif.Rdb.PropsPackedRest
/-!
# C73 and C125, exactly: a packed map with one entry, and by how much `Set` makes a map longer
-/
namespace Verif.Rdb

/-- The map with one entry, as `Set` writes it. -/
theorem set_one (sp k v : Bytes) (hk : k.length < 2 ^ 32) (hv : v.length < 2 ^ 32) :
    zmSet zmNew sp k v = some ((1 : UInt8) :: (encZmLen k.length ++ k ++ (encZmLen v.length ++ v) ++ [255])) := by
  have hs := set_new sp k v hk
  rwa [zmLenBytes_eq hv] at hs

/-- C73 for maps with one entry, exactly: its key is found, no other key is, and looking for another key panics if and only if the
value is empty or starts with 254 or 255, and fewer than four bytes follow its first byte (the end marker and the spare capacity
of the slice included). -/
theorem C73_one_exact (sp sp' k v k' : Bytes) (hk : k.length < 2 ^ 32) (hv : v.length < 2 ^ 32) :
    ∃ s, zmSet zmNew sp k v = some s ∧
      ((∃ n, zmLookup s sp' k' = some (n, true)) ↔ k' = k) ∧
      (zmLookup s sp' k' = none ↔ k' ≠ k ∧ (∀ b, v.head? = some b → 254 ≤ b.toNat) ∧ v.length + sp'.length < 4) := by
  obtain ⟨S, hS⟩ : ∃ S, S = (1 : UInt8) :: (encZmLen k.length ++ k ++ (encZmLen v.length ++ v) ++ [255]) := ⟨_, rfl⟩
  refine ⟨S, by rw [set_one sp k v hk hv, hS], ?_⟩
  obtain ⟨b, w, hw, hb⟩ : ∃ b w, v ++ [255] = b :: w ∧ ((∀ b, v.head? = some b → 254 ≤ b.toNat) ↔ 254 ≤ b.toNat) := by
    cases v with
    | nil => exact ⟨255, [], rfl, by simp⟩
    | cons b v => exact ⟨b, v ++ [255], rfl, by simp⟩
  have hwl : w.length = v.length := by simpa using (congrArg List.length hw).symm
  have e0 : S = [1] ++ (encZmLen k.length ++ (k ++ (encZmLen v.length ++ v) ++ [255])) := by simp [hS]
  have a0 : zmLen S sp' 1 = some (k.length, ([1] ++ encZmLen k.length).length) := by rw [e0]; exact zmLen_at hk rfl
  have a1 : slice (S ++ sp') (([1] ++ encZmLen k.length).length) (([1] ++ encZmLen k.length).length + k.length) = some k := by
    have : S ++ sp' = ([1] ++ encZmLen k.length) ++ k ++ ((encZmLen v.length ++ v) ++ [255] ++ sp') := by simp [hS]
    rw [this]; exact slice_mid rfl rfl
  have e2 : S = ([1] ++ encZmLen k.length ++ k) ++ (encZmLen v.length ++ (v ++ [255])) := by simp [hS]
  have a2 : zmLen S sp' (([1] ++ encZmLen k.length).length + k.length) =
      some (v.length, ([1] ++ encZmLen k.length ++ k ++ encZmLen v.length).length) := by
    rw [e2]; exact zmLen_at hv (by simp only [List.length_append])
  obtain ⟨P, hP⟩ : ∃ P, P = [1] ++ encZmLen k.length ++ k ++ encZmLen v.length := ⟨_, rfl⟩
  rw [← hP] at a2
  have e3 : S = P ++ b :: w := by rw [← hw, hP]; simp [hS]
  have hg : S[P.length]? = some b := by rw [e3]; exact get_mid rfl
  have hlen : S.length = P.length + v.length + 1 := by
    rw [e3]; simp only [List.length_append, List.length_cons]; omega
  obtain ⟨q, hq, hq'⟩ : ∃ q, S[1]? = some q ∧ q ≠ 255 := by
    rw [hS]
    unfold encZmLen
    split
    · refine ⟨UInt8.ofNat k.length, by simp, ?_⟩
      intro e
      have := congrArg UInt8.toNat e
      rw [ofNat_toNat (by omega)] at this
      have h255 : UInt8.toNat 255 = 255 := rfl
      omega
    · exact ⟨254, by simp, by decide⟩
  obtain ⟨f, hf2⟩ : ∃ f, S.length = f + 1 := ⟨S.length - 1, by omega⟩
  have past : ∀ i, S.length ≤ i → zmLookupLoop S sp' k' S.length i = some (S.length, false) := by
    intro i hi
    rw [hf2, zmLookupLoop, List.getElem?_eq_none (by omega), hf2]
  rw [hb]
  by_cases hne : k' = k
  · have : zmLookup S sp' k' = some (([1] ++ encZmLen k.length).length, true) := by
      unfold zmLookup
      rw [zmLookupLoop, hq]
      simp only [if_neg hq', a0, Option.bind_eq_bind, Option.bind_some, a1, if_pos hne]
      rfl
    rw [this]
    exact ⟨iff_of_true ⟨_, rfl⟩ hne, by simp [hne]⟩
  · have key : zmLookup S sp' k' = if 254 ≤ b.toNat ∧ v.length + sp'.length < 4 then none else some (S.length, false) := by
      unfold zmLookup
      rw [zmLookupLoop, hq]
      simp only [if_neg hq', a0, Option.bind_eq_bind, Option.bind_some, a1, if_neg hne, a2]
      by_cases h254 : 254 ≤ b.toNat
      · by_cases h4 : v.length + sp'.length < 4
        · have : zmLen S sp' P.length = none := by
            simp only [zmLen, hg, Option.bind_eq_bind, Option.bind_some, if_pos h254]
            rw [slice, if_neg (by rw [List.length_append, hlen]; omega)]; rfl
          rw [this, if_pos ⟨h254, h4⟩]; rfl
        · have : ∃ x, zmLen S sp' P.length = some (x, P.length + 5) := by
            simp only [zmLen, hg, Option.bind_eq_bind, Option.bind_some, if_pos h254]
            rw [slice, if_pos (by rw [List.length_append, hlen]; omega)]
            exact ⟨_, rfl⟩
          obtain ⟨x, this⟩ := this
          rw [this, if_neg (fun h => h4 h.2)]
          simp only [Option.bind_some]
          exact past _ (by omega)
      · have : zmLen S sp' P.length = some (b.toNat, P.length + 1) := by
          simp only [zmLen, hg, Option.bind_eq_bind, Option.bind_some, if_neg h254]; rfl
        rw [this, if_neg (fun h => h254 h.1)]
        simp only [Option.bind_some]
        exact past _ (by omega)
    rw [key]
    refine ⟨iff_of_false ?_ hne, ?_⟩
    · rintro ⟨n, h⟩
      split at h <;> simp at h
    · simp only [ne_eq, hne, not_false_eq_true, true_and]
      split <;> simp_all

/-- All three happen. -/
example : ∃ s, zmSet zmNew [] b!"a" [] = some s ∧ (∃ n, zmLookup s [] b!"a" = some (n, true)) ∧ zmLookup s [] b!"b" = none ∧
    ∃ n, zmLookup s [0, 0, 0, 0] b!"b" = some (n, false) :=
  ⟨[1, 1, 97, 0, 255], by decide, ⟨2, by decide⟩, by decide, ⟨5, by decide⟩⟩

/-- C125, exactly: where `Set` does not panic it makes a (nonempty) map longer by nothing if the key is found, and otherwise by one
byte less than `Len` says; so never by what `Len` says. -/
theorem C125_exact (s spare k v s' : Bytes) (hs : s ≠ []) (h : zmSet s spare k v = some s') :
    ∃ n found, zmLookup s spare k = some (n, found) ∧
      s'.length = s.length + (if found then 0 else zmEntryLen k v - 1) ∧ s'.length ≠ s.length + zmEntryLen k v := by
  rcases hl : zmLookup s spare k with _ | ⟨n, found⟩
  · simp [zmSet, hl] at h
  have hpos : 2 ≤ zmEntryLen k v := by unfold zmEntryLen; split <;> split <;> omega
  refine ⟨n, found, rfl, ?_⟩
  cases found with
  | true =>
    simp only [zmSet, hl, Option.bind_eq_bind, Option.bind_some, if_true, Option.pure_def, Option.some.injEq] at h
    subst h
    simp; omega
  | false =>
    have := C125_violated s spare k v s' n hs hl h
    simp only [Bool.false_eq_true, if_false]
    omega

example : zmSet zmNew [] b!"a" b!"v" = some [1, 1, 97, 1, 118, 255] ∧ zmSet [1, 1, 97, 1, 118, 255] [] b!"a" b!"w" = some [1, 1, 97, 1, 118, 255] := by
  decide

end Verif.Rdb

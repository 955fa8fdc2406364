import Verif.Rdb.PropsLoad
import Mathlib.Data.List.Perm.Subperm
import Mathlib.Data.List.Nodup

/-!
# C68, exactly, for plain lists, hashes and sorted sets

A list must read the same backwards, a hash is never right, and a sorted set must come out the same when members and
scores are swapped.
-/

namespace Verif.Rdb

open Verif.Resp

/-- C68, exactly, for lists in the plain encoding: the command recreates the list just when the list reads the same
backwards. -/
theorem C68_exact_list (now : Int) (d : SDb) (key : Bytes) (hk : d.val key = none) (l : LenEnc) (hl : l.Supported) (vs : List StrEnc)
    (hs : ∀ v ∈ vs, v.Supported) (hv : Val.Valid (.list l vs)) (ps : List Piece) (rest : Bytes) (r : Rd)
    (h : Holds (Val.pieces (.list l vs) ++ ps) rest r) :
    ∃ args r', loadObj idOrd 0 1 key r = (.ok (.cmd args), r') ∧
      ((exec now d args).val key = some (Val.data (.list l vs)).live ↔ (vs.map (·.value)).reverse = vs.map (·.value)) := by
  obtain ⟨args, r', h1, h2⟩ := C68_violated_list now d key hk l hl vs hs hv ps rest r h
  refine ⟨args, r', h1, ?_⟩
  rw [h2]
  simp [Val.data, Data.live]

/-- C68, how it fails for hashes: no hash in the plain encoding is recreated, whatever its fields are: the key becomes a
sorted set or nothing. -/
theorem C68_violated_hash_any (now : Int) (d : SDb) (key : Bytes) (hk : d.val key = none) (l : LenEnc) (hl : l.Supported)
    (vs : List (StrEnc × StrEnc)) (hs : ∀ v ∈ vs, v.1.Supported ∧ v.2.Supported) (hv : Val.Valid (.hash l vs))
    (ps : List Piece) (rest : Bytes) (r : Rd) (h : Holds (Val.pieces (.hash l vs) ++ ps) rest r) :
    ∃ args r', loadObj idOrd 0 4 key r = (.ok (.cmd args), r') ∧
      ((exec now d args).val key = none ∨ ∃ m, (exec now d args).val key = some (.zset m)) ∧
      (exec now d args).val key ≠ some (Val.data (.hash l vs)).live := by
  obtain ⟨v1, v2, v3⟩ := hv
  simp only [Val.pieces, List.append_assoc] at h
  obtain ⟨r1, h1, h⟩ := loadLen_at hl v2 h
  obtain ⟨r2, h2, h⟩ := loadPairs_at hs v3 h
  refine ⟨b!"zAdd" :: key :: vs.flatMap (fun p => [p.1.value, p.2.value]), r2, by simp [loadObj, h1, h2], ?_⟩
  have hlo : lower b!"zAdd" = b!"zadd" := by decide
  have key1 : (exec now d (b!"zAdd" :: key :: vs.flatMap (fun p => [p.1.value, p.2.value]))).val key = none ∨
      ∃ m, (exec now d (b!"zAdd" :: key :: vs.flatMap (fun p => [p.1.value, p.2.value]))).val key = some (.zset m) := by
    generalize vs.flatMap (fun p => [p.1.value, p.2.value]) = as
    simp only [exec, hlo]
    rw [if_neg (by decide), if_neg (by decide), if_neg (by decide), if_neg (by decide), if_neg (by decide), if_pos trivial]
    cases as with
    | nil => exact .inl hk
    | cons a as =>
      simp only
      split
      · simp only [hk]
        split
        · exact .inr ⟨_, by simp [upd]; rfl⟩
        · exact .inl hk
      · exact .inl hk
  refine ⟨key1, ?_⟩
  rcases key1 with h | ⟨m, h⟩ <;> rw [h] <;> simp [Val.data, Data.live]

example : ∃ args r', loadObj idOrd 0 1 b!"k" (file (bytes (Val.pieces (.list .b6 [.raw .b6 b!"a", .raw .b6 b!"b", .raw .b6 b!"a"]) ++ []) ++ [])) =
      (.ok (.cmd args), r') ∧ (exec 5 .empty args).val b!"k" = some (.list [b!"a", b!"b", b!"a"]) := by
  obtain ⟨args, r', h1, h2⟩ := C68_exact_list 5 .empty b!"k" rfl .b6 (.inl rfl) [.raw .b6 b!"a", .raw .b6 b!"b", .raw .b6 b!"a"]
    (by simp [StrEnc.Supported, LenEnc.Supported]) (by simp [Val.Valid, StrEnc.Valid, LenEnc.limit]) [] [] _ (holds_small _ _ (by decide +kernel))
  exact ⟨args, r', h1, h2.2 (by decide)⟩

/-- A hash whose fields are numbers becomes a sorted set. -/
example : ∃ args r', loadObj idOrd 0 4 b!"k" (file (bytes (Val.pieces (.hash .b6 [(.raw .b6 b!"1", .raw .b6 b!"b")]) ++ []) ++ [])) =
      (.ok (.cmd args), r') ∧ (exec 5 .empty args).val b!"k" ≠ some (.hash (upd (fun _ => none) b!"1" (some b!"b"))) := by
  obtain ⟨args, r', h1, _, h2⟩ := C68_violated_hash_any 5 .empty b!"k" rfl .b6 (.inl rfl) [(.raw .b6 b!"1", .raw .b6 b!"b")]
    (by simp [StrEnc.Supported, LenEnc.Supported]) (by simp [Val.Valid, StrEnc.Valid, LenEnc.limit]) [] [] _ (holds_small _ _ (by decide +kernel))
  exact ⟨args, r', h1, h2⟩

/-! ## Sorted sets -/

theorem scoreAll_all {l : List (Bytes × Bytes)} {m m' : Bytes → Option F64} (h : scoreAll m l = some m') :
    ∀ p ∈ l, (parseFloat p.1).isSome := by
  induction l generalizing m with
  | nil => simp
  | cons a l ih =>
    obtain ⟨s, v⟩ := a
    simp only [scoreAll] at h
    cases hp : parseFloat s with
    | none => rw [hp] at h; cases h
    | some x =>
      rw [hp] at h
      intro p hm
      rcases List.mem_cons.1 hm with rfl | hm
      · simp [hp]
      · exact ih h p hm

/-- Whatever is found was put in. -/
theorem scoreAll_from {l : List (Bytes × Bytes)} {m m' : Bytes → Option F64} (h : scoreAll m l = some m') {k : Bytes} {x : F64}
    (hk : m' k = some x) : m k = some x ∨ ∃ p ∈ l, p.2 = k ∧ parseFloat p.1 = some x := by
  induction l generalizing m with
  | nil => simp only [scoreAll, Option.some.injEq] at h; subst h; exact .inl hk
  | cons a l ih =>
    obtain ⟨s, v⟩ := a
    simp only [scoreAll] at h
    cases hp : parseFloat s with
    | none => rw [hp] at h; cases h
    | some y =>
      rw [hp] at h
      rcases ih h with h | ⟨p, h1, h2⟩
      · by_cases e : k = v
        · subst e
          simp only [upd_same, Option.some.injEq] at h
          exact .inr ⟨_, List.mem_cons_self, rfl, h ▸ hp⟩
        · rw [upd_other _ _ _ _ e] at h
          exact .inl h
      · exact .inr ⟨p, List.mem_cons_of_mem _ h1, h2⟩

/-- With members all different, and all scores numbers, everything put in is found. -/
theorem scoreAll_nodup {l : List (Bytes × Bytes)} (hn : (l.map (·.2)).Nodup) (hp : ∀ p ∈ l, (parseFloat p.1).isSome)
    (m : Bytes → Option F64) :
    ∃ m', scoreAll m l = some m' ∧ (∀ p ∈ l, m' p.2 = parseFloat p.1) ∧ ∀ k, k ∉ l.map (·.2) → m' k = m k := by
  induction l generalizing m with
  | nil => exact ⟨m, rfl, by simp, fun _ _ => rfl⟩
  | cons a l ih =>
    obtain ⟨s, v⟩ := a
    simp only [List.map_cons, List.nodup_cons] at hn
    obtain ⟨x, hx⟩ := Option.isSome_iff_exists.1 (hp (s, v) List.mem_cons_self)
    simp only at hx
    obtain ⟨m', h1, h2, h3⟩ := ih hn.2 (fun p h => hp p (List.mem_cons_of_mem _ h)) (upd m v (some x))
    refine ⟨m', by simp only [scoreAll, hx]; exact h1, ?_, ?_⟩
    · intro p hm
      rcases List.mem_cons.1 hm with rfl | hm
      · rw [h3 _ hn.1, upd_same, hx]
      · exact h2 p hm
    · intro k hk
      simp only [List.map_cons, List.mem_cons, not_or] at hk
      rw [h3 k hk.2, upd_other _ _ _ _ hk.1]

/-- The score of a member in a list of members with scores, all members different. -/
theorem find_nodup {l : List (Bytes × F64)} (hn : (l.map (·.1)).Nodup) (k : Bytes) (x : F64) :
    (l.reverse.find? (·.1 = k)).map (·.2) = some x ↔ (k, x) ∈ l := by
  constructor
  · intro h
    obtain ⟨p, hp, rfl⟩ := Option.map_eq_some_iff.1 h
    have h1 := List.mem_of_find?_eq_some hp
    have h2 := List.find?_some hp
    simp only [decide_eq_true_eq] at h2
    subst h2
    exact List.mem_reverse.1 h1
  · intro h
    cases hf : l.reverse.find? (·.1 = k) with
    | none =>
      have := List.find?_eq_none.1 hf (k, x) (List.mem_reverse.2 h)
      simp at this
    | some p =>
      have h1 := List.mem_reverse.1 (List.mem_of_find?_eq_some hf)
      have h2 := List.find?_some hf
      simp only [decide_eq_true_eq] at h2
      have : p = (k, x) := List.inj_on_of_nodup_map hn h1 h (by simpa using h2)
      simp [this]

/-- The server's answer to members and scores the wrong way round. -/
theorem swapped_right (d : List (Bytes × F64)) (hn : (d.map (·.1)).Nodup) :
    scoreAll (fun _ => none) (d.map fun p => (p.1, formatFloat p.2)) = some (fun k => (d.reverse.find? (·.1 = k)).map (·.2)) ↔
      ∀ p ∈ d, ∃ q ∈ d, formatFloat q.2 = p.1 ∧ parseFloat q.1 = some p.2 := by
  constructor
  · intro h p hp
    rcases scoreAll_from h ((find_nodup hn p.1 p.2).2 hp) with h | ⟨q, hq, h1, h2⟩
    · cases h
    · obtain ⟨r, hr, rfl⟩ := List.mem_map.1 hq
      exact ⟨r, hr, h1, h2⟩
  · intro h
    have hsub : d.map (·.1) ⊆ d.map (fun p => formatFloat p.2) := by
      intro k hk
      obtain ⟨p, hp, rfl⟩ := List.mem_map.1 hk
      obtain ⟨q, hq, h1, _⟩ := h p hp
      exact List.mem_map.2 ⟨q, hq, h1⟩
    have hperm := (List.subperm_of_subset hn hsub).perm_of_length_le (by simp)
    have hn2 := hperm.nodup_iff.1 hn
    have hback : ∀ q ∈ d, ∃ p ∈ d, formatFloat q.2 = p.1 ∧ parseFloat q.1 = some p.2 := by
      intro q hq
      obtain ⟨p, hp, e⟩ := List.mem_map.1 (hperm.mem_iff.2 (List.mem_map.2 ⟨q, hq, rfl⟩))
      obtain ⟨q', hq', h1, h2⟩ := h p hp
      have : q' = q := List.inj_on_of_nodup_map hn2 hq' hq (h1.trans e)
      exact ⟨p, hp, e.symm, this ▸ h2⟩
    obtain ⟨m', h1, h2, h3⟩ := scoreAll_nodup (l := d.map fun p => (p.1, formatFloat p.2))
      (by simpa [List.map_map, Function.comp_def] using hn2)
      (by
        intro p hp
        obtain ⟨q, hq, rfl⟩ := List.mem_map.1 hp
        obtain ⟨_, _, _, e⟩ := hback q hq
        simp [e]) (fun _ => none)
    rw [h1]
    congr 1
    funext k
    by_cases hk : k ∈ d.map (·.1)
    · obtain ⟨p, hp, rfl⟩ := List.mem_map.1 hk
      obtain ⟨q, hq, e1, e2⟩ := h p hp
      have := h2 _ (List.mem_map.2 ⟨q, hq, rfl⟩)
      simp only [e1, e2] at this
      rw [this, (find_nodup hn p.1 p.2).2 hp]
    · rw [h3 k (by
        rw [List.map_map]
        exact fun hm => hk (hperm.mem_iff.2 hm))]
      cases hf : (d.reverse.find? (·.1 = k)).map (·.2) with
      | none => rfl
      | some x => exact absurd (List.mem_map.2 ⟨_, (find_nodup hn k x).1 hf, rfl⟩) hk

/-- C68, exactly, for sorted sets in the text encoding, members all different: the command recreates the sorted set just
when swapping members and scores gives the same set: every member with its score is some member's score, written
out, with that member, read as a number. -/
theorem C68_exact_zset (now : Int) (d : SDb) (key : Bytes) (hk : d.val key = none) (l : LenEnc) (hl : l.Supported)
    (vs : List (StrEnc × Bytes)) (hs : ∀ v ∈ vs, v.1.Supported) (hv : Val.Valid (.zset l vs))
    (hn : (vs.map (·.1.value)).Nodup) (ps : List Piece) (rest : Bytes) (r : Rd)
    (h : Holds (Val.pieces (.zset l vs) ++ ps) rest r) :
    ∃ args r', loadObj idOrd 0 3 key r = (.ok (.cmd args), r') ∧
      ((exec now d args).val key = some (Val.data (.zset l vs)).live ↔
        ∀ p ∈ vs, ∃ q ∈ vs, ∃ x y, parseFloat p.2 = some x ∧ parseFloat q.2 = some y ∧
          formatFloat y = p.1.value ∧ parseFloat q.1.value = some x) := by
  obtain ⟨v1, v2, v3⟩ := hv
  simp only [Val.pieces, List.append_assoc] at h
  obtain ⟨r1, h1, h⟩ := loadLen_at hl v2 h
  obtain ⟨r2, h2, h⟩ := loadScored_at hs v3 h
  refine ⟨b!"zAdd" :: key :: vs.flatMap (fun p => [p.1.value, formatFloat ((parseFloat p.2).getD F64.nan)]), r2, by simp [loadObj, h1, h2], ?_⟩
  have hlo : lower b!"zAdd" = b!"zadd" := by decide
  have hp := pairs_pairs (vs.map fun p => (p.1.value, formatFloat ((parseFloat p.2).getD F64.nan)))
  have he := flat_even (vs.map fun p => (p.1.value, formatFloat ((parseFloat p.2).getD F64.nan)))
  simp only [List.flatMap_map] at hp he
  have hsw := swapped_right (vs.map fun p => (p.1.value, (parseFloat p.2).getD F64.nan)) (by simpa [List.map_map, Function.comp_def] using hn)
  rw [List.map_map] at hsw
  simp only [Function.comp_def] at hsw
  have hsp : (∀ p ∈ vs.map (fun p => (p.1.value, (parseFloat p.2).getD F64.nan)), ∃ q ∈ vs.map (fun p => (p.1.value, (parseFloat p.2).getD F64.nan)),
      formatFloat q.2 = p.1 ∧ parseFloat q.1 = some p.2) ↔
      ∀ p ∈ vs, ∃ q ∈ vs, ∃ x y, parseFloat p.2 = some x ∧ parseFloat q.2 = some y ∧
          formatFloat y = p.1.value ∧ parseFloat q.1.value = some x := by
    have hsome : ∀ p ∈ vs, ∃ x, parseFloat p.2 = some x := fun p hp => Option.isSome_iff_exists.1 (v3 p hp).2.2
    constructor
    · intro h p hp
      obtain ⟨q', hq', e1, e2⟩ := h _ (List.mem_map.2 ⟨p, hp, rfl⟩)
      obtain ⟨q, hq, rfl⟩ := List.mem_map.1 hq'
      obtain ⟨x, hx⟩ := hsome p hp
      obtain ⟨y, hy⟩ := hsome q hq
      simp only [hx, hy, Option.getD_some] at e1 e2
      exact ⟨q, hq, x, y, hx, hy, e1, e2⟩
    · intro h p' hp'
      obtain ⟨p, hp, rfl⟩ := List.mem_map.1 hp'
      obtain ⟨q, hq, x, y, hx, hy, e1, e2⟩ := h p hp
      exact ⟨_, List.mem_map.2 ⟨q, hq, rfl⟩, by simp only [hy, Option.getD_some]; exact e1, by simp only [hx, Option.getD_some]; exact e2⟩
  rw [← hsp, ← hsw]
  cases vs with
  | nil => exact absurd rfl v1
  | cons v vs =>
    simp only [List.flatMap_cons, List.cons_append, List.nil_append] at hp he
    simp only [List.flatMap_cons, List.cons_append, List.nil_append, exec, hlo]
    rw [if_neg (by decide), if_neg (by decide), if_neg (by decide), if_neg (by decide), if_neg (by decide), if_pos trivial, if_pos he]
    simp only [hk, hp, Val.data, Data.live]
    cases scoreAll (fun _ => none) ((v :: vs).map fun p => (p.1.value, formatFloat ((parseFloat p.2).getD F64.nan))) with
    | none => simp [hk]
    | some m => simp [upd]

/-- The sorted set with 1 at 2 and 2 at 1 comes out right. -/
example : ∃ args r', loadObj idOrd 0 3 b!"k" (file (bytes (Val.pieces (.zset .b6 [(.raw .b6 b!"1", b!"2"), (.raw .b6 b!"2", b!"1")]) ++ []) ++ [])) =
      (.ok (.cmd args), r') ∧ (exec 5 .empty args).val b!"k" =
        some (Val.data (.zset .b6 [(.raw .b6 b!"1", b!"2"), (.raw .b6 b!"2", b!"1")])).live := by
  obtain ⟨args, r', h1, h2⟩ := C68_exact_zset 5 .empty b!"k" rfl .b6 (.inl rfl) [(.raw .b6 b!"1", b!"2"), (.raw .b6 b!"2", b!"1")]
    (by simp [StrEnc.Supported, LenEnc.Supported])
    ⟨by simp, by decide, by simp [StrEnc.Valid, LenEnc.limit]; decide +kernel⟩ (by decide) [] [] _ (holds_small _ _ (by decide +kernel))
  refine ⟨args, r', h1, h2.2 ?_⟩
  obtain ⟨x, hx⟩ := Option.isSome_iff_exists.1 (show (parseFloat b!"1").isSome by decide +kernel)
  obtain ⟨y, hy⟩ := Option.isSome_iff_exists.1 (show (parseFloat b!"2").isSome by decide +kernel)
  have fx : (parseFloat b!"1").map formatFloat = some b!"1" := by decide +kernel
  have fy : (parseFloat b!"2").map formatFloat = some b!"2" := by decide +kernel
  rw [hx] at fx
  rw [hy] at fy
  simp only [Option.map_some, Option.some.injEq] at fx fy
  intro p hp
  simp only [List.mem_cons, List.not_mem_nil, or_false] at hp
  rcases hp with rfl | rfl
  · exact ⟨_, List.mem_cons_of_mem _ List.mem_cons_self, y, x, hy, hx, fx, hy⟩
  · exact ⟨_, List.mem_cons_self, x, y, hx, hy, fy, hx⟩

end Verif.Rdb

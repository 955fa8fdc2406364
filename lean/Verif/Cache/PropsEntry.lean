import Verif.Cache.EntryModel
/-!
# C128: list entries
-/
namespace Verif.Entry

/-- C128 is false of the code: after an entry was copied, appending to the copy can change the last element of the
original (capacities as Go chooses them: 1, 2, 4). -/
theorem C128_violated : ∃ l : List Op, (run St.new l).val 0 = [b!"a", b!"b", b!"c", b!"e"] ∧
    rrun (fun _ => []) l 0 = [b!"a", b!"b", b!"c", b!"d"] :=
  ⟨[.tail 0 b!"a" 0, .tail 0 b!"b" 0, .tail 0 b!"c" 1, .copy 0 1, .tail 0 b!"d" 0, .tail 1 b!"e" 0], by decide +kernel, by decide +kernel⟩

/-- No `AppendTail` on an entry that was copied or is a copy, until `AppendHead` has given it an array of its own; `t` says
for which entries this is so. -/
def Safe : (Nat → Bool) → List Op → Prop
  | _, [] => True
  | t, .tail i _ _ :: l => t i = false ∧ Safe t l
  | t, .head i _ _ :: l => Safe (fun j => if j = i then false else t j) l
  | t, .copy i j :: l => Safe (fun k => k == i || k == j || t k) l

/-- Slices lie inside their arrays; entries that were not copied have arrays of their own. -/
structure Inv (st : St) (t : Nat → Bool) : Prop where
  fit : ∀ i, (st.ent i).len ≤ (st.ent i).cap ∧ (st.ent i).cap ≤ (st.heap.getD (st.ent i).arr []).length
  own : ∀ i, t i = false → ∀ j, j ≠ i → 0 < (st.ent i).cap → 0 < (st.ent j).cap → (st.ent i).arr ≠ (st.ent j).arr

theorem inv_new : Inv St.new (fun _ => false) := ⟨fun _ => ⟨Nat.le_refl _, Nat.zero_le _⟩, fun _ _ _ _ h => absurd h (Nat.lt_irrefl _)⟩

theorem arr_lt {heap : List (List Bytes)} {s : Slice} (h : s.cap ≤ (heap.getD s.arr []).length) (hc : 0 < s.cap) : s.arr < heap.length := by
  by_cases hl : s.arr < heap.length
  · exact hl
  · rw [List.getD_eq_getElem?_getD, List.getElem?_eq_none (by omega)] at h
    simp at h; omega

/-- A slice whose array is not touched keeps its elements. -/
theorem elems_keep {heap heap' : List (List Bytes)} {s : Slice} (h1 : s.len ≤ s.cap)
    (hk : 0 < s.cap → heap'.getD s.arr [] = heap.getD s.arr []) : elems heap' s = elems heap s := by
  unfold elems
  by_cases hc : 0 < s.cap
  · rw [hk hc]
  · have : s.len = 0 := by omega
    simp [this]

theorem getD_append_lt {heap : List (List Bytes)} {x : List (List Bytes)} {a : Nat} (h : a < heap.length) :
    (heap ++ x).getD a [] = heap.getD a [] := by
  rw [List.getD_eq_getElem?_getD, List.getD_eq_getElem?_getD, List.getElem?_append_left h]

theorem getD_append_new {heap : List (List Bytes)} {x : List Bytes} : (heap ++ [x]).getD heap.length [] = x := by
  simp [List.getD_eq_getElem?_getD]

theorem getD_set_ne {heap : List (List Bytes)} {a b : Nat} {x : List Bytes} (h : a ≠ b) : (heap.set a x).getD b [] = heap.getD b [] := by
  rw [List.getD_eq_getElem?_getD, List.getD_eq_getElem?_getD, List.getElem?_set_ne h]

theorem getD_set_eq {heap : List (List Bytes)} {a : Nat} {x : List Bytes} (h : a < heap.length) : (heap.set a x).getD a [] = x := by
  simp [List.getD_eq_getElem?_getD, h]

/-- What `append` gives: the new slice holds the elements, lies in its array, and is the old array or a new one. -/
theorem append_spec (heap : List (List Bytes)) (s : Slice) (vs : List Bytes) (extra : Nat) (h1 : s.len ≤ s.cap)
    (h2 : s.cap ≤ (heap.getD s.arr []).length) :
    elems (append heap s vs extra).1 (append heap s vs extra).2 = elems heap s ++ vs ∧
    (append heap s vs extra).2.len ≤ (append heap s vs extra).2.cap ∧
    (append heap s vs extra).2.cap ≤ ((append heap s vs extra).1.getD (append heap s vs extra).2.arr []).length ∧
    heap.length ≤ (append heap s vs extra).1.length ∧
    (∀ a, a < heap.length → (0 < s.cap → a ≠ s.arr) → (append heap s vs extra).1.getD a [] = heap.getD a []) ∧
    (0 < (append heap s vs extra).2.cap → (append heap s vs extra).2.arr = s.arr ∧ 0 < s.cap ∨ (append heap s vs extra).2.arr = heap.length) := by
  unfold append
  split
  · rename_i hc
    by_cases h0 : 0 < s.cap
    · have hl := arr_lt h2 h0
      refine ⟨?_, hc, ?_, by simp, ?_, fun h => .inl ⟨rfl, h0⟩⟩
      · unfold elems
        rw [getD_set_eq hl]
        have e1 : ((heap.getD s.arr []).take s.len).length = s.len := by rw [List.length_take]; omega
        rw [List.take_append_of_le_length (by simp only [List.length_append, e1]; omega)]
        rw [List.take_of_length_le (by simp only [List.length_append, e1]; omega)]
      · show s.cap ≤ _
        rw [getD_set_eq hl]
        simp only [List.length_append, List.length_take, List.length_drop]
        omega
      · intro a _ hne
        exact getD_set_ne (fun e => hne h0 e.symm)
    · have e0 : s.len = 0 := by omega
      have ev : vs = [] := List.length_eq_zero_iff.1 (by omega)
      subst ev
      have hx : heap.set s.arr ((heap.getD s.arr []).take s.len ++ [] ++ (heap.getD s.arr []).drop (s.len + List.length ([] : List Bytes))) = heap := by
        simp only [e0, List.take_zero, List.append_nil, List.nil_append, List.length_nil, Nat.add_zero, List.drop_zero]
        apply List.ext_getElem? 
        intro i
        rw [List.getElem?_set]
        split
        · rename_i he; subst he
          split
          · rename_i hl; simp [List.getD_eq_getElem?_getD, hl]
          · rename_i hl; rw [List.getElem?_eq_none (by omega)]
        · rfl
      rw [hx]
      refine ⟨by simp [elems], by simpa using h1, h2, Nat.le_refl _, fun _ _ _ => rfl, fun h => absurd h h0⟩
  · rename_i hc
    refine ⟨?_, by simp, ?_, by simp, fun a ha _ => getD_append_lt ha, fun _ => .inr rfl⟩
    · unfold elems
      simp only
      rw [getD_append_new]
      have e1 : ((heap.getD s.arr []).take s.len).length = s.len := by rw [List.length_take]; omega
      rw [List.take_append_of_le_length (by simp only [List.length_append, e1]; omega)]
      rw [List.take_of_length_le (by simp only [List.length_append, e1]; omega)]
    · simp only
      rw [getD_append_new]
      have e1 : (elems heap s).length = s.len := by unfold elems; rw [List.length_take]; omega
      simp only [List.length_append, List.length_replicate, e1]
      omega

/-- One step. -/
theorem step_spec {st : St} {t : Nat → Bool} (h : Inv st t) : ∀ (op : Op) (l : List Op), Safe t (op :: l) →
    (∃ t', Inv (step st op) t' ∧ Safe t' l) ∧ ∀ j, (step st op).val j = rstep st.val op j := by
  intro op l hs
  cases op with
  | tail i v extra =>
    obtain ⟨hi, hs⟩ := hs
    obtain ⟨a1, a2, a3, a4, a5, a6⟩ := append_spec st.heap (st.ent i) [v] extra (h.fit i).1 (h.fit i).2
    have keep : ∀ j, j ≠ i → 0 < (st.ent j).cap → (append st.heap (st.ent i) [v] extra).1.getD (st.ent j).arr [] = st.heap.getD (st.ent j).arr [] :=
      fun j hj hc => a5 _ (arr_lt (h.fit j).2 hc) (fun hci => (h.own i hi j hj hci hc).symm)
    refine ⟨⟨t, ⟨fun j => ?_, fun j hj k hk hcj hck => ?_⟩, hs⟩, fun j => ?_⟩
    · by_cases e : j = i
      · simp only [step, St.put, e, if_true]; exact ⟨a2, a3⟩
      · simp only [step, St.put, e, if_false]
        refine ⟨(h.fit j).1, ?_⟩
        by_cases hc : 0 < (st.ent j).cap
        · rw [keep j e hc]; exact (h.fit j).2
        · omega
    · simp only [step, St.put] at hcj hck ⊢
      have far : ∀ m, m ≠ i → 0 < (st.ent m).cap → 0 < (append st.heap (st.ent i) [v] extra).2.cap →
          (append st.heap (st.ent i) [v] extra).2.arr ≠ (st.ent m).arr := by
        intro m hm hc hca e
        rcases a6 hca with ⟨e1, hci⟩ | e1
        · exact h.own i hi m hm hci hc (e1.symm.trans e)
        · have := arr_lt (h.fit m).2 hc; omega
      by_cases ej : j = i
      · by_cases ek : k = i
        · exact absurd (ek.trans ej.symm) hk
        · simp only [ej, ek, if_true, if_false] at hcj hck ⊢
          exact far k ek hck hcj
      · by_cases ek : k = i
        · simp only [ej, ek, if_true, if_false] at hcj hck ⊢
          exact (far j ej hcj hck).symm
        · simp only [ej, ek, if_false] at hcj hck ⊢
          exact h.own j hj k hk hcj hck
    · by_cases e : j = i
      · simp only [St.val, step, St.put, rstep, e, if_true]; exact a1
      · simp only [St.val, step, St.put, rstep, e, if_false]
        exact elems_keep (h.fit j).1 (keep j e)
  | head i v extra =>
    obtain ⟨a1, a2, a3, a4, a5, a6⟩ := append_spec (st.heap ++ [[v]]) ⟨st.heap.length, 1, 1⟩ (st.val i) extra (Nat.le_refl _)
      (by simp only; rw [getD_append_new]; simp)
    have keep : ∀ j, 0 < (st.ent j).cap → (append (st.heap ++ [[v]]) ⟨st.heap.length, 1, 1⟩ (st.val i) extra).1.getD (st.ent j).arr [] =
        st.heap.getD (st.ent j).arr [] := by
      intro j hc
      have hl := arr_lt (h.fit j).2 hc
      rw [a5 _ (by simp; omega) (fun _ => by simp only; omega), getD_append_lt hl]
    refine ⟨⟨_, ⟨fun j => ?_, fun j hj k hk hcj hck => ?_⟩, hs⟩, fun j => ?_⟩
    · by_cases e : j = i
      · simp only [step, St.put, e, if_true]; exact ⟨a2, a3⟩
      · simp only [step, St.put, e, if_false]
        refine ⟨(h.fit j).1, ?_⟩
        by_cases hc : 0 < (st.ent j).cap
        · rw [keep j hc]; exact (h.fit j).2
        · omega
    · simp only [step, St.put] at hcj hck ⊢
      have far : ∀ m, 0 < (st.ent m).cap → 0 < (append (st.heap ++ [[v]]) ⟨st.heap.length, 1, 1⟩ (st.val i) extra).2.cap →
          (append (st.heap ++ [[v]]) ⟨st.heap.length, 1, 1⟩ (st.val i) extra).2.arr ≠ (st.ent m).arr := by
        intro m hc hca e
        have := arr_lt (h.fit m).2 hc
        rcases a6 hca with ⟨e1, _⟩ | e1
        · simp only at e1; omega
        · simp at e1; omega
      by_cases ej : j = i
      · by_cases ek : k = i
        · exact absurd (ek.trans ej.symm) hk
        · simp only [ej, ek, if_true, if_false] at hcj hck ⊢
          exact far k hck hcj
      · rw [if_neg ej] at hj
        by_cases ek : k = i
        · simp only [ej, ek, if_true, if_false] at hcj hck ⊢
          exact (far j hcj hck).symm
        · simp only [ej, ek, if_false] at hcj hck ⊢
          exact h.own j hj k hk hcj hck
    · by_cases e : j = i
      · simp only [St.val, step, St.put, rstep, e, if_true]
        rw [show elems st.heap (st.ent i) = st.val i from rfl, a1]
        unfold elems
        simp only
        rw [getD_append_new]
        simp
      · simp only [St.val, step, St.put, rstep, e, if_false]
        exact elems_keep (h.fit j).1 (keep j)
  | copy i k =>
    refine ⟨⟨_, ⟨fun j => ?_, fun j hj m hm hcj hcm => ?_⟩, hs⟩, fun j => ?_⟩
    · by_cases e : j = k <;> simp only [step, St.put, e, if_true, if_false]
      · exact h.fit i
      · exact h.fit j
    · simp only [Bool.or_eq_false_iff, beq_eq_false_iff_ne] at hj
      obtain ⟨⟨h1, h2⟩, h3⟩ := hj
      simp only [step, St.put, h2, if_false] at hcj hcm ⊢
      by_cases e : m = k
      · simp only [e, if_true] at hcm ⊢
        exact h.own j h3 i (Ne.symm h1) hcj hcm
      · simp only [e, if_false] at hcm ⊢
        exact h.own j h3 m hm hcj hcm
    · by_cases e : j = k <;> simp only [St.val, step, St.put, rstep, e, if_true, if_false]

/-- C128 as far as it holds: whatever capacities Go chooses, entries hold what plain lists would, if nobody appends at the tail of
an entry that was copied, or is a copy, before appending at its head. -/
theorem C128_safe_partial (l : List Op) (h : Safe (fun _ => false) l) (i : Nat) : (run St.new l).val i = rrun (fun _ => []) l i := by
  have : ∀ (l : List Op) (st : St) (t : Nat → Bool), Inv st t → Safe t l → (run st l).val = rrun st.val l := by
    intro l
    induction l with
    | nil => intro st t _ _; rfl
    | cons op l ih =>
      intro st t hi hs
      obtain ⟨⟨t', hi', hs'⟩, hv⟩ := step_spec hi op l hs
      rw [run, rrun, ih _ t' hi' hs', funext hv]
  have e := this l St.new _ inv_new h
  rw [e]
  congr 1

/-- Without copies there is nothing to ask. -/
theorem C128_no_copies_partial (l : List Op) (h : ∀ op ∈ l, ∀ i j, op ≠ .copy i j) (i : Nat) : (run St.new l).val i = rrun (fun _ => []) l i := by
  refine C128_safe_partial l ?_ i
  have : ∀ (l : List Op) (t : Nat → Bool), (∀ i, t i = false) → (∀ op ∈ l, ∀ i j, op ≠ .copy i j) → Safe t l := by
    intro l
    induction l with
    | nil => intros; trivial
    | cons op l ih =>
      intro t ht h
      have hl : ∀ op ∈ l, ∀ i j, op ≠ .copy i j := fun o ho => h o (List.mem_cons_of_mem _ ho)
      cases op with
      | tail i v e => exact ⟨ht i, ih t ht hl⟩
      | head i v e => exact ih _ (fun j => by by_cases hj : j = i <;> simp [hj, ht]) hl
      | copy i j => exact absurd rfl (h _ List.mem_cons_self i j)
  exact this l _ (fun _ => rfl) h

/-- A program of the kind `C128_safe_partial` speaks of, with a copy. -/
example : Safe (fun _ => false) [.tail 0 b!"a" 0, .tail 0 b!"b" 3, .copy 0 1, .head 1 b!"c" 2, .tail 1 b!"d" 0] ∧
    (run St.new [.tail 0 b!"a" 0, .tail 0 b!"b" 3, .copy 0 1, .head 1 b!"c" 2, .tail 1 b!"d" 0]).val 1 = [b!"c", b!"a", b!"b", b!"d"] := by
  refine ⟨?_, by decide +kernel⟩
  simp [Safe]

end Verif.Entry

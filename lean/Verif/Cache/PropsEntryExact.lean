import Verif.Cache.PropsEntry
/-!
# C128, exactly: one choice of capacities decides for all of them
-/
namespace Verif.Entry

/-- The same call, with other room to spare in a new array. -/
def Op.room (n : Nat) : Op → Op
  | .tail i v _ => .tail i v n
  | .head i v _ => .head i v n
  | .copy i j => .copy i j

/-- The same calls, whatever capacities `append` chooses. -/
def SameCalls (l l' : List Op) : Prop := l.map (Op.room 0) = l'.map (Op.room 0)

/-- Every call of the program leaves every entry with what a list of its own would hold. -/
def Right (l : List Op) : Prop := ∀ n i, (run St.new (l.take n)).val i = rrun (fun _ => []) (l.take n) i

/-- Two runs of the same calls: `a` with room to spare for the `rem` calls to come, `c` with any capacities. Entries that share
an array in `c` share one in `a`. -/
structure Sim (rem : Nat) (a c : St) : Prop where
  fitA : ∀ i, (a.ent i).len ≤ (a.ent i).cap ∧ (a.ent i).cap ≤ (a.heap.getD (a.ent i).arr []).length
  fitC : ∀ i, (c.ent i).len ≤ (c.ent i).cap ∧ (c.ent i).cap ≤ (c.heap.getD (c.ent i).arr []).length
  len : ∀ i, (a.ent i).len = (c.ent i).len
  pos : ∀ i, 0 < (c.ent i).cap → 0 < (c.ent i).len
  room : ∀ i, rem + (a.ent i).len ≤ (a.ent i).cap ∨ ((a.ent i).len = (a.ent i).cap ∧ (c.ent i).len = (c.ent i).cap)
  share : ∀ i j, 0 < (c.ent i).cap → 0 < (c.ent j).cap → (c.ent i).arr = (c.ent j).arr → (a.ent i).arr = (a.ent j).arr

/-- Appending in place writes one element of the array, seen by every slice of it that is long enough. -/
theorem append_in_place {heap : List (List Bytes)} {s t : Slice} {v : Bytes} {extra : Nat} (hc : s.len < s.cap)
    (h2 : s.cap ≤ (heap.getD s.arr []).length) (ht : t.arr = s.arr) :
    elems (append heap s [v] extra).1 t = (elems heap t).set s.len v := by
  have hl := arr_lt h2 (by omega)
  unfold append
  rw [if_pos (by simp; omega)]
  unfold elems
  simp only
  rw [ht, getD_set_eq hl]
  have : (heap.getD s.arr []).take s.len ++ [v] ++ (heap.getD s.arr []).drop (s.len + [v].length) = (heap.getD s.arr []).set s.len v := by
    rw [List.set_eq_take_append_cons_drop, if_pos (by omega)]
    simp
  rw [this, List.take_set]

/-- Appending in place leaves the slice where it is. -/
theorem append_slice_in {heap : List (List Bytes)} {s : Slice} {v : Bytes} {extra : Nat} (hc : s.len < s.cap) :
    (append heap s [v] extra).2 = ⟨s.arr, s.len + 1, s.cap⟩ := by
  unfold append
  rw [if_pos (by simp; omega)]
  simp

/-- Appending beyond the capacity takes a new array. -/
theorem append_slice_out {heap : List (List Bytes)} {s : Slice} {vs : List Bytes} {extra : Nat} (hc : s.cap < s.len + vs.length) :
    (append heap s vs extra).2 = ⟨heap.length, s.len + vs.length, s.len + vs.length + extra⟩ := by
  unfold append
  rw [if_neg (by omega)]

/-- `append` always makes the slice longer by what is appended. -/
theorem append_len (heap : List (List Bytes)) (s : Slice) (vs : List Bytes) (extra : Nat) :
    (append heap s vs extra).2.len = s.len + vs.length := by
  unfold append
  split <;> rfl

theorem val_length {st : St} {i : Nat} (h : (st.ent i).len ≤ (st.ent i).cap ∧ (st.ent i).cap ≤ (st.heap.getD (st.ent i).arr []).length) :
    (st.val i).length = (st.ent i).len := by
  unfold St.val elems
  rw [List.length_take]; omega

/-- Arrays after `append` are at least as long as before. -/
theorem append_heap_len (heap : List (List Bytes)) (s : Slice) (vs : List Bytes) (extra : Nat) (h1 : s.len ≤ s.cap)
    (h2 : s.cap ≤ (heap.getD s.arr []).length) {b : Nat} (hb : b < heap.length) :
    (heap.getD b []).length ≤ ((append heap s vs extra).1.getD b []).length := by
  unfold append
  split
  · rename_i hc
    by_cases hs : s.arr = b
    · subst hs
      simp only
      rw [getD_set_eq hb]
      simp only [List.length_append, List.length_take, List.length_drop]
      omega
    · simp only
      rw [getD_set_ne hs]
      exact Nat.le_refl _
  · simp only
    rw [getD_append_lt hb]
    exact Nat.le_refl _

/-- Slices stay inside their arrays. -/
theorem fit_step {st : St} (h : ∀ i, (st.ent i).len ≤ (st.ent i).cap ∧ (st.ent i).cap ≤ (st.heap.getD (st.ent i).arr []).length)
    (op : Op) : ∀ i, ((step st op).ent i).len ≤ ((step st op).ent i).cap ∧
      ((step st op).ent i).cap ≤ ((step st op).heap.getD ((step st op).ent i).arr []).length := by
  intro j
  cases op with
  | tail i v extra =>
    obtain ⟨_, a2, a3, _⟩ := append_spec st.heap (st.ent i) [v] extra (h i).1 (h i).2
    by_cases e : j = i
    · simp only [step, St.put, e, if_true]; exact ⟨a2, a3⟩
    · simp only [step, St.put, e, if_false]
      refine ⟨(h j).1, ?_⟩
      by_cases hc : 0 < (st.ent j).cap
      · exact Nat.le_trans (h j).2 (append_heap_len _ _ _ _ (h i).1 (h i).2 (arr_lt (h j).2 hc))
      · omega
  | head i v extra =>
    have g1 : (1 : Nat) ≤ ((st.heap ++ [[v]]).getD st.heap.length []).length := by rw [getD_append_new]; simp
    obtain ⟨_, a2, a3, _⟩ := append_spec (st.heap ++ [[v]]) ⟨st.heap.length, 1, 1⟩ (st.val i) extra (Nat.le_refl _) g1
    by_cases e : j = i
    · simp only [step, St.put, e, if_true]; exact ⟨a2, a3⟩
    · simp only [step, St.put, e, if_false]
      refine ⟨(h j).1, ?_⟩
      by_cases hc : 0 < (st.ent j).cap
      · have hl := arr_lt (h j).2 hc
        have := append_heap_len (st.heap ++ [[v]]) ⟨st.heap.length, 1, 1⟩ (st.val i) extra (Nat.le_refl _) g1
          (b := (st.ent j).arr) (by simp; omega)
        rw [getD_append_lt hl] at this
        exact Nat.le_trans (h j).2 this
      · omega
  | copy i k =>
    by_cases e : j = k <;> simp only [step, St.put, e, if_true, if_false]
    · exact h i
    · exact h j

/-- Entries other than the one a call is made on are changed by it only if they share its array. -/
theorem keep_tail {st : St} (h : ∀ i, (st.ent i).len ≤ (st.ent i).cap ∧ (st.ent i).cap ≤ (st.heap.getD (st.ent i).arr []).length)
    {i j : Nat} (hj : j ≠ i) {v : Bytes} {extra : Nat}
    (hn : 0 < (st.ent j).cap → 0 < (st.ent i).cap → (st.ent i).len < (st.ent i).cap → (st.ent j).arr ≠ (st.ent i).arr) :
    (step st (.tail i v extra)).val j = st.val j := by
  simp only [St.val, step, St.put, hj, if_false]
  refine elems_keep (h j).1 fun hc => ?_
  have hl := arr_lt (h j).2 hc
  by_cases hin : (st.ent i).len < (st.ent i).cap
  · obtain ⟨_, _, _, _, a5, _⟩ := append_spec st.heap (st.ent i) [v] extra (h i).1 (h i).2
    exact a5 _ hl (fun hci => hn hc hci hin)
  · unfold append
    rw [if_neg (by simp; omega)]
    exact getD_append_lt hl

theorem keep_head {st : St} (h : ∀ i, (st.ent i).len ≤ (st.ent i).cap ∧ (st.ent i).cap ≤ (st.heap.getD (st.ent i).arr []).length)
    {i j : Nat} (hj : j ≠ i) {v : Bytes} {extra : Nat} : (step st (.head i v extra)).val j = st.val j := by
  obtain ⟨_, _, _, _, a5, _⟩ := append_spec (st.heap ++ [[v]]) ⟨st.heap.length, 1, 1⟩ (st.val i) extra (Nat.le_refl _)
    (by simp only; rw [getD_append_new]; simp)
  simp only [St.val, step, St.put, hj, if_false]
  refine elems_keep (h j).1 fun hc => ?_
  have hl := arr_lt (h j).2 hc
  have := a5 (st.ent j).arr (by simp; omega) (fun _ => by simp only; omega)
  rw [getD_append_lt hl] at this
  exact this

theorem own_tail {st : St} (h : ∀ i, (st.ent i).len ≤ (st.ent i).cap ∧ (st.ent i).cap ≤ (st.heap.getD (st.ent i).arr []).length)
    {i : Nat} {v : Bytes} {extra : Nat} : (step st (.tail i v extra)).val i = st.val i ++ [v] := by
  obtain ⟨a1, _⟩ := append_spec st.heap (st.ent i) [v] extra (h i).1 (h i).2
  simp only [St.val, step, St.put, if_true]
  exact a1

theorem own_head {st : St} {i : Nat} {v : Bytes} {extra : Nat} : (step st (.head i v extra)).val i = v :: st.val i := by
  obtain ⟨a1, _⟩ := append_spec (st.heap ++ [[v]]) ⟨st.heap.length, 1, 1⟩ (st.val i) extra (Nat.le_refl _)
    (by simp only; rw [getD_append_new]; simp)
  simp only [St.val, step, St.put, if_true]
  rw [show elems st.heap (st.ent i) = st.val i from rfl, a1]
  unfold elems
  simp only
  rw [getD_append_new]
  simp

/-- One call in both runs: if it does no harm in the run with room to spare, it does none in the other. -/
theorem sim_step {rem n : Nat} {a c : St} (h : Sim (rem + 1) a c) (hn : rem ≤ n) (hv : ∀ i, a.val i = c.val i) (op : Op)
    (ha : ∀ i, (step a (op.room n)).val i = rstep a.val op i) :
    Sim rem (step a (op.room n)) (step c op) ∧ ∀ i, (step a (op.room n)).val i = (step c op).val i := by
  have fA := fit_step h.fitA (op.room n)
  have fC := fit_step h.fitC op
  have hval : ∀ i, (step a (op.room n)).val i = (step c op).val i := by
    intro j
    cases op with
    | tail i v extra =>
      by_cases e : j = i
      · subst e
        rw [own_tail h.fitC, ← hv]; exact own_tail h.fitA
      · have hj := ha j
        simp only [rstep, e, if_false] at hj
        rw [hj, hv]
        by_cases hs : 0 < (c.ent j).cap ∧ 0 < (c.ent i).cap ∧ (c.ent i).len < (c.ent i).cap ∧ (c.ent j).arr = (c.ent i).arr
        · obtain ⟨s1, s2, s3, s4⟩ := hs
          have sa := h.share j i s1 s2 s4
          have hin : (a.ent i).len < (a.ent i).cap := by rcases h.room i with g | g <;> omega
          have e1 := append_in_place (v := v) (extra := n) (t := a.ent j) hin (h.fitA i).2 sa
          have e2 := append_in_place (v := v) (extra := extra) (t := c.ent j) s3 (h.fitC i).2 s4
          simp only [St.val, step, St.put, Op.room, e, if_false] at hj ⊢
          rw [e2]
          rw [e1] at hj
          have := hv j
          simp only [St.val] at this
          rw [← this, ← h.len i, hj]
        · exact (keep_tail h.fitC e (fun h1 h2 h3 h4 => hs ⟨h1, h2, h3, h4⟩)).symm
    | head i v extra =>
      by_cases e : j = i
      · subst e
        rw [own_head, ← hv]; exact own_head
      · rw [keep_head h.fitC e, ← hv]; exact keep_head h.fitA e
    | copy i k =>
      have := hv
      by_cases e : j = k
      · subst e
        simpa [St.val, step, St.put, Op.room] using hv i
      · simpa [St.val, step, St.put, Op.room, e] using hv j
  refine ⟨⟨fA, fC, ?_, ?_, ?_, ?_⟩, hval⟩
  · intro i
    rw [← val_length (fA i), ← val_length (fC i), hval]
  · intro j hc
    cases op with
    | tail i v extra =>
      by_cases e : j = i
      · simp only [step, St.put, e, if_true, append_len]; simp
      · simp only [step, St.put, e, if_false] at hc ⊢; exact h.pos j hc
    | head i v extra =>
      by_cases e : j = i
      · simp only [step, St.put, e, if_true, append_len]; omega
      · simp only [step, St.put, e, if_false] at hc ⊢; exact h.pos j hc
    | copy i k =>
      by_cases e : j = k
      · simp only [step, St.put, e, if_true] at hc ⊢; exact h.pos i hc
      · simp only [step, St.put, e, if_false] at hc ⊢; exact h.pos j hc
  · intro j
    cases op with
    | tail i v extra =>
      by_cases e : j = i
      · simp only [step, St.put, Op.room, e, if_true]
        rcases h.room i with g | ⟨g1, g2⟩
        · left
          rw [append_slice_in (by omega)]
          simp only; omega
        · left
          rw [append_slice_out (by simp; omega)]
          simp only [List.length_singleton]; omega
      · simp only [step, St.put, Op.room, e, if_false]
        rcases h.room j with g | g
        · left; omega
        · exact .inr g
    | head i v extra =>
      by_cases e : j = i
      · simp only [step, St.put, Op.room, e, if_true]
        by_cases h0 : a.val i = []
        · right
          rw [← hv, h0]
          simp [append]
        · left
          have : 0 < (a.val i).length := List.length_pos_iff.2 h0
          rw [append_slice_out (by simp only; omega)]
          simp only; omega
      · simp only [step, St.put, Op.room, e, if_false]
        rcases h.room j with g | g
        · left; omega
        · exact .inr g
    | copy i k =>
      have : ∀ m, rem + (a.ent m).len ≤ (a.ent m).cap ∨ ((a.ent m).len = (a.ent m).cap ∧ (c.ent m).len = (c.ent m).cap) := by
        intro m
        rcases h.room m with g | g
        · left; omega
        · exact .inr g
      by_cases e : j = k
      · simp only [step, St.put, Op.room, e, if_true]; exact this i
      · simp only [step, St.put, Op.room, e, if_false]; exact this j
  · intro j k hcj hck he
    cases op with
    | tail i v extra =>
      simp only [step, St.put, Op.room] at hcj hck he ⊢
      by_cases hin : (c.ent i).len < (c.ent i).cap
      · have hina : (a.ent i).len < (a.ent i).cap := by rcases h.room i with g | g <;> omega
        rw [append_slice_in hin] at hcj hck he
        rw [append_slice_in hina]
        have key : ∀ m, (if m = i then (⟨(a.ent i).arr, (a.ent i).len + 1, (a.ent i).cap⟩ : Slice) else a.ent m).arr = (a.ent m).arr := by
          intro m; by_cases e : m = i <;> simp [e]
        have keyc : ∀ m, (if m = i then (⟨(c.ent i).arr, (c.ent i).len + 1, (c.ent i).cap⟩ : Slice) else c.ent m).arr = (c.ent m).arr := by
          intro m; by_cases e : m = i <;> simp [e]
        have keyd : ∀ m, (if m = i then (⟨(c.ent i).arr, (c.ent i).len + 1, (c.ent i).cap⟩ : Slice) else c.ent m).cap = (c.ent m).cap := by
          intro m; by_cases e : m = i <;> simp [e]
        rw [keyd] at hcj hck
        rw [keyc, keyc] at he
        rw [key, key]
        exact h.share j k hcj hck he
      · rw [append_slice_out (by have := (h.fitC i).1; simp; omega)] at hcj hck he
        by_cases ej : j = i
        · by_cases ek : k = i
          · rw [ej, ek]
          · simp only [ej, ek, if_true, if_false] at hck he
            have := arr_lt (h.fitC k).2 hck
            omega
        · by_cases ek : k = i
          · simp only [ej, ek, if_true, if_false] at hcj he
            have := arr_lt (h.fitC j).2 hcj
            omega
          · simp only [ej, ek, if_false] at hcj hck he ⊢
            exact h.share j k hcj hck he
    | head i v extra =>
      simp only [step, St.put, Op.room] at hcj hck he ⊢
      have far : ∀ m, 0 < (c.ent m).cap → 0 < (append (c.heap ++ [[v]]) ⟨c.heap.length, 1, 1⟩ (c.val i) extra).2.cap →
          (append (c.heap ++ [[v]]) ⟨c.heap.length, 1, 1⟩ (c.val i) extra).2.arr ≠ (c.ent m).arr := by
        intro m hc hca e
        have := arr_lt (h.fitC m).2 hc
        obtain ⟨_, _, _, _, _, a6⟩ := append_spec (c.heap ++ [[v]]) ⟨c.heap.length, 1, 1⟩ (c.val i) extra (Nat.le_refl _)
          (by simp only; rw [getD_append_new]; simp)
        rcases a6 hca with ⟨e1, _⟩ | e1
        · simp only at e1; omega
        · simp at e1; omega
      by_cases ej : j = i
      · by_cases ek : k = i
        · rw [ej, ek]
        · simp only [ej, ek, if_true, if_false] at hcj hck he
          exact absurd he (far k hck hcj)
      · by_cases ek : k = i
        · simp only [ej, ek, if_true, if_false] at hcj hck he
          exact absurd he.symm (far j hcj hck)
        · simp only [ej, ek, if_false] at hcj hck he ⊢
          exact h.share j k hcj hck he
    | copy i m =>
      have : ∀ x, (if x = m then c.ent i else c.ent x) = c.ent (if x = m then i else x) := by intro x; split <;> rfl
      have ta : ∀ x, (if x = m then a.ent i else a.ent x) = a.ent (if x = m then i else x) := by intro x; split <;> rfl
      simp only [step, St.put, Op.room, this, ta] at hcj hck he ⊢
      exact h.share _ _ hcj hck he

theorem rstep_room (n : Nat) (f : Nat → List Bytes) (op : Op) : rstep f (op.room n) = rstep f op := by cases op <;> rfl

theorem rrun_same {l l' : List Op} (h : SameCalls l l') (f : Nat → List Bytes) : rrun f l = rrun f l' := by
  induction l generalizing l' f with
  | nil => cases l' with
    | nil => rfl
    | cons b l' => simp [SameCalls] at h
  | cons a l ih => cases l' with
    | nil => simp [SameCalls] at h
    | cons b l' =>
      simp only [SameCalls, List.map_cons, List.cons.injEq] at h
      rw [rrun, rrun, ih h.2, ← rstep_room 0 f a, h.1, rstep_room]

theorem room_room (m n : Nat) (op : Op) : (op.room m).room n = op.room n := by cases op <;> rfl

theorem sim_run (n : Nat) (l l' : List Op) (hs : SameCalls l l') (hn : l.length ≤ n) (a c : St) (h : Sim l.length a c)
    (hv : ∀ i, a.val i = c.val i)
    (ha : ∀ k i, (run a ((l.map (Op.room n)).take k)).val i = rrun a.val (l.take k) i) :
    ∀ k i, (run c (l'.take k)).val i = rrun a.val (l.take k) i := by
  induction l generalizing l' a c with
  | nil =>
    cases l' with
    | nil => intro k i; simpa [run, rrun] using (hv i).symm
    | cons b l' => simp [SameCalls] at hs
  | cons x l ih =>
    cases l' with
    | nil => simp [SameCalls] at hs
    | cons y l' =>
      simp only [SameCalls, List.map_cons, List.cons.injEq] at hs
      obtain ⟨hxy, hs⟩ := hs
      simp only [List.length_cons] at h hn
      have hx : x.room n = y.room n := by rw [← room_room 0 n x, hxy, room_room]
      have h1 := fun i => ha 1 i
      simp only [List.map_cons, List.take_succ_cons, List.take_zero, run, rrun] at h1
      have hy : ∀ i, (step a (y.room n)).val i = rstep a.val y i := by
        intro i
        rw [← hx, h1 i, ← rstep_room n, hx, rstep_room]
      obtain ⟨g1, g2⟩ := sim_step h (by omega) hv y hy
      intro k i
      cases k with
      | zero => simpa [run, rrun] using (hv i).symm
      | succ k =>
        simp only [List.take_succ_cons, run, rrun]
        have e : (step a (y.room n)).val = rstep a.val x := by rw [← hx]; exact funext h1
        rw [← e]
        refine ih l' hs (by omega) _ _ g1 g2 ?_ k i
        intro k i
        have := ha (k + 1) i
        simp only [List.map_cons, List.take_succ_cons, run, rrun] at this
        rw [hx] at this
        rw [this, e]

/-- C128, exactly: the calls of a program are right whatever capacities `append` chooses if and only if they are right when every
new array has room for all of them. -/
theorem C128_exact (l : List Op) : (∀ l', SameCalls l l' → Right l') ↔ Right (l.map (Op.room l.length)) := by
  constructor
  · intro h
    apply h
    simp only [SameCalls, List.map_map]
    exact List.map_congr_left fun op _ => (room_room _ _ _).symm
  · intro h l' hs n i
    have hm : ∀ k, SameCalls (l.take k) (l'.take k) := by
      intro k
      simp only [SameCalls] at hs ⊢
      rw [List.map_take, List.map_take, hs]
    rw [← rrun_same (hm n)]
    refine sim_run l.length l l' hs (Nat.le_refl _) St.new St.new ?_ (fun _ => rfl) ?_ n i
    · exact ⟨fun _ => ⟨Nat.le_refl _, Nat.zero_le _⟩, fun _ => ⟨Nat.le_refl _, Nat.zero_le _⟩, fun _ => rfl,
        fun _ h => absurd h (Nat.lt_irrefl _), fun _ => .inr ⟨rfl, rfl⟩, fun _ _ _ _ _ => rfl⟩
    · intro k i
      rw [h k i]
      have : SameCalls ((l.map (Op.room l.length)).take k) (l.take k) := by
        simp only [SameCalls, List.map_take, List.map_map]
        congr 1
        exact List.map_congr_left fun op _ => room_room _ _ _
      rw [rrun_same this]
      congr 1

/-- A program that is right whatever the capacities, though an entry that was copied is appended to at the tail: only one of the
two is.  It is not of the kind `C128_safe_partial` speaks of. -/
example : (∀ l', SameCalls [.tail 0 b!"a" 0, .copy 0 1, .tail 0 b!"b" 0, .tail 0 b!"c" 0] l' → Right l') ∧
    ¬ Safe (fun _ => false) [.tail 0 b!"a" 0, .copy 0 1, .tail 0 b!"b" 0, .tail 0 b!"c" 0] := by
  refine ⟨(C128_exact _).2 ?_, by simp [Safe]⟩
  intro n i
  match n, i with
  | 0, _ => rfl
  | 1, 0 => decide +kernel
  | 1, i + 1 => rfl
  | 2, 0 => decide +kernel
  | 2, 1 => decide +kernel
  | 2, i + 2 => rfl
  | 3, 0 => decide +kernel
  | 3, 1 => decide +kernel
  | 3, i + 2 => rfl
  | n + 4, 0 => rw [List.take_of_length_le (by simp)]; decide +kernel
  | n + 4, 1 => rw [List.take_of_length_le (by simp)]; decide +kernel
  | n + 4, i + 2 => rw [List.take_of_length_le (by simp)]; rfl

/-- With ample capacities four calls suffice to go wrong. -/
example : ¬ Right ([.tail 0 b!"a" 0, .copy 0 1, .tail 0 b!"b" 0, .tail 1 b!"c" 0].map (Op.room 4)) := by
  intro h
  exact absurd (h 4 0) (by decide +kernel)

end Verif.Entry

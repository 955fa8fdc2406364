import Verif.Conc.FullProg
import Verif.Cache.PropsCounter
import Verif.Conc.Lin
/-!
# Calls that do not conflict commute, and such a history can be put in the order of its times
-/
namespace Verif.Conc.Full
open Verif Verif.Conc

/-- One of the two calls may change a key that the other one looks at. -/
def Conflict (D : Bytes → Prop) (a b : Call) : Prop := ∃ k, (may D a k ∧ touches b k) ∨ (touches a k ∧ may D b k)

theorem Conflict.symm {D : Bytes → Prop} {a b : Call} (h : Conflict D a b) : Conflict D b a :=
  let ⟨k, h⟩ := h
  ⟨k, h.symm.imp And.symm And.symm⟩

theorem writes_touches {op : Call} {k : Bytes} (h : op.writes k = true) : touches op k := by
  intro ks hk
  cases op with
  | mSet kv | mSetNX kv =>
    cases hk
    simp only [Call.writes, List.any_eq_true, decide_eq_true_eq] at h
    obtain ⟨p, hp, rfl⟩ := h
    exact List.mem_map_of_mem hp
  | _ => simp [Call.writes, Call.keys] at h hk <;> subst hk <;> simp [h]

theorem may_touches {D : Bytes → Prop} {op : Call} {k : Bytes} (h : may D op k) : touches op k :=
  h.elim writes_touches (·.1)

theorem exec_untouched {c : Cache} {t : Int} {op : Call} {k : Bytes} (h : ¬ touches op k) : SameAt (exec c t op).1 c k := by
  have : ∃ ks, op.keys = some ks ∧ k ∉ ks := by
    refine Classical.byContradiction (fun hn => h (fun ks hk => ?_))
    exact Classical.byContradiction (fun h' => hn ⟨ks, hk, h'⟩)
  obtain ⟨ks, h1, h2⟩ := this
  exact exec_frame c t op ks k h1 h2

/-- A call leaves alone the keys it may not change. -/
theorem exec_same {D : Bytes → Prop} {c : Cache} {t : Int} {op : Call} {k : Bytes} (h : ¬ may D op k)
    (hD : D k → c.exp k = none) : SameAt (exec c t op).1 c k := by
  by_cases ht : touches op k
  · have hd : D k := Classical.byContradiction (fun hn => h (.inr ⟨ht, hn⟩))
    have hw : op.writes k = false := by
      cases hx : op.writes k with
      | false => rfl
      | true => exact absurd (.inl hx) h
    have := data_of_not_writes (t := t) hw (hD hd)
    exact ⟨this.1, this.2.trans (hD hd).symm⟩
  · exact exec_untouched ht

theorem exec_dead {D : Bytes → Prop} {c : Cache} {t : Int} {op : Call} (hp : Plain D op) (hD : ∀ k, D k → c.exp k = none) :
    ∀ k, D k → (exec c t op).1.exp k = none := by
  intro k hk
  refine exec_exp_none t op (hD k hk) ?_ ?_
  · rintro v n rfl; exact hp hk
  · rintro v n rfl; exact hp hk

theorem touches_congr {c d : Cache} {op : Call} (h : ∀ k, touches op k → SameAt c d k) (t : Int) :
    (exec c t op).2 = (exec d t op).2 ∧ ∀ k, touches op k → SameAt (exec c t op).1 (exec d t op).1 k :=
  exec_congr h t op (fun ks hk k hkk ks' hk' => by rw [hk] at hk'; cases hk'; exact hkk)

/-- Two calls that do not conflict can be swapped. -/
theorem swap {D : Bytes → Prop} {c : Cache} {s t : Int} {a b : Call} (hn : ¬ Conflict D a b) (ha : Plain D a) (hb : Plain D b)
    (hD : ∀ k, D k → c.exp k = none) :
    (exec (exec c s a).1 t b).2 = (exec c t b).2 ∧ (exec (exec c t b).1 s a).2 = (exec c s a).2 ∧
      (exec (exec c s a).1 t b).1 = (exec (exec c t b).1 s a).1 := by
  have hab : ∀ k, touches b k → ¬ may D a k := fun k h1 h2 => hn ⟨k, .inl ⟨h2, h1⟩⟩
  have hba : ∀ k, touches a k → ¬ may D b k := fun k h1 h2 => hn ⟨k, .inr ⟨h1, h2⟩⟩
  have eb := touches_congr (c := (exec c s a).1) (d := c) (op := b) (fun k hk => exec_same (hab k hk) (hD k)) t
  have ea := touches_congr (c := (exec c t b).1) (d := c) (op := a) (fun k hk => exec_same (hba k hk) (hD k)) s
  refine ⟨eb.1, ea.1, ?_⟩
  have key : ∀ k, SameAt (exec (exec c s a).1 t b).1 (exec (exec c t b).1 s a).1 k := by
    intro k
    by_cases h1 : may D a k
    · have hb' : ¬ touches b k := fun h => hab k h h1
      exact (exec_untouched hb').trans (ea.2 k (may_touches h1)).symm
    · by_cases h2 : may D b k
      · have ha' : ¬ touches a k := fun h => hba k h h2
        exact (eb.2 k (may_touches h2)).trans (exec_untouched ha').symm
      · have x1 := exec_same (t := t) (c := (exec c s a).1) h2 (exec_dead ha hD k)
        have x2 := exec_same (t := s) (c := c) h1 (hD k)
        have x3 := exec_same (t := s) (c := (exec c t b).1) h1 (exec_dead hb hD k)
        have x4 := exec_same (t := t) (c := c) h2 (hD k)
        exact (x1.trans x2).trans (x3.trans x4).symm
  exact Cache.ext' (fun k => (key k).1) (fun k => (key k).2)

/-- A call that was made: who, when, what, and the answer. -/
structure Entry where
  thread : Nat
  time : Int
  op : Call
  out : Out

/-- The calls with their times. -/
def hist (L : List Entry) : History := L.map (fun e => (e.time, e.op))
/-- The calls as the log of the machine has them. -/
def logged (L : List Entry) : List (Nat × Call × Out) := L.map (fun e => (e.thread, e.op, e.out))

/-- The answers in `L` are those of the sequential execution from `c`. -/
def Agrees (c : Cache) (L : List Entry) : Prop := outs c (hist L) = L.map (·.out)

/-- `L` can be read in this order, or `b` before `a` as well. -/
def Free2 (D : Bytes → Prop) (a b : Entry) : Prop := a.thread ≠ b.thread ∧ ¬ Conflict D a.op b.op

theorem to_front {D : Bytes → Prop} {c : Cache} {L : List Entry} {x : Entry} (hD : ∀ k, D k → c.exp k = none)
    (hp : ∀ e ∈ L, Plain D e.op) (hx : Plain D x.op) (hf : ∀ e ∈ L, Free2 D e x) (ha : Agrees c (L ++ [x])) :
    Agrees c (x :: L) ∧ run c (hist (x :: L)) = run c (hist (L ++ [x])) := by
  induction L generalizing c with
  | nil => exact ⟨ha, rfl⟩
  | cons e L ih =>
    have hpe := hp e (by simp)
    have hc : (exec c e.time e.op).2 = e.out ∧ Agrees (exec c e.time e.op).1 (L ++ [x]) := by
      simp only [Agrees, hist, List.cons_append, List.map_cons, outs, List.cons.injEq] at ha
      exact ha
    obtain ⟨i1, i2⟩ := ih (exec_dead hpe hD) (fun e he => hp e (by simp [he])) (fun e he => hf e (by simp [he])) hc.2
    have i1' : (exec (exec c e.time e.op).1 x.time x.op).2 = x.out ∧
        Agrees (exec (exec c e.time e.op).1 x.time x.op).1 L := by
      simp only [Agrees, hist, List.map_cons, outs, List.cons.injEq] at i1
      exact i1
    obtain ⟨s1, s2, s3⟩ := swap (s := e.time) (t := x.time) (hf e (by simp)).2 hpe hx hD
    constructor
    · simp only [Agrees, hist, List.map_cons, outs, List.cons.injEq]
      refine ⟨by rw [← s1]; exact i1'.1, by rw [s2]; exact hc.1, ?_⟩
      rw [← s3]
      exact i1'.2
    · rw [show run c (hist (e :: L ++ [x])) = run (exec c e.time e.op).1 (hist (L ++ [x])) from rfl, ← i2]
      simp only [hist, List.map_cons, run]
      rw [s3]

/-- Order of times. -/
def Sorted (L : List Entry) : Prop := L.Pairwise (fun a b => a.time ≤ b.time)

/-- `x` put behind everything that is not later. -/
def ins {α : Type} (key : α → Int) (x : α) : List α → List α
  | [] => [x]
  | e :: L => if key e ≤ key x then e :: ins key x L else x :: e :: L

/-- In the order of the keys; entries with one key keep their order. -/
def isort {α : Type} (key : α → Int) (L : List α) : List α := L.foldl (fun M x => ins key x M) []

theorem isort_snoc {α : Type} (key : α → Int) (L : List α) (x : α) : isort key (L ++ [x]) = ins key x (isort key L) := by
  simp [isort]

theorem ins_perm {α : Type} (key : α → Int) (x : α) (L : List α) : (ins key x L).Perm (L ++ [x]) := by
  induction L with
  | nil => exact .refl _
  | cons e L ih =>
    rw [ins]
    split
    · exact ih.cons e
    · exact (List.perm_append_singleton x (e :: L)).symm

theorem snoc_rec {α : Type} {P : List α → Prop} (h0 : P []) (h1 : ∀ L x, P L → P (L ++ [x])) (L : List α) : P L := by
  suffices ∀ R : List α, P R.reverse by simpa using this L.reverse
  intro R
  induction R with
  | nil => exact h0
  | cons x R ih => rw [List.reverse_cons]; exact h1 _ _ ih

theorem isort_perm {α : Type} (key : α → Int) (L : List α) : (isort key L).Perm L := by
  induction L using snoc_rec with
  | h0 => exact .refl _
  | h1 L x ih => rw [isort_snoc]; exact (ins_perm key x _).trans (ih.append_right _)

theorem ins_sorted {α : Type} (key : α → Int) (x : α) (L : List α) (h : L.Pairwise (fun a b => key a ≤ key b)) :
    (ins key x L).Pairwise (fun a b => key a ≤ key b) := by
  induction L with
  | nil => simp [ins]
  | cons e L ih =>
    obtain ⟨h1, h2⟩ := List.pairwise_cons.1 h
    rw [ins]
    split
    · rename_i ht
      refine List.pairwise_cons.2 ⟨fun y hy => ?_, ih h2⟩
      rcases List.mem_append.1 ((ins_perm key x L).mem_iff.1 hy) with hy | hy
      · exact h1 y hy
      · simp at hy; rw [hy]; exact ht
    · rename_i ht
      refine List.pairwise_cons.2 ⟨fun y hy => ?_, h⟩
      rcases List.mem_cons.1 hy with rfl | hy
      · omega
      · have := h1 y hy; omega

theorem isort_sorted {α : Type} (key : α → Int) (L : List α) : (isort key L).Pairwise (fun a b => key a ≤ key b) := by
  induction L using snoc_rec with
  | h0 => exact .nil
  | h1 L x ih => rw [isort_snoc]; exact ins_sorted key x _ ih

theorem ins_sublist {α : Type} (key : α → Int) (x : α) (L : List α) : L.Sublist (ins key x L) := by
  induction L with
  | nil => exact List.nil_sublist _
  | cons e L ih =>
    rw [ins]
    split
    · exact ih.cons_cons e
    · exact List.sublist_cons_self _ _

theorem ins_behind {α : Type} (key : α → Int) (x a : α) (L : List α) (h : L.Pairwise (fun a b => key a ≤ key b)) (ha : a ∈ L)
    (hk : key a ≤ key x) : [a, x].Sublist (ins key x L) := by
  induction L with
  | nil => cases ha
  | cons e L ih =>
    obtain ⟨h1, h2⟩ := List.pairwise_cons.1 h
    have hmem : ∀ M : List α, x ∈ ins key x M := fun M => (ins_perm key x M).mem_iff.2 (by simp)
    rw [ins]
    rcases List.mem_cons.1 ha with rfl | ha
    · rw [if_pos hk]
      exact (List.singleton_sublist.2 (hmem L)).cons_cons a
    · rw [if_pos (Int.le_trans (h1 a ha) hk)]
      exact (ih h2 ha).cons e

/-- What is in the order of the keys stays in its order. -/
theorem isort_stable {α : Type} (key : α → Int) (L : List α) (a b : α) (h : [a, b].Sublist L) (hk : key a ≤ key b) :
    [a, b].Sublist (isort key L) := by
  induction L using snoc_rec with
  | h0 => cases h
  | h1 L x ih =>
    rw [isort_snoc]
    obtain ⟨l1, l2, e, s1, s2⟩ := List.sublist_append_iff.1 h
    match l2, s2 with
    | [], _ =>
      simp at e
      subst e
      exact (ih s1).trans (ins_sublist key x _)
    | y :: ys, s2 =>
      have hl := s2.length_le
      have : ys = [] := List.length_eq_zero_iff.1 (by simpa using hl)
      subst this
      have hy : y = x := by simpa using s2
      subst hy
      match l1, e with
      | _ :: _ :: _, e => simp at e
      | [c], e =>
        simp at e
        obtain ⟨rfl, rfl⟩ := e
        exact ins_behind key _ _ _ (isort_sorted key L) ((isort_perm key L).mem_iff.2 (by simpa using s1)) hk

theorem ins_map {α β : Type} (key : β → Int) (f : α → β) (x : α) (L : List α) :
    (ins (fun a => key (f a)) x L).map f = ins key (f x) (L.map f) := by
  induction L with
  | nil => rfl
  | cons e L ih =>
    simp only [ins, List.map_cons]
    split <;> simp [ih]

theorem isort_map {α β : Type} (key : β → Int) (f : α → β) (L : List α) :
    (isort (fun a => key (f a)) L).map f = isort key (L.map f) := by
  induction L using snoc_rec with
  | h0 => rfl
  | h1 L x ih => rw [isort_snoc, ins_map, ih, List.map_append, List.map_singleton, isort_snoc]

theorem insert {D : Bytes → Prop} {c : Cache} {L : List Entry} {x : Entry} (hD : ∀ k, D k → c.exp k = none)
    (hp : ∀ e ∈ L, Plain D e.op) (hx : Plain D x.op) (hf : ∀ e ∈ L, e.time ≤ x.time ∨ Free2 D e x) (hs : Sorted L)
    (ha : Agrees c (L ++ [x])) :
    ∃ M, M = ins (·.time) x L ∧ Sorted M ∧ M.Perm (L ++ [x]) ∧ (∀ i, M.filter (fun e => e.thread = i) = (L ++ [x]).filter (fun e => e.thread = i)) ∧
      Agrees c M ∧ run c (hist M) = run c (hist (L ++ [x])) := by
  induction L generalizing c with
  | nil => exact ⟨[x], rfl, by simp [Sorted], .refl _, fun _ => rfl, ha, rfl⟩
  | cons e L ih =>
    have hs' := List.pairwise_cons.1 hs
    by_cases ht : e.time ≤ x.time
    · have hc : (exec c e.time e.op).2 = e.out ∧ Agrees (exec c e.time e.op).1 (L ++ [x]) := by
        simp only [Agrees, hist, List.cons_append, List.map_cons, outs, List.cons.injEq] at ha
        exact ha
      obtain ⟨M, m0, m1, m2, m3, m4, m5⟩ := ih (exec_dead (hp e (by simp)) hD) (fun e he => hp e (by simp [he]))
        (fun e he => hf e (by simp [he])) hs'.2 hc.2
      refine ⟨e :: M, by rw [ins, if_pos ht, m0], ?_, m2.cons e, fun i => ?_, ?_, ?_⟩
      · refine List.pairwise_cons.2 ⟨fun y hy => ?_, m1⟩
        have := m2.mem_iff.1 hy
        rcases List.mem_append.1 this with h | h
        · exact hs'.1 y h
        · simp at h; rw [h]; exact ht
      · rw [List.cons_append, List.filter_cons, List.filter_cons, m3]
      · simp only [Agrees, hist, List.map_cons, outs, List.cons.injEq]
        exact ⟨hc.1, m4⟩
      · exact m5
    · have hlt : ∀ y ∈ e :: L, ¬ y.time ≤ x.time := by
        intro y hy
        rcases List.mem_cons.1 hy with rfl | hy
        · exact ht
        · have := hs'.1 y hy; omega
      have hfree : ∀ y ∈ e :: L, Free2 D y x := fun y hy => (hf y hy).resolve_left (hlt y hy)
      obtain ⟨h1, h2⟩ := to_front hD hp hx hfree ha
      refine ⟨x :: e :: L, by rw [ins, if_neg ht], ?_, ?_, fun i => ?_, h1, h2⟩
      · refine List.pairwise_cons.2 ⟨fun y hy => ?_, hs⟩
        have := hlt y hy; omega
      · exact (List.perm_append_singleton x (e :: L)).symm
      · rw [List.filter_append, List.filter_cons]
        by_cases hi : x.thread = i
        · have : (e :: L).filter (fun e => e.thread = i) = [] := by
            rw [List.filter_eq_nil_iff]
            intro y hy
            have := (hfree y hy).1
            simp only [decide_eq_true_eq]
            omega
          rw [this]
          simp [hi]
        · simp [hi]

/-- A list where each pair is in the order of times or may be swapped can be sorted. -/
theorem sort {D : Bytes → Prop} {c : Cache} (hD : ∀ k, D k → c.exp k = none) (L : List Entry)
    (hp : ∀ e ∈ L, Plain D e.op) (hf : L.Pairwise (fun a b => a.time ≤ b.time ∨ Free2 D a b)) (ha : Agrees c L) :
    ∃ M, M = isort (·.time) L ∧ Sorted M ∧ M.Perm L ∧ (∀ i, M.filter (fun e => e.thread = i) = L.filter (fun e => e.thread = i)) ∧
      Agrees c M ∧ run c (hist M) = run c (hist L) := by
  suffices ∀ R : List Entry, (∀ e ∈ R, Plain D e.op) → R.reverse.Pairwise (fun a b => a.time ≤ b.time ∨ Free2 D a b) →
      Agrees c R.reverse → ∃ M, M = isort (·.time) R.reverse ∧ Sorted M ∧ M.Perm R.reverse ∧
        (∀ i, M.filter (fun e => e.thread = i) = R.reverse.filter (fun e => e.thread = i)) ∧
        Agrees c M ∧ run c (hist M) = run c (hist R.reverse) by
    have := this L.reverse (fun e he => hp e (by simpa using he)) (by simpa using hf) (by simpa using ha)
    simpa using this
  intro R
  induction R with
  | nil => exact fun _ _ _ => ⟨[], rfl, by simp [Sorted], .refl _, fun _ => rfl, rfl, rfl⟩
  | cons x R ih =>
    intro hp hf ha
    rw [List.reverse_cons] at hf ha ⊢
    have hag : outs c (hist R.reverse) = R.reverse.map (·.out) ∧ (exec (run c (hist R.reverse)) x.time x.op).2 = x.out := by
      have : outs c (hist R.reverse ++ [(x.time, x.op)]) = R.reverse.map (·.out) ++ [x.out] := by
        simpa [Agrees, hist] using ha
      rw [outs_snoc] at this
      have := List.append_inj' this rfl
      exact ⟨this.1, by simpa using this.2⟩
    have hpw := List.pairwise_append.1 hf
    obtain ⟨M, m0, m1, m2, m3, m4, m5⟩ := ih (fun e he => hp e (by simp [he])) hpw.1 hag.1
    have hM : ∀ e ∈ M, e ∈ R.reverse := fun e he => m2.mem_iff.1 he
    have ha' : Agrees c (M ++ [x]) := by
      unfold Agrees
      rw [show hist (M ++ [x]) = hist M ++ [(x.time, x.op)] by simp [hist], outs_snoc, m5, hag.2, m4]
      simp
    obtain ⟨N, n0, n1, n2, n3, n4, n5⟩ := insert hD (fun e he => hp e (by have := hM e he; simp at this; simp [this]))
      (hp x (by simp)) (fun e he => hpw.2.2 e (hM e he) x (by simp)) m1 ha'
    refine ⟨N, by rw [n0, m0, isort_snoc], n1, n2.trans (m2.append_right _), fun i => ?_, n4, ?_⟩
    · rw [n3, List.filter_append, List.filter_append, m3]
    · rw [n5, show hist (M ++ [x]) = hist M ++ [(x.time, x.op)] by simp [hist],
        show hist (R.reverse ++ [x]) = hist R.reverse ++ [(x.time, x.op)] by simp [hist], run_append, run_append, m5]

theorem sorted_monotone {t0 : Int} {L : List Entry} (hs : Sorted L) (h0 : ∀ e ∈ L, t0 ≤ e.time) : Monotone t0 (hist L) := by
  induction L generalizing t0 with
  | nil => trivial
  | cons e L ih =>
    have := List.pairwise_cons.1 hs
    exact ⟨h0 e (by simp), ih this.2 this.1⟩

end Verif.Conc.Full

import Verif.Conc.Full
/-!
# Reasoning about one call among others that leave its keys alone

`Safe K W D Q p v`: the program `p`, started in a memory that looks like `v` on the keys `K`, while
others change nothing on `K` but the clock, keeps the memory well formed, changes at most the keys
`W`, gives no deadline to a key of `D`, and ends with `Q`.
-/
namespace Verif.Conc.Full
open Verif Verif.Conc

/-- What others may do to `v`: nothing on `K`, except that time passes and addresses are used up. -/
structure Rely (K : Bytes → Prop) (v w : Mem) : Prop where
  data : ∀ k, K k → w.data k = v.data k
  exp : ∀ k, K k → w.exp k = v.exp k
  heap : ∀ k p, K k → v.data k = some (.ref p) → w.heap p = v.heap p
  next : v.next ≤ w.next
  now : v.now ≤ w.now

theorem Rely.refl {K : Bytes → Prop} (v : Mem) : Rely K v v :=
  ⟨fun _ _ => rfl, fun _ _ => rfl, fun _ _ _ _ => rfl, Nat.le_refl _, Int.le_refl _⟩

theorem Rely.trans {K : Bytes → Prop} {a b c : Mem} (h : Rely K a b) (g : Rely K b c) : Rely K a c :=
  ⟨fun k hk => (g.data k hk).trans (h.data k hk), fun k hk => (g.exp k hk).trans (h.exp k hk),
    fun k p hk hp => (g.heap k p hk (by rw [h.data k hk, hp])).trans (h.heap k p hk hp),
    Nat.le_trans h.next g.next, Int.le_trans h.now g.now⟩

/-- What a call does to others: nothing outside `W`, no deadline on `D`. -/
structure Guar (W D : Bytes → Prop) (w w' : Mem) : Prop where
  data : ∀ k, ¬ W k → w'.data k = w.data k
  exp : ∀ k, ¬ W k → w'.exp k = w.exp k
  heap : ∀ k p, ¬ W k → w.data k = some (.ref p) → w'.heap p = w.heap p
  dead : ∀ k, D k → w.exp k = none → w'.exp k = none
  next : w.next ≤ w'.next
  now : w'.now = w.now

theorem Guar.refl {W D : Bytes → Prop} (w : Mem) : Guar W D w w :=
  ⟨fun _ _ => rfl, fun _ _ => rfl, fun _ _ _ _ => rfl, fun _ _ h => h, Nat.le_refl _, rfl⟩

theorem Guar.rely {W D K : Bytes → Prop} {w w' : Mem} (h : Guar W D w w') (hd : ∀ k, K k → ¬ W k) : Rely K w w' :=
  ⟨fun k hk => h.data k (hd k hk), fun k hk => h.exp k (hd k hk), fun k p hk => h.heap k p (hd k hk), h.next,
    Int.le_of_eq h.now.symm⟩

def Safe (K W D : Bytes → Prop) {α : Type} (Q : α → Mem → Prop) : MP α → Mem → Prop
  | .ret a, v => Q a v
  | .act u k, v => ∀ w, w.WF → Rely K v w → (u w).WF ∧ Guar W D w (u w) ∧ Safe K W D Q (k w) (u w)

/-- `Q` does not mind what others do. -/
def Firm (K : Bytes → Prop) {α : Type} (Q : α → Mem → Prop) : Prop := ∀ a v w, Q a v → Rely K v w → Q a w

theorem Safe.later {K W D : Bytes → Prop} {α : Type} {Q : α → Mem → Prop} (hQ : Firm K Q) {p : MP α} {v w : Mem}
    (h : Safe K W D Q p v) (hr : Rely K v w) : Safe K W D Q p w := by
  cases p with
  | ret a => exact hQ a v w h hr
  | act u k => exact fun w' hw hr' => h w' hw (hr.trans hr')

/-- The rule for one step. -/
theorem safe_prim {K W D : Bytes → Prop} {α β : Type} {Q : β → Mem → Prop} (hQ : Firm K Q) {u : Mem → Mem} {r : Mem → α}
    {g : α → MP β} {v : Mem}
    (h : ∀ w, w.WF → Rely K v w → (u w).WF ∧ Guar W D w (u w) ∧ ∃ x, Rely K x (u w) ∧ Safe K W D Q (g (r w)) x) :
    Safe K W D Q (prim u r >>= g) v := by
  intro w hw hr
  obtain ⟨h1, h2, x, h3, h4⟩ := h w hw hr
  exact ⟨h1, h2, h4.later hQ h3⟩

section
variable {K W D : Bytes → Prop} {β : Type} {Q : β → Mem → Prop} (hQ : Firm K Q) {v : Mem} {k : Bytes}
include hQ

theorem safe_loadData {g : Option Cell → MP β} (hk : K k) (h : Safe K W D Q (g (v.data k)) v) :
    Safe K W D Q (loadData k >>= g) v :=
  safe_prim hQ (fun w hw hr => ⟨hw, .refl _, v, hr, by rw [hr.data k hk]; exact h⟩)

theorem safe_loadExp {g : Option Int → MP β} (hk : K k) (h : Safe K W D Q (g (v.exp k)) v) :
    Safe K W D Q (loadExp k >>= g) v :=
  safe_prim hQ (fun w hw hr => ⟨hw, .refl _, v, hr, by rw [hr.exp k hk]; exact h⟩)

theorem safe_clock {g : Int → MP β} (h : ∀ n, v.now ≤ n → Safe K W D Q (g n) { v with now := n }) :
    Safe K W D Q (clock >>= g) v :=
  safe_prim hQ (fun w hw hr => ⟨hw, .refl _, { v with now := w.now },
    ⟨hr.data, hr.exp, hr.heap, hr.next, Int.le_refl _⟩, h w.now hr.now⟩)

theorem safe_storeData {g : Unit → MP β} {s : Scalar} (hw : W k)
    (h : Safe K W D Q (g ()) { v with data := upd v.data k (some (.scalar s)) }) :
    Safe K W D Q (storeData k s >>= g) v := by
  refine safe_prim hQ (fun w hwf hr => ⟨?_, ?_, { v with data := upd v.data k (some (.scalar s)) }, ?_, h⟩)
  · constructor
    · intro j p hj
      simp only [upd] at hj
      split at hj
      · cases hj
      · exact hwf.alloc _ _ hj
    · intro j j' p hj hj'
      simp only [upd] at hj hj'
      split at hj <;> try cases hj
      split at hj' <;> try cases hj'
      exact hwf.inj _ _ _ ‹_› ‹_›
    · exact hwf.names
  · refine ⟨fun j hj => ?_, fun _ _ => rfl, fun _ _ _ _ => rfl, fun _ _ h => h, Nat.le_refl _, rfl⟩
    have : j ≠ k := fun e => hj (e ▸ hw)
    simp [upd, this]
  · refine ⟨fun j hj => ?_, hr.exp, fun j p hj hp => ?_, hr.next, hr.now⟩
    · simp only [upd]; split
      · rfl
      · exact hr.data j hj
    · simp only [upd] at hp
      split at hp
      · cases hp
      · exact hr.heap j p hj hp

theorem safe_loadOrStore {g : Option Cell → MP β} {s : Scalar} (hk : K k) (hw : W k)
    (h1 : ∀ x, v.data k = some x → Safe K W D Q (g (some x)) v)
    (h2 : v.data k = none → Safe K W D Q (g none) { v with data := upd v.data k (some (.scalar s)) }) :
    Safe K W D Q (loadOrStore k s >>= g) v := by
  intro w hwf hr
  have hd := hr.data k hk
  cases hv : v.data k with
  | some x =>
    rw [hv] at hd
    simp only [hd]
    exact ⟨hwf, .refl _, (h1 x hv).later hQ hr⟩
  | none =>
    rw [hv] at hd
    have := safe_storeData (W := W) (D := D) (g := fun _ => g none) hQ hw (h2 hv) w hwf hr
    simp only [hd]
    exact this

theorem safe_delData {g : Unit → MP β} (hw : W k)
    (h : Safe K W D Q (g ()) { v with data := upd v.data k none }) : Safe K W D Q (delData k >>= g) v := by
  refine safe_prim hQ (fun w hwf hr => ⟨?_, ?_, { v with data := upd v.data k none }, ?_, h⟩)
  · constructor
    · intro j p hj
      simp only [upd] at hj
      split at hj
      · cases hj
      · exact hwf.alloc _ _ hj
    · intro j j' p hj hj'
      simp only [upd] at hj hj'
      split at hj <;> try cases hj
      split at hj' <;> try cases hj'
      exact hwf.inj _ _ _ ‹_› ‹_›
    · exact hwf.names
  · refine ⟨fun j hj => ?_, fun _ _ => rfl, fun _ _ _ _ => rfl, fun _ _ h => h, Nat.le_refl _, rfl⟩
    have : j ≠ k := fun e => hj (e ▸ hw)
    simp [upd, this]
  · refine ⟨fun j hj => ?_, hr.exp, fun j p hj hp => ?_, hr.next, hr.now⟩
    · simp only [upd]; split
      · rfl
      · exact hr.data j hj
    · simp only [upd] at hp
      split at hp
      · cases hp
      · exact hr.heap j p hj hp

theorem safe_delExp {g : Unit → MP β} (hw : W k)
    (h : Safe K W D Q (g ()) { v with exp := upd v.exp k none }) : Safe K W D Q (delExp k >>= g) v := by
  refine safe_prim hQ (fun w hwf hr => ⟨⟨hwf.alloc, hwf.inj, hwf.names⟩, ?_, { v with exp := upd v.exp k none }, ?_, h⟩)
  · refine ⟨fun _ _ => rfl, fun j hj => ?_, fun _ _ _ _ => rfl, fun j _ hj => ?_, Nat.le_refl _, rfl⟩
    · have : j ≠ k := fun e => hj (e ▸ hw)
      simp [upd, this]
    · simp only [upd]; split
      · rfl
      · exact hj
  · refine ⟨hr.data, fun j hj => ?_, hr.heap, hr.next, hr.now⟩
    simp only [upd]; split
    · rfl
    · exact hr.exp j hj

theorem safe_storeExp {g : Unit → MP β} {d : Int} (hw : W k) (hd : ¬ D k)
    (h : Safe K W D Q (g ()) { v with exp := upd v.exp k (some d) }) : Safe K W D Q (storeExp k d >>= g) v := by
  refine safe_prim hQ (fun w hwf hr => ⟨⟨hwf.alloc, hwf.inj, hwf.names⟩, ?_, { v with exp := upd v.exp k (some d) }, ?_, h⟩)
  · refine ⟨fun _ _ => rfl, fun j hj => ?_, fun _ _ _ _ => rfl, fun j hj hn => ?_, Nat.le_refl _, rfl⟩
    · have : j ≠ k := fun e => hj (e ▸ hw)
      simp [upd, this]
    · have : j ≠ k := fun e => hd (e ▸ hj)
      simp [upd, this, hn]
  · refine ⟨hr.data, fun j hj => ?_, hr.heap, hr.next, hr.now⟩
    simp only [upd]; split
    · rfl
    · exact hr.exp j hj

/-- Memory after an entry at address `p` was published at `k`. -/
def Mem.published (v : Mem) (k : Bytes) (p : Nat) : Mem :=
  { v with data := upd v.data k (some (.ref p)), heap := fun q => if q = p then HashEntry.empty else v.heap q, next := p + 1 }

omit hQ in
theorem published_wf {v : Mem} (hv : v.WF) {k : Bytes} {p : Nat} (hp : v.next ≤ p) : (v.published k p).WF := by
  constructor
  · intro j q hj
    simp only [Mem.published, upd] at hj ⊢
    split at hj
    · injection hj with hj; injection hj with hj; omega
    · have := hv.alloc _ _ hj; omega
  · intro j j' q hj hj'
    simp only [Mem.published, upd] at hj hj'
    split at hj <;> split at hj'
    · rename_i a b; rw [a, b]
    · injection hj with hj; injection hj with hj; subst hj
      have := hv.alloc _ _ hj'; omega
    · injection hj' with hj'; injection hj' with hj'; subst hj'
      have := hv.alloc _ _ hj; omega
    · exact hv.inj _ _ _ hj hj'
  · intro q
    simp only [Mem.published]
    split
    · simp [Distinct, HashEntry.empty]
    · exact hv.names q

theorem safe_publish {g : Nat → MP β} (hw : W k)
    (h : ∀ p, v.next ≤ p → Safe K W D Q (g p) (v.published k p)) : Safe K W D Q (publish k >>= g) v := by
  refine safe_prim hQ (fun w hwf hr => ⟨published_wf hwf (Nat.le_refl _), ?_, v.published k w.next, ?_, h w.next hr.next⟩)
  · refine ⟨fun j hj => ?_, fun _ _ => rfl, fun j p hj hp => ?_, fun _ _ h => h, Nat.le_succ _, rfl⟩
    · have : j ≠ k := fun e => hj (e ▸ hw)
      simp [upd, this]
    · have := hwf.alloc _ _ hp
      have : p ≠ w.next := by omega
      simp [this]
  · refine ⟨fun j hj => ?_, hr.exp, fun j p hj hp => ?_, Nat.le_refl _, hr.now⟩
    · simp only [upd, Mem.published]; split
      · rfl
      · exact hr.data j hj
    · simp only [upd, Mem.published] at hp ⊢
      split
      · rfl
      · split at hp
        · injection hp with hp; injection hp with hp; rename_i a _; exact absurd hp.symm a
        · exact hr.heap j p hj hp

/-- Memory with the entry at address `p` replaced. -/
def Mem.put (v : Mem) (p : Nat) (e : HashEntry) : Mem := { v with heap := fun q => if q = p then e else v.heap q }

theorem safe_entry {α : Type} {p : Nat} {u : HashEntry → HashEntry} {r : HashEntry → α} {g : α → MP β} (hk : K k)
    (hd : v.data k = some (.ref p)) (hw : W k ∨ ∀ e, u e = e) (hu : ∀ e, Distinct e → Distinct (u e))
    (h : Safe K W D Q (g (r (v.heap p))) (v.put p (u (v.heap p)))) : Safe K W D Q (entry p u r >>= g) v := by
  refine safe_prim hQ (fun w hwf hr => ⟨⟨hwf.alloc, hwf.inj, fun q => ?_⟩, ?_, v.put p (u (v.heap p)), ?_, ?_⟩)
  · simp only
    split
    · exact hu _ (hwf.names p)
    · exact hwf.names q
  · refine ⟨fun _ _ => rfl, fun _ _ => rfl, fun j q hj hq => ?_, fun _ _ h => h, Nat.le_refl _, rfl⟩
    simp only
    split
    · rename_i e
      subst e
      rcases hw with hw | hw
      · have : j = k := hwf.inj _ _ _ hq ((hr.data k hk).trans hd)
        exact absurd (this ▸ hw) hj
      · exact hw _
    · rfl
  · refine ⟨hr.data, hr.exp, fun j q hj hq => ?_, hr.next, hr.now⟩
    simp only [Mem.put]
    split
    · rw [hr.heap k p hk hd]
    · exact hr.heap j q hj hq
  · rw [hr.heap k p hk hd]; exact h

end

@[simp] theorem put_heap (v : Mem) (p : Nat) (e : HashEntry) : (v.put p e).heap p = e := by simp [Mem.put]
@[simp] theorem put_put (v : Mem) (p : Nat) (a b : HashEntry) : (v.put p a).put p b = v.put p b := by
  simp only [Mem.put]; congr 1; funext q; split <;> rfl
@[simp] theorem put_self (v : Mem) (p : Nat) : v.put p (v.heap p) = v := by
  simp only [Mem.put]
  have : (fun q => if q = p then v.heap p else v.heap q) = v.heap := by funext q; split <;> simp_all
  rw [this]
@[simp] theorem put_data (v : Mem) (p : Nat) (e : HashEntry) : (v.put p e).data = v.data := rfl
@[simp] theorem put_exp (v : Mem) (p : Nat) (e : HashEntry) : (v.put p e).exp = v.exp := rfl
@[simp] theorem put_now (v : Mem) (p : Nat) (e : HashEntry) : (v.put p e).now = v.now := rfl

/-- Sub-programs. -/
theorem safe_bind {K W D : Bytes → Prop} {α β : Type} {R : α → Mem → Prop} {Q : β → Mem → Prop}
    {p : MP α} {g : α → MP β} {v : Mem} (hp : Safe K W D R p v) (hg : ∀ a x, R a x → Safe K W D Q (g a) x) :
    Safe K W D Q (p >>= g) v := by
  induction p generalizing v with
  | ret a => exact hg a v hp
  | act u k ih =>
    intro w hw hr
    obtain ⟨h1, h2, h3⟩ := hp w hw hr
    exact ⟨h1, h2, ih w h3⟩

theorem Safe.weaken {K W D : Bytes → Prop} {α : Type} {R Q : α → Mem → Prop} {p : MP α} {v : Mem}
    (hp : Safe K W D R p v) (h : ∀ a x, R a x → Q a x) : Safe K W D Q p v := by
  induction p generalizing v with
  | ret a => exact h a v hp
  | act u k ih =>
    intro w hw hr
    obtain ⟨h1, h2, h3⟩ := hp w hw hr
    exact ⟨h1, h2, ih w h3⟩

theorem bind_ret {α : Type} (p : MP α) : (p >>= fun a => .ret a) = p := by
  induction p with
  | ret a => rfl
  | act u k ih => simp only [Prog.act_bind]; congr 1; funext s; exact ih s

/-! ## What the memory denotes after a step -/

theorem abs_store (v : Mem) (k : Bytes) (s : Scalar) :
    ({ v with data := upd v.data k (some (.scalar s)) } : Mem).abs = v.abs.store k (.scalar s) := by
  simp only [Mem.abs, Cache.store]; congr 1; funext j; simp only [upd]; split <;> rfl

theorem abs_delData (v : Mem) (k : Bytes) :
    ({ v with data := upd v.data k none } : Mem).abs = { v.abs with data := upd v.abs.data k none } := by
  simp only [Mem.abs]; congr 1; funext j; simp only [upd]; split <;> rfl

theorem abs_exp (v : Mem) (e : Bytes → Option Int) : ({ v with exp := e } : Mem).abs = { v.abs with exp := e } := rfl

theorem abs_now (v : Mem) (n : Int) : ({ v with now := n } : Mem).abs = v.abs := rfl

theorem abs_put {v : Mem} (hv : v.WF) {k : Bytes} {p : Nat} (hk : v.data k = some (.ref p)) (e : HashEntry) :
    (v.put p e).abs = v.abs.store k (.hash e) := by
  simp only [Mem.abs, Cache.store, Mem.put]
  congr 1
  funext j
  simp only [upd]
  by_cases hj : j = k
  · subst hj; simp [hk, Cell.val]
  · simp only [hj, if_false]
    cases hd : v.data j with
    | none => rfl
    | some x =>
      cases x with
      | scalar _ => rfl
      | time _ => rfl
      | ref q =>
        have : q ≠ p := by rintro rfl; exact hj (hv.inj _ _ _ hd hk)
        simp [Cell.val, this]

theorem abs_published {v : Mem} (hv : v.WF) {k : Bytes} {p : Nat} (hp : v.next ≤ p) :
    (v.published k p).abs = v.abs.store k (.hash HashEntry.empty) := by
  simp only [Mem.abs, Cache.store, Mem.published]
  congr 1
  funext j
  simp only [upd]
  by_cases hj : j = k
  · simp [hj, Cell.val]
  · simp only [hj, if_false]
    cases hd : v.data j with
    | none => rfl
    | some x =>
      cases x with
      | scalar _ => rfl
      | time _ => rfl
      | ref q =>
        have := hv.alloc _ _ hd
        have hq : q ≠ p := by omega
        simp [Cell.val, hq]

theorem abs_data (v : Mem) (k : Bytes) : v.abs.data k = (v.data k).map (Cell.val v.heap) := rfl

theorem fmtCell_val (h : Nat → HashEntry) (x : Cell) : fmtString (x.val h) = fmtCell x := by cases x <;> rfl

theorem Rely.sameAt {K : Bytes → Prop} {v w : Mem} (h : Rely K v w) {k : Bytes} (hk : K k) : SameAt v.abs w.abs k := by
  refine ⟨?_, (h.exp k hk).symm⟩
  rw [abs_data, abs_data, h.data k hk]
  cases hd : v.data k with
  | none => rfl
  | some x =>
    cases x with
    | ref p => simp [Cell.val, h.heap k p hk hd]
    | _ => rfl

end Verif.Conc.Full

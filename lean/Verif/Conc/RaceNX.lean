import Verif.Conc.RaceExact
/-!
# Many `HSetNX` of one field of one hash do not race

Only the call whose `LoadOrStore` stored the field goes on to the length.
-/
namespace Verif.Conc.Race
open Verif
open Verif.Conc.Full (Cell Mem fmtCell cronCell Own Ext Held)

/-- Who stored the field in the entry at the address, if anyone did during the run. -/
abbrev Win := Nat → Option Nat

def Win.Le (W W' : Win) : Prop := ∀ p i, W p = some i → W' p = some i

theorem Win.Le.refl (W : Win) : W.Le W := fun _ _ h => h
theorem Win.Le.trans {W W' W'' : Win} (h : W.Le W') (h' : W'.Le W'') : W.Le W'' := fun p i e => h' p i (h p i e)

/-- A won entry has the field, and addresses in use are allocated. -/
structure InvW (f : Bytes) (W : Win) (m : Mem) : Prop where
  alloc : ∀ k p, m.data k = some (.ref p) → p < m.next
  won : ∀ p i, W p = some i → p < m.next ∧ (hfind (m.heap p).fields f).isSome = true

/-- Goroutine `i` may touch: nothing but a read of the map fields, and the length of what it won. -/
def Fine (i : Nat) (W : Win) (a : Access) : Prop :=
  match a.loc with
  | .length p => W p = some i
  | _ => a.write = false

/-- Whatever others do, the program keeps the invariant and touches only what it may. -/
def OkW (f : Bytes) (i : Nat) {α : Type} (Q : α → Win → Nat → Prop) : GP α → Win → Nat → Prop
  | .ret a, W, n => Q a W n
  | .act u k, W, n => ∀ (g : G) (W' : Win), W.Le W' → n ≤ g.mem.next → InvW f W' g.mem →
      ∃ W'' : Win, W'.Le W'' ∧ g.mem.next ≤ (u g).mem.next ∧ InvW f W'' (u g).mem ∧ (∀ a ∈ (u g).acc, Fine i W'' a) ∧
        OkW f i Q (k g) W'' (u g).mem.next

theorem OkW.later {f : Bytes} {i : Nat} {α : Type} {Q : α → Win → Nat → Prop}
    (hQ : ∀ a W n W' n', W.Le W' → n ≤ n' → Q a W n → Q a W' n') {p : GP α} {W W' : Win} {n n' : Nat}
    (h : OkW f i Q p W n) (hW : W.Le W') (hn : n ≤ n') : OkW f i Q p W' n' := by
  cases p with
  | ret a => exact hQ _ _ _ _ _ hW hn h
  | act u k => exact fun g W2 l m => h g W2 (hW.trans l) (by omega)

theorem okw_bind {f : Bytes} {i : Nat} {α β : Type} {R : α → Win → Nat → Prop} {Q : β → Win → Nat → Prop} {c : α → GP β}
    (hc : ∀ a W n, R a W n → OkW f i Q (c a) W n) {p : GP α} : ∀ {W : Win} {n : Nat}, OkW f i R p W n → OkW f i Q (p.bind c) W n := by
  induction p with
  | ret a => intro W n h; exact hc a W n h
  | act u k ih =>
    intro W n h g W' l m iv
    obtain ⟨W'', a1, a2, a3, a4, a5⟩ := h g W' l m iv
    exact ⟨W'', a1, a2, a3, a4, ih g a5⟩

/-- A step that leaves the data map and the entries alone, or removes from the data map. -/
theorem okw_quiet {f : Bytes} {i : Nat} {α : Type} {Q : α → Win → Nat → Prop} {a : List Access} {u : Mem → Mem} {r : Mem → α}
    {W : Win} {n : Nat} (ha : ∀ x ∈ a, ∀ W, Fine i W x) (hd : ∀ m k p, (u m).data k = some (.ref p) → m.data k = some (.ref p))
    (hh : ∀ m, (u m).heap = m.heap) (hx : ∀ m, (u m).next = m.next)
    (hq : ∀ (m : Mem) W', W.Le W' → n ≤ m.next → InvW f W' m → Q (r m) W' m.next) : OkW f i Q (prim a u r) W n := by
  intro g W' l m iv
  refine ⟨W', .refl _, by show g.mem.next ≤ (u g.mem).next; rw [hx]; exact Nat.le_refl _, ⟨?_, ?_⟩, fun x hx => ha x hx W', ?_⟩
  · intro k p h
    show p < (u g.mem).next
    rw [hx]; exact iv.alloc k p (hd _ _ _ h)
  · intro p j h
    show p < (u g.mem).next ∧ (hfind ((u g.mem).heap p).fields f).isSome = true
    rw [hx, hh]; exact iv.won p j h
  · show Q (r g.mem) W' (u g.mem).next
    rw [hx]; exact hq g.mem W' l m iv

/-- The cell, if a hash, is allocated. -/
def Alloc (c : Option Cell) (_ : Win) (n : Nat) : Prop := ∀ p, c = some (.ref p) → p < n

theorem okw_loadData (f : Bytes) (i : Nat) (k : Bytes) (W : Win) (n : Nat) : OkW f i Alloc (loadData k) W n :=
  okw_quiet (fun x hx W => by simp at hx; subst hx; rfl) (fun _ _ _ h => h) (fun _ => rfl) (fun _ => rfl)
    (fun m _ _ _ iv p h => iv.alloc k p h)

theorem okw_expiredP (f : Bytes) (i : Nat) (k : Bytes) (N : Nat) (W : Win) (n : Nat) (hN : N ≤ n) :
    OkW f i (fun (_ : Bool) _ n => N ≤ n) (expiredP k) W n := by
  refine okw_bind (R := fun (_ : Option Int) _ n => N ≤ n) (fun c W n hn => ?_)
    (okw_quiet (fun x hx W => by simp at hx; subst hx; rfl) (fun _ _ _ h => h) (fun _ => rfl) (fun _ => rfl) (fun _ _ _ _ _ => by omega))
  cases c with
  | none => exact hn
  | some d =>
    refine okw_bind (R := fun (_ : Int) _ n => N ≤ n) (fun t W n hn => ?_)
      (okw_quiet (fun x hx W => by simp at hx) (fun _ _ _ h => h) (fun _ => rfl) (fun _ => rfl) (fun _ _ _ _ _ => by omega))
    show OkW f i _ (if d < t then _ else _) W n
    split
    · refine okw_bind (R := fun (_ : Unit) _ n => N ≤ n) (fun _ W n hn => ?_)
        (okw_quiet (fun x hx W => by simp at hx; subst hx; rfl) (fun m k' p h => by
          simp only [upd] at h; split at h
          · cases h
          · exact h) (fun _ => rfl) (fun _ => rfl) (fun _ _ _ _ _ => by omega))
      refine okw_bind (R := fun (_ : Unit) _ n => N ≤ n) (fun _ W n hn => ?_)
        (okw_quiet (fun x hx W => by simp at hx; subst hx; rfl) (fun _ _ _ h => h) (fun _ => rfl) (fun _ => rfl) (fun _ _ _ _ _ => by omega))
      exact hn
    · exact hn

theorem okw_getP (f : Bytes) (i : Nat) (k : Bytes) (W : Win) (n : Nat) : OkW f i Alloc (getP k) W n := by
  refine okw_bind (fun c W n hc => ?_) (okw_loadData f i k W n)
  cases c with
  | none => intro p h; cases h
  | some v =>
    refine okw_bind (fun b W n' hn => ?_) (okw_expiredP f i k n W n (Nat.le_refl _))
    show OkW f i Alloc (if b = true then _ else _) W n'
    split
    · intro p h; cases h
    · intro p h
      exact Nat.lt_of_lt_of_le (hc p h) hn

theorem okw_publish (f : Bytes) (i : Nat) (k : Bytes) (W : Win) (n : Nat) : OkW f i (fun p _ n => p < n) (publish k) W n := by
  intro g W' l m iv
  refine ⟨W', .refl _, Nat.le_succ _, ⟨?_, ?_⟩, ?_, Nat.lt_succ_self _⟩
  · intro k' p h
    show p < g.mem.next + 1
    simp only [upd] at h
    split at h
    · cases h; omega
    · have := iv.alloc k' p h; omega
  · intro p j h
    have := iv.won p j h
    refine ⟨Nat.lt_succ_of_lt this.1, ?_⟩
    show (hfind (if p = g.mem.next then HashEntry.empty else g.mem.heap p).fields f).isSome = true
    rw [if_neg (by omega)]
    exact this.2
  · intro a ha
    simp at ha; subst ha; rfl

theorem okw_fLoadOrStore (f : Bytes) (i : Nat) (p : Nat) (v : Scalar) (W : Win) (n : Nat) (hp : p < n) :
    OkW f i (fun b W _ => b = false → W p = some i) (fLoadOrStore p f v) W n := by
  intro g W' l m iv
  by_cases e : (hfind (g.mem.heap p).fields f).isSome = true
  · refine ⟨W', .refl _, Nat.le_refl _, ⟨iv.alloc, ?_⟩, by simp, ?_⟩
    · intro q j h
      refine ⟨(iv.won q j h).1, ?_⟩
      simp only [e, if_true]
      split
      · rename_i h; subst h; exact e
      · exact (iv.won q j h).2
    · intro h
      exact absurd e (by simp only [Bool.not_eq_true]; exact h)
  · have hW : W' p = none := by
      cases h : W' p with
      | none => rfl
      | some j => exact absurd (iv.won p j h).2 e
    refine ⟨fun q => if q = p then some i else W' q, ?_, Nat.le_refl _, ⟨iv.alloc, ?_⟩, by simp, ?_⟩
    · intro q j h
      by_cases e : q = p
      · subst e; rw [hW] at h; cases h
      · simp [e, h]
    · intro q j h
      by_cases eq : q = p
      · subst eq
        refine ⟨Nat.lt_of_lt_of_le hp m, ?_⟩
        simp [e, hfind_hput]
      · simp only [eq, if_false] at h
        refine ⟨(iv.won q j h).1, ?_⟩
        simp only [eq, if_false]
        exact (iv.won q j h).2
    · intro _
      simp

theorem okw_lenLoad (f : Bytes) (i : Nat) (p : Nat) (W : Win) (n : Nat) (hp : W p = some i) :
    OkW f i (fun (_ : Int) W _ => W p = some i) (lenLoad p) W n := by
  intro g W' l m iv
  refine ⟨W', .refl _, Nat.le_refl _, ⟨iv.alloc, fun q j h => ⟨(iv.won q j h).1, ?_⟩⟩, ?_, l _ _ hp⟩
  · have := (iv.won q j h).2
    by_cases e : q = p <;> simp_all
  · intro a ha
    simp at ha; subst ha; exact l _ _ hp

theorem okw_lenStore (f : Bytes) (i : Nat) (p : Nat) (x : Int) (W : Win) (n : Nat) (hp : W p = some i) :
    OkW f i (fun (_ : Unit) _ _ => True) (lenStore p x) W n := by
  intro g W' l m iv
  refine ⟨W', .refl _, Nat.le_refl _, ⟨iv.alloc, fun q j h => ⟨(iv.won q j h).1, ?_⟩⟩, ?_, trivial⟩
  · have := (iv.won q j h).2
    by_cases e : q = p <;> simp_all
  · intro a ha
    simp at ha; subst ha; exact l _ _ hp

abbrev True3 {α : Type} : α → Win → Nat → Prop := fun _ _ _ => True

theorem okw_hSetNX (k f v : Bytes) (i : Nat) (W : Win) (n : Nat) : OkW f i True3 (prog (.hSetNX k f v)) W n := by
  have body : ∀ p W n, p < n → OkW f i True3 (do
      if ← fLoadOrStore p f (.str v) then pure (.ok 0)
      else do lenAdd p 1; pure (.ok 1) : GP (Res Int)) W n := by
    intro p W n hp
    refine okw_bind (fun b W n hb => ?_) (okw_fLoadOrStore f i p (.str v) W n hp)
    cases b
    · refine okw_bind (R := True3) (fun _ _ _ _ => ?_)
        (okw_bind (fun l W n hl => okw_lenStore f i p _ W n hl) (okw_lenLoad f i p W n (hb rfl)))
      trivial
    · trivial
  refine okw_bind (R := True3) (fun _ _ _ _ => ?_) ?_
  · trivial
  refine okw_bind (fun c W n hc => ?_) (okw_getP f i k W n)
  rcases c with _ | (s | p | t)
  · exact okw_bind (fun p W n hp => body p W n hp) (okw_publish f i k W n)
  · trivial
  · exact body p W n (hc p rfl)
  · trivial

structure InvNX (k f : Bytes) (W : Win) (g : Cfg) : Prop where
  inv : InvW f W g.sh.mem
  cur : ∀ i op p, (g.thr i).cur = some (op, p) → (∃ v, op = .hSetNX k f v) ∧ OkW f i True3 p W g.sh.mem.next
  todo : ∀ i, ∀ op ∈ (g.thr i).todo, ∃ v, op = .hSetNX k f v

theorem nx_act {k f : Bytes} {W : Win} {g g' : Cfg} (h : InvNX k f W g) {i : Nat} (ha : Acts i g g') :
    ∃ W' : Win, W.Le W' ∧ InvNX k f W' g' ∧ ∀ a ∈ g'.sh.acc, Fine i W' a := by
  cases ha with
  | mk op todo u c ht =>
    obtain ⟨hm, hk⟩ := h.cur i op _ (by rw [ht])
    obtain ⟨W', e1, e2, e3, e4, e5⟩ := hk g.sh W (.refl _) (Nat.le_refl _) h.inv
    refine ⟨W', e1, ⟨e3, ?_, ?_⟩, e4⟩
    · intro j op' p hj
      rcases cur_start hj with ⟨rfl, hh⟩ | ⟨hne, hh⟩
      · cases hh; exact ⟨hm, e5⟩
      · exact ⟨(h.cur j op' p hh).1, (h.cur j op' p hh).2.later (fun _ _ _ _ _ _ _ h => h) e1 e2⟩
    · intro j op' hj
      by_cases e : j = i
      · subst e; simp at hj; exact h.todo j op' (by rw [ht]; exact hj)
      · simp only [setThr_ne _ _ e] at hj; exact h.todo j op' hj

theorem nx_start {k f : Bytes} {W : Win} {g : Cfg} (h : InvNX k f W g) {i : Nat} {op : Call} {rest : List Call}
    (ht : g.thr i = ⟨op :: rest, none⟩) :
    (∀ j a p, (setThr g.thr i ⟨rest, some (op, spec.prog op)⟩ j).cur = some (a, p) → (∃ v, a = .hSetNX k f v) ∧ OkW f j True3 p W g.sh.mem.next) ∧
    (∀ j, ∀ a ∈ (setThr g.thr i ⟨rest, some (op, spec.prog op)⟩ j).todo, ∃ v, a = .hSetNX k f v) := by
  obtain ⟨v, hv⟩ := h.todo i op (by rw [ht]; simp)
  constructor
  · intro j a p hj
    rcases cur_start hj with ⟨rfl, hh⟩ | ⟨hne, hh⟩
    · cases hh
      subst hv
      exact ⟨⟨v, rfl⟩, okw_hSetNX k f v _ _ _⟩
    · exact h.cur j a p hh
  · intro j a hj
    by_cases e : j = i
    · subst e; simp at hj; exact h.todo j a (by rw [ht]; simp [hj])
    · simp only [setThr_ne _ _ e] at hj; exact h.todo j a hj

theorem nx_steps {k f : Bytes} {calls : Nat → List Call} (hc : ∀ i, ∀ op ∈ calls i, ∃ v, op = .hSetNX k f v) {v : Mem} (hv : v.WF)
    {ov : Bool} {g : Cfg} (h : Steps spec ov (start v calls) g) : ∃ W, InvNX k f W g := by
  induction h with
  | refl => exact ⟨fun _ => none, ⟨hv.alloc, by simp⟩, by simp [start, initial], hc⟩
  | snoc _ st ih =>
    rename_i g1 g2 hs
    obtain ⟨W, ih⟩ := ih
    cases st with
    | tick s' ht =>
      obtain ⟨n, _, rfl⟩ := ht
      exact ⟨W, ⟨ih.inv.alloc, ih.inv.won⟩, ih.cur, ih.todo⟩
    | startW i op rest ht hm hw hr => exact ⟨W, ih.inv, (nx_start ih ht).1, (nx_start ih ht).2⟩
    | startR i op rest ht hm hw hr => exact ⟨W, ih.inv, (nx_start ih ht).1, (nx_start ih ht).2⟩
    | startN i op rest ht hm => exact ⟨W, ih.inv, (nx_start ih ht).1, (nx_start ih ht).2⟩
    | act i op todo u k ht =>
      obtain ⟨W', _, h2, _⟩ := nx_act ih (.mk g1 op todo u k ht)
      exact ⟨W', h2⟩
    | fin i op todo a ht =>
      refine ⟨W, ih.inv, ?_, ?_⟩
      · intro j op' p hj
        rcases cur_start hj with ⟨rfl, hh⟩ | ⟨hne, hh⟩
        · cases hh
        · exact ih.cur j op' p hh
      · intro j op' hj
        by_cases e : j = i
        · subst e; simp at hj; exact ih.todo j op' (by rw [ht]; exact hj)
        · simp only [setThr_ne _ _ e] at hj; exact ih.todo j op' hj

theorem no_race_nx {k f : Bytes} {calls : Nat → List Call} (hc : ∀ i, ∀ op ∈ calls i, ∃ v, op = .hSetNX k f v) {v : Mem} (hv : v.WF) :
    ¬ HasRace (start v calls) := by
  rintro ⟨g, g1, g2, i, j, a, b, hs, h1, h2, hne, ha, hb, hloc, hwr⟩
  obtain ⟨W, inv⟩ := nx_steps hc hv hs
  obtain ⟨W1, l1, inv1, U1⟩ := nx_act inv h1
  obtain ⟨W2, l2, inv2, U2⟩ := nx_act inv1 h2
  have Ua := U1 a ha
  have Ub := U2 b hb
  obtain ⟨la, wa⟩ := a
  obtain ⟨lb, wb⟩ := b
  simp only at hloc hwr
  subst hloc
  cases la with
  | length p =>
    have e1 : W2 p = some i := l2 p i Ua
    have e2 : W2 p = some j := Ub
    rw [e1] at e2
    cases e2
    exact hne rfl
  | dataDict =>
    have e1 : wa = false := Ua
    have e2 : wb = false := Ub
    simp [e1, e2] at hwr
  | expiresDict =>
    have e1 : wa = false := Ua
    have e2 : wb = false := Ub
    simp [e1, e2] at hwr

end Verif.Conc.Race

import Verif.Conc.FullProg
import Verif.Cache.Origin
/-!
# Where values come from when goroutines race

`PS k s`: the value `s` may stand under the key `k`; `PF k f s`: the value `s` may stand in the field
`f` of a hash made for `k`.  The memory gets a ghost owner for every address: the key it was made for.
-/
namespace Verif.Conc.Full
open Verif Verif.Conc

/-- The key each address was made for. -/
abbrev Own := Nat → Bytes

/-- More addresses have been given out. -/
structure Ext (o : Own) (n : Nat) (o' : Own) (n' : Nat) : Prop where
  next : n ≤ n'
  own : ∀ p, p < n → o' p = o p

theorem Ext.refl (o : Own) (n : Nat) : Ext o n o n := ⟨Nat.le_refl _, fun _ _ => rfl⟩
theorem Ext.trans {a b c : Own} {l m n : Nat} (h : Ext a l b m) (g : Ext b m c n) : Ext a l c n :=
  ⟨Nat.le_trans h.next g.next, fun p hp => (g.own p (Nat.lt_of_lt_of_le hp h.next)).trans (h.own p hp)⟩

/-- The fields of the entry may stand in a hash of `k`. -/
def Fields (PF : Bytes → Bytes → Scalar → Prop) (k : Bytes) (e : HashEntry) : Prop := ∀ q ∈ e.fields, PF k q.1 q.2

/-- Everything in memory is where it may be. -/
structure Sourced (PS : Bytes → Scalar → Prop) (PF : Bytes → Bytes → Scalar → Prop) (o : Own) (w : Mem) : Prop where
  ref : ∀ k p, w.data k = some (.ref p) → p < w.next ∧ o p = k
  str : ∀ k s, w.data k = some (.scalar s) → PS k s
  field : ∀ p, p < w.next → Fields PF (o p) (w.heap p)

/-- The program keeps the memory sourced, whatever others do that keep it sourced too. -/
def Traced (PS : Bytes → Scalar → Prop) (PF : Bytes → Bytes → Scalar → Prop) {α : Type} (Q : α → Own → Nat → Prop) :
    MP α → Own → Nat → Prop
  | .ret a, o, n => ∀ o' n', Ext o n o' n' → Q a o' n'
  | .act u k, o, n => ∀ (w : Mem) o', Ext o n o' w.next → Sourced PS PF o' w →
      ∃ o'', Ext o' w.next o'' (u w).next ∧ Sourced PS PF o'' (u w) ∧ Traced PS PF Q (k w) o'' (u w).next

variable {PS : Bytes → Scalar → Prop} {PF : Bytes → Bytes → Scalar → Prop}

theorem Traced.later {α : Type} {Q : α → Own → Nat → Prop} {p : MP α} {o o' : Own} {n n' : Nat} (h : Traced PS PF Q p o n)
    (he : Ext o n o' n') : Traced PS PF Q p o' n' := by
  cases p with
  | ret a => exact fun x m hx => h x m (he.trans hx)
  | act u k => exact fun w x hx hw => h w x (he.trans hx) hw

theorem traced_bind {α β : Type} {R : α → Own → Nat → Prop} {Q : β → Own → Nat → Prop} {p : MP α} {f : α → MP β} {o : Own} {n : Nat}
    (hp : Traced PS PF R p o n) (hf : ∀ a o n, R a o n → Traced PS PF Q (f a) o n) : Traced PS PF Q (p >>= f) o n := by
  induction p generalizing o n with
  | ret a => exact hf a o n (hp o n (.refl _ _))
  | act u k ih =>
    intro w o' he hw
    obtain ⟨o'', h1, h2, h3⟩ := hp w o' he hw
    exact ⟨o'', h1, h2, ih w h3⟩

/-- A claim about the result only. -/
abbrev Just {α : Type} (R : α → Prop) (a : α) (_ : Own) (_ : Nat) : Prop := R a
abbrev All {α : Type} (_ : α) : Prop := True

/-- Address `p` was made for `k`. -/
def Held (k : Bytes) (p : Nat) (o : Own) (n : Nat) : Prop := p < n ∧ o p = k

theorem Held.later {k : Bytes} {p : Nat} {o o' : Own} {n n' : Nat} (h : Held k p o n) (he : Ext o n o' n') : Held k p o' n' :=
  ⟨Nat.lt_of_lt_of_le h.1 he.next, (he.own p h.1).trans h.2⟩

/-- A slot of `k`. -/
def Slot (PS : Bytes → Scalar → Prop) (k : Bytes) (c : Option Cell) (o : Own) (n : Nat) : Prop :=
  (∀ p, c = some (.ref p) → Held k p o n) ∧ ∀ s, c = some (.scalar s) → PS k s

theorem Slot.later {k : Bytes} {c : Option Cell} {o o' : Own} {n n' : Nat} (h : Slot PS k c o n) (he : Ext o n o' n') : Slot PS k c o' n' :=
  ⟨fun p hp => (h.1 p hp).later he, h.2⟩

theorem traced_pure {α : Type} {R : α → Prop} {a : α} (h : R a) (o : Own) (n : Nat) : Traced PS PF (Just R) (pure a) o n := fun _ _ _ => h
theorem slot_ret {k : Bytes} {c : Option Cell} {o : Own} {n : Nat} (h : Slot PS k c o n) : Traced PS PF (Slot PS k) (.ret c) o n :=
  fun _ _ he => h.later he

/-- A step that gives out no address. -/
theorem traced_prim {α : Type} {Q : α → Own → Nat → Prop} {u : Mem → Mem} {r : Mem → α} {o : Own} {n : Nat}
    (h : ∀ (w : Mem) o', Ext o n o' w.next → Sourced PS PF o' w → (u w).next = w.next ∧ Sourced PS PF o' (u w) ∧
      ∀ x m, Ext o' w.next x m → Q (r w) x m) : Traced PS PF Q (prim u r) o n := by
  intro w o' he hw
  obtain ⟨h1, h2, h3⟩ := h w o' he hw
  rw [h1]
  exact ⟨o', .refl _ _, h2, h3⟩

theorem slot_load {w : Mem} {o : Own} (hw : Sourced PS PF o w) (k : Bytes) : Slot PS k (w.data k) o w.next :=
  ⟨fun p hp => hw.ref k p hp, fun s hs => hw.str k s hs⟩

theorem traced_loadData (k : Bytes) (o : Own) (n : Nat) : Traced PS PF (Slot PS k) (loadData k) o n :=
  traced_prim (fun w _ _ hw => ⟨rfl, hw, fun _ _ he => (slot_load hw k).later he⟩)

theorem traced_loadExp (k : Bytes) (o : Own) (n : Nat) : Traced PS PF (Just All) (loadExp k) o n :=
  traced_prim (fun _ _ _ hw => ⟨rfl, hw, fun _ _ _ => trivial⟩)

theorem traced_clock (o : Own) (n : Nat) : Traced PS PF (Just All) clock o n :=
  traced_prim (fun _ _ _ hw => ⟨rfl, hw, fun _ _ _ => trivial⟩)

theorem sourced_upd {w : Mem} {o : Own} (hw : Sourced PS PF o w) {k : Bytes} {c : Option Cell} (hr : ∀ p, c ≠ some (.ref p))
    (hs : ∀ s, c = some (.scalar s) → PS k s) : Sourced PS PF o { w with data := upd w.data k c } := by
  refine ⟨fun j p hj => ?_, fun j s hj => ?_, hw.field⟩
  · simp only [upd] at hj
    split at hj
    · exact absurd hj (hr p)
    · exact hw.ref _ _ hj
  · simp only [upd] at hj
    split at hj
    · rename_i e; exact e ▸ hs s hj
    · exact hw.str _ _ hj

theorem traced_storeData {k : Bytes} {s : Scalar} (hs : PS k s) (o : Own) (n : Nat) : Traced PS PF (Just All) (storeData k s) o n :=
  traced_prim (fun _ _ _ hw => ⟨rfl, sourced_upd hw (by simp) (fun s' h => by cases h; exact hs), fun _ _ _ => trivial⟩)

theorem traced_delData (k : Bytes) (o : Own) (n : Nat) : Traced PS PF (Just All) (delData k) o n :=
  traced_prim (fun _ _ _ hw => ⟨rfl, sourced_upd hw (by simp) (by simp), fun _ _ _ => trivial⟩)

theorem traced_storeExp (k : Bytes) (d : Int) (o : Own) (n : Nat) : Traced PS PF (Just All) (storeExp k d) o n :=
  traced_prim (fun _ _ _ hw => ⟨rfl, ⟨hw.ref, hw.str, hw.field⟩, fun _ _ _ => trivial⟩)

theorem traced_delExp (k : Bytes) (o : Own) (n : Nat) : Traced PS PF (Just All) (delExp k) o n :=
  traced_prim (fun _ _ _ hw => ⟨rfl, ⟨hw.ref, hw.str, hw.field⟩, fun _ _ _ => trivial⟩)

theorem traced_loadOrStore {k : Bytes} {s : Scalar} (hs : PS k s) (o : Own) (n : Nat) :
    Traced PS PF (Slot PS k) (loadOrStore k s) o n :=
  traced_prim (fun w o' _ hw => by
    refine ⟨?_, ?_, fun _ _ he => (slot_load hw k).later he⟩
    · split <;> rfl
    · split
      · exact hw
      · exact sourced_upd hw (by simp) (fun s' h => by cases h; exact hs))

theorem traced_publish (k : Bytes) (o : Own) (n : Nat) : Traced PS PF (Held k) (publish k) o n := by
  intro w o' _ hw
  have hex : Ext o' w.next (fun q => if q = w.next then k else o' q) (w.next + 1) :=
    ⟨Nat.le_succ _, fun p hp => by have : p ≠ w.next := by omega
                                   simp [this]⟩
  refine ⟨fun q => if q = w.next then k else o' q, hex, ⟨fun j p hj => ?_, fun j s hj => ?_, fun p hp => ?_⟩, fun x m he => ?_⟩
  · simp only [upd] at hj
    split at hj
    · rename_i e
      injection hj with hj; injection hj with hj
      subst hj
      exact ⟨Nat.lt_succ_self _, by simp [e]⟩
    · obtain ⟨h1, h2⟩ := hw.ref _ _ hj
      have : p ≠ w.next := by omega
      exact ⟨Nat.lt_succ_of_lt h1, by simp [this, h2]⟩
  · simp only [upd] at hj
    split at hj
    · cases hj
    · exact hw.str _ _ hj
  · by_cases e : p = w.next
    · simp [e, Fields, HashEntry.empty]
    · simp only [e, if_false]
      exact hw.field p (by simp only at hp; omega)
  · exact Held.later ⟨Nat.lt_succ_self _, by simp⟩ he

/-- A step on a hash of `k` that puts in only fields that may stand there, and whose result satisfies `R`. -/
theorem traced_entry {α : Type} {k : Bytes} {p : Nat} {u : HashEntry → HashEntry} {r : HashEntry → α} {R : α → Prop} {o : Own} {n : Nat}
    (hp : Held k p o n) (hu : ∀ e, Fields PF k e → Fields PF k (u e)) (hr : ∀ e, Fields PF k e → R (r e)) :
    Traced PS PF (fun a o n => Held k p o n ∧ R a) (entry p u r) o n :=
  traced_prim (fun w o' he hw => by
    have h := hp.later he
    have hf : Fields PF k (w.heap p) := h.2 ▸ hw.field p h.1
    refine ⟨rfl, ⟨hw.ref, hw.str, fun q hq => ?_⟩, fun x m hx => ⟨h.later hx, hr _ hf⟩⟩
    simp only
    split
    · rename_i e; subst e; rw [h.2]; exact hu _ hf
    · exact hw.field q hq)

theorem held_any {α : Type} {k : Bytes} {p : Nat} {R : α → Prop} {m : MP α} {o : Own} {n : Nat}
    (h : Traced PS PF (fun a o n => Held k p o n ∧ R a) m o n) : Traced PS PF (fun _ o n => Held k p o n) m o n := by
  induction m generalizing o n with
  | ret a => exact fun x m he => (h x m he).1
  | act u c ih =>
    intro w o' he hw
    obtain ⟨o'', h1, h2, h3⟩ := h w o' he hw
    exact ⟨o'', h1, h2, ih w h3⟩

theorem traced_fLoad {k : Bytes} {p : Nat} (f : Bytes) {o : Own} {n : Nat} (hp : Held k p o n) :
    Traced PS PF (fun a o n => Held k p o n ∧ ∀ s, a = some s → PF k f s) (fLoad p f) o n :=
  traced_entry hp (fun _ h => h) (fun _ h s hs => h (f, s) (hfind_mem hs))
theorem traced_fNames {k : Bytes} {p : Nat} {o : Own} {n : Nat} (hp : Held k p o n) :
    Traced PS PF (fun _ o n => Held k p o n) (fNames p) o n :=
  held_any (R := All) (traced_entry hp (fun _ h => h) (fun _ _ => trivial))
theorem traced_lenLoad {k : Bytes} {p : Nat} {o : Own} {n : Nat} (hp : Held k p o n) :
    Traced PS PF (fun _ o n => Held k p o n) (lenLoad p) o n :=
  held_any (R := All) (traced_entry hp (fun _ h => h) (fun _ _ => trivial))
theorem traced_lenStore {k : Bytes} {p : Nat} (i : Int) {o : Own} {n : Nat} (hp : Held k p o n) :
    Traced PS PF (fun _ o n => Held k p o n) (lenStore p i) o n :=
  held_any (R := All) (traced_entry hp (fun _ h => h) (fun _ _ => trivial))
theorem fields_put {k f : Bytes} {s : Scalar} (hs : PF k f s) {e : HashEntry} (h : Fields PF k e) :
    Fields PF k { e with fields := hput e.fields f s } := by
  intro q hq
  rcases hput_mem' hq with rfl | hq
  · exact hs
  · exact h q hq
theorem traced_fStore {k : Bytes} {p : Nat} {f : Bytes} {s : Scalar} (hs : PF k f s) {o : Own} {n : Nat} (hp : Held k p o n) :
    Traced PS PF (fun _ o n => Held k p o n) (fStore p f s) o n :=
  held_any (R := All) (traced_entry hp (fun _ h => fields_put hs h) (fun _ _ => trivial))
theorem traced_fDelete {k : Bytes} {p : Nat} (f : Bytes) {o : Own} {n : Nat} (hp : Held k p o n) :
    Traced PS PF (fun _ o n => Held k p o n) (fDelete p f) o n :=
  held_any (R := All) (traced_entry hp (fun _ h q hq => h q ((hdelete_sublist _ _).subset hq)) (fun _ _ => trivial))
theorem traced_fLoadOrStore {k : Bytes} {p : Nat} {f : Bytes} {s : Scalar} (hs : PF k f s) {o : Own} {n : Nat} (hp : Held k p o n) :
    Traced PS PF (fun _ o n => Held k p o n) (fLoadOrStore p f s) o n :=
  held_any (R := All) (traced_entry hp (fun e h => by
    split
    · exact h
    · exact fields_put hs h) (fun _ _ => trivial))

theorem held_ret {α : Type} {k : Bytes} {p : Nat} {o : Own} {n : Nat} (hp : Held k p o n) (a : α) :
    Traced PS PF (fun _ o n => Held k p o n) (.ret a) o n := fun _ _ he => hp.later he

theorem traced_lenAdd {k : Bytes} {p : Nat} (i : Int) {o : Own} {n : Nat} (hp : Held k p o n) :
    Traced PS PF (fun _ o n => Held k p o n) (lenAdd p i) o n :=
  traced_bind (traced_lenLoad hp) (fun _ _ _ h => traced_lenStore _ h)

theorem traced_setP {k : Bytes} {p : Nat} {f s : Bytes} (hs : PF k f (tryInt64 s)) {o : Own} {n : Nat} (hp : Held k p o n) :
    Traced PS PF (fun _ o n => Held k p o n) (setP p f s) o n := by
  refine traced_bind (traced_fLoadOrStore hs hp) (fun b o n h => ?_)
  cases b
  · exact traced_bind (traced_lenAdd _ h) (fun _ _ _ h => held_ret h _)
  · exact traced_bind (traced_fStore hs h) (fun _ _ _ h => traced_bind (traced_lenAdd _ h) (fun _ _ _ h => held_ret h _))

theorem traced_expiredP (k : Bytes) (o : Own) (n : Nat) : Traced PS PF (Just All) (expiredP k) o n := by
  refine traced_bind (traced_loadExp k o n) (fun d o n _ => ?_)
  cases d with
  | none => exact traced_pure trivial _ _
  | some d =>
    refine traced_bind (traced_clock o n) (fun t o n _ => ?_)
    split
    · exact traced_bind (traced_delData k _ _) (fun _ _ _ _ => traced_bind (traced_delExp k _ _) (fun _ _ _ _ => traced_pure trivial _ _))
    · exact traced_pure trivial _ _

theorem traced_keep {α : Type} {p : MP α} {o : Own} {n : Nat} {I : Own → Nat → Prop} (hI : ∀ a m b m', Ext a m b m' → I a m → I b m')
    (hv : I o n) {R : α → Own → Nat → Prop} (h : Traced PS PF R p o n) : Traced PS PF (fun a o n => I o n ∧ R a o n) p o n := by
  induction p generalizing o n with
  | ret a => exact fun w m hw => ⟨hI _ _ _ _ hw hv, h w m hw⟩
  | act u k ih =>
    intro w o' he hw
    obtain ⟨o'', h1, h2, h3⟩ := h w o' he hw
    exact ⟨o'', h1, h2, ih w (hI _ _ _ _ (he.trans h1) hv) h3⟩

theorem traced_getP (k : Bytes) (o : Own) (n : Nat) : Traced PS PF (Slot PS k) (getP k) o n := by
  refine traced_bind (traced_loadData k o n) (fun c o n h => ?_)
  cases c with
  | none => exact slot_ret h
  | some x =>
    refine traced_bind (traced_keep (I := Slot PS k (some x)) (fun _ _ _ _ he h => h.later he) h (traced_expiredP k o n))
      (fun b o n h => ?_)
    cases b
    · exact slot_ret h.1
    · exact slot_ret ⟨by simp, by simp⟩

theorem traced_expiresP (k : Bytes) (d : Int64) (o : Own) (n : Nat) : Traced PS PF (Just All) (expiresP k d) o n := by
  unfold expiresP
  split
  · exact traced_delExp k o n
  · exact traced_bind (traced_clock o n) (fun _ _ _ _ => traced_storeExp k _ _ _)

theorem traced_incrByP {k : Bytes} (hk : ∀ s, PS k s) (i : Int64) (o : Own) (n : Nat) : Traced PS PF (Just All) (incrByP k i) o n := by
  refine traced_bind (traced_loadOrStore (hk _) o n) (fun c o n _ => ?_)
  cases c with
  | none => exact traced_pure trivial _ _
  | some x =>
    cases x with
    | scalar s =>
      simp only
      split
      · exact traced_bind (traced_storeData (hk _) _ _) (fun _ _ _ _ => traced_pure trivial _ _)
      · exact traced_pure trivial _ _
    | ref p => exact traced_pure trivial _ _
    | time t => exact traced_pure trivial _ _

theorem traced_mSetP (kv : List (Bytes × Bytes)) (hk : ∀ p ∈ kv, PS p.1 (tryInt64 p.2)) (o : Own) (n : Nat) :
    Traced PS PF (Just All) (mSetP kv) o n := by
  induction kv generalizing o n with
  | nil => exact traced_pure trivial _ _
  | cons p kv ih =>
    exact traced_bind (traced_storeData (hk p (by simp)) _ _) (fun _ o n _ => ih (fun q hq => hk q (by simp [hq])) o n)

theorem traced_mSetNXP (kv : List (Bytes × Bytes)) (hk : ∀ p ∈ kv, PS p.1 (tryInt64 p.2)) (i : Int) (o : Own) (n : Nat) :
    Traced PS PF (Just All) (mSetNXP kv i) o n := by
  induction kv generalizing o n i with
  | nil => exact traced_pure trivial _ _
  | cons p kv ih =>
    refine traced_bind (traced_loadOrStore (hk p (by simp)) _ _) (fun c o n _ => ?_)
    cases c <;> exact ih (fun q hq => hk q (by simp [hq])) _ o n

/-- The text of a value that may stand under `k`. -/
def ShownS (PS : Bytes → Scalar → Prop) (k : Bytes) (r : Res Bytes) : Prop := ∀ v, r = .ok v → ∃ s, PS k s ∧ v = fmtScalar s

/-- The text of a value that may stand in the field `f` of `k`. -/
def ShownF (PF : Bytes → Bytes → Scalar → Prop) (k f : Bytes) (r : Res Bytes) : Prop := ∀ v, r = .ok v → ∃ s, PF k f s ∧ v = fmtScalar s

theorem shown_cell {k : Bytes} {x : Cell} {o : Own} {n : Nat} (h : Slot PS k (some x) o n) : ShownS PS k (fmtCell x) := by
  intro v hv
  cases x with
  | scalar s => cases hv; exact ⟨s, h.2 s rfl, rfl⟩
  | ref p => cases hv
  | time t => cases hv

theorem shown_nil (k : Bytes) (e : Err) : ShownS PS k (.err e) := fun _ h => by cases h

/-- Slot by slot. -/
def Each {β : Type} (R : β → Res Bytes → Prop) : List β → List (Res Bytes) → Prop
  | [], [] => True
  | b :: bs, r :: rs => R b r ∧ Each R bs rs
  | _, _ => False

theorem traced_mGetP (ks : List Bytes) (o : Own) (n : Nat) : Traced PS PF (Just (Each (ShownS PS) ks)) (mGetP ks) o n := by
  induction ks generalizing o n with
  | nil => exact traced_pure (by trivial) _ _
  | cons k ks ih =>
    refine traced_bind (traced_getP k o n) (fun c o n h => traced_bind (ih o n) (fun rs o n hrs => traced_pure ⟨?_, hrs⟩ o n))
    cases c with
    | none => exact shown_nil _ _
    | some x => exact shown_cell h

theorem traced_existsP (ks : List Bytes) (i : Int) (o : Own) (n : Nat) : Traced PS PF (Just All) (existsP ks i) o n := by
  induction ks generalizing o n i with
  | nil => exact traced_pure trivial _ _
  | cons k ks ih =>
    refine traced_bind (traced_loadData k o n) (fun c o n _ => ?_)
    cases c <;> exact ih _ o n

theorem traced_fetchP {α : Type} {R : Res α → Prop} {k : Bytes} {body : Nat → MP (Res α)} (o : Own) (n : Nat) (hR : ∀ e, R (.err e))
    (h : ∀ p o n, Held k p o n → Traced PS PF (Just R) (body p) o n) : Traced PS PF (Just R) (fetchP k body) o n := by
  refine traced_bind (traced_getP k o n) (fun c o n ho => ?_)
  cases c with
  | none => exact traced_bind (traced_publish k o n) (fun p o n hp => h p o n hp)
  | some x =>
    cases x with
    | ref p => exact h p o n (ho.1 p rfl)
    | scalar s => exact traced_pure (hR _) _ _
    | time t => exact traced_pure (hR _) _ _

theorem traced_readP {α : Type} {R : Res α → Prop} {k : Bytes} {body : Option Nat → MP (Res α)} (o : Own) (n : Nat) (hR : ∀ e, R (.err e))
    (h0 : ∀ o n, Traced PS PF (Just R) (body none) o n)
    (h : ∀ p o n, Held k p o n → Traced PS PF (Just R) (body (some p)) o n) : Traced PS PF (Just R) (readP k body) o n := by
  refine traced_bind (traced_getP k o n) (fun c o n ho => ?_)
  cases c with
  | none => exact h0 o n
  | some x =>
    cases x with
    | ref p => exact h p o n (ho.1 p rfl)
    | scalar s => exact traced_pure (hR _) _ _
    | time t => exact traced_pure (hR _) _ _

theorem traced_hMSetP {k : Bytes} (p : Nat) (fv : List (Bytes × Bytes)) (hs : ∀ q ∈ fv, PF k q.1 (tryInt64 q.2)) (i : Int) {o : Own} {n : Nat}
    (hp : Held k p o n) : Traced PS PF (Just All) (hMSetP p fv i) o n := by
  induction fv generalizing o n i with
  | nil => exact traced_pure trivial _ _
  | cons f fv ih => exact traced_bind (traced_setP (hs f (by simp)) hp) (fun _ _ _ h => ih (fun q hq => hs q (by simp [hq])) _ h)

theorem traced_hDelP {k : Bytes} (p : Nat) (fs : List Bytes) (i : Int) {o : Own} {n : Nat} (hp : Held k p o n) :
    Traced PS PF (Just All) (hDelP p fs i) o n := by
  induction fs generalizing o n i with
  | nil =>
    simp only [hDelP]
    split
    · exact traced_pure trivial _ _
    · exact traced_bind (traced_lenAdd _ hp) (fun _ _ _ _ => traced_pure trivial _ _)
  | cons f fs ih =>
    refine traced_bind (traced_fLoad _ hp) (fun c o n h => ?_)
    cases c with
    | none => exact ih _ h.1
    | some s => exact traced_bind (traced_fDelete _ h.1) (fun _ _ _ h => ih _ h)

theorem traced_hMGetP_none (k : Bytes) (fs : List Bytes) (o : Own) (n : Nat) :
    Traced PS PF (Just (Each (ShownF PF k) fs)) (hMGetP none fs) o n := by
  induction fs generalizing o n with
  | nil => exact traced_pure (by trivial) _ _
  | cons f fs ih => exact traced_bind (ih o n) (fun _ _ _ h => traced_pure ⟨(fun _ h => by cases h), h⟩ _ _)

theorem traced_hMGetP {k : Bytes} (p : Nat) (fs : List Bytes) {o : Own} {n : Nat} (hp : Held k p o n) :
    Traced PS PF (Just (Each (ShownF PF k) fs)) (hMGetP (some p) fs) o n := by
  induction fs generalizing o n with
  | nil => exact traced_pure (by trivial) _ _
  | cons f fs ih =>
    refine traced_bind (traced_fLoad _ hp) (fun c o n h => traced_bind (ih h.1) (fun _ _ _ hr => traced_pure ⟨fun v hv => ?_, hr⟩ _ _))
    cases c with
    | none => cases hv
    | some s => cases hv; exact ⟨s, h.2 s rfl, rfl⟩

theorem traced_hKeysP {k : Bytes} (p : Nat) (fs : List Bytes) {o : Own} {n : Nat} (hp : Held k p o n) :
    Traced PS PF (Just (fun rs => ∀ f ∈ rs, ∃ s, PF k f s)) (hKeysP p fs) o n := by
  induction fs generalizing o n with
  | nil => exact traced_pure (by simp) _ _
  | cons f fs ih =>
    refine traced_bind (traced_fLoad _ hp) (fun c o n h => traced_bind (ih h.1) (fun _ _ _ hr => traced_pure ?_ _ _))
    cases c with
    | none => exact hr
    | some s =>
      intro g hg
      rcases List.mem_cons.1 hg with rfl | hg
      · exact ⟨s, h.2 s rfl⟩
      · exact hr g hg

theorem traced_hValsP {k : Bytes} (p : Nat) (fs : List Bytes) {o : Own} {n : Nat} (hp : Held k p o n) :
    Traced PS PF (Just (fun rs => ∀ v ∈ rs, ∃ f, PF k f (.str v))) (hValsP p fs) o n := by
  induction fs generalizing o n with
  | nil => exact traced_pure (by simp) _ _
  | cons f fs ih =>
    refine traced_bind (traced_fLoad _ hp) (fun c o n h => traced_bind (ih h.1) (fun rs _ _ hr => traced_pure ?_ _ _))
    intro v hv
    cases c with
    | none => exact hr v hv
    | some s =>
      cases s with
      | str s =>
        rcases List.mem_cons.1 hv with rfl | hv
        · exact ⟨f, h.2 _ rfl⟩
        · exact hr v hv
      | _ => exact hr v hv

theorem traced_hGetAllP {k : Bytes} (p : Nat) (fs : List Bytes) {o : Own} {n : Nat} (hp : Held k p o n) :
    Traced PS PF (Just All) (hGetAllP p fs) o n := by
  induction fs generalizing o n with
  | nil => exact traced_pure trivial _ _
  | cons f fs ih =>
    refine traced_bind (traced_fLoad _ hp) (fun c o n h => ?_)
    cases c with
    | none => exact ih h.1
    | some s => simp only [fmtCell]; exact ih h.1

/-- What a call shows comes from where it may come from. -/
def Shows (PS : Bytes → Scalar → Prop) (PF : Bytes → Bytes → Scalar → Prop) : Call → Out → Prop
  | .get k, .str r | .getSet k _, .str r => ShownS PS k r
  | .mGet ks, .slots (.ok rs) => Each (ShownS PS) ks rs
  | .hGet k f, .str r => ShownF PF k f r
  | .hMGet k fs, .slots (.ok rs) => Each (ShownF PF k) fs rs
  | .hKeys k, .strs (.ok rs) => ∀ f ∈ rs, ∃ s, PF k f s
  | .hVals k, .strs (.ok rs) => ∀ v ∈ rs, ∃ f, PF k f (.str v)
  | _, _ => True

/-- The call brings in only what may stand there. -/
structure Brings (PS : Bytes → Scalar → Prop) (PF : Bytes → Bytes → Scalar → Prop) (op : Call) : Prop where
  gives : ∀ k w, Gives op k w → PS k (tryInt64 w)
  edits : ∀ k, Edits op k → ∀ s, PS k s
  fields : ∀ k f w, GivesField op k f w → PF k f (tryInt64 w) ∧ PF k f (.str w)

theorem traced_prog (op : Call) (h : Brings PS PF op) (o : Own) (n : Nat) : Traced PS PF (Just (Shows PS PF op)) (prog op) o n := by
  cases op with
  | set k s => exact traced_bind (traced_storeData (h.gives _ _ (.set k s)) o n) (fun _ _ _ _ => traced_pure trivial _ _)
  | setNX k s =>
    refine traced_bind (traced_loadOrStore (h.gives _ _ (.setNX k s)) o n) (fun c o n _ => ?_)
    cases c <;> exact traced_pure trivial _ _
  | setEX k s d =>
    exact traced_bind (traced_storeData (h.gives _ _ (.setEX k s d)) o n) (fun _ _ _ _ =>
      traced_bind (traced_expiresP k _ _ _) (fun _ _ _ _ => traced_pure trivial _ _))
  | pSetEX k s d =>
    exact traced_bind (traced_storeData (h.gives _ _ (.pSetEX k s d)) o n) (fun _ _ _ _ =>
      traced_bind (traced_expiresP k _ _ _) (fun _ _ _ _ => traced_pure trivial _ _))
  | get k =>
    refine traced_bind (traced_getP k o n) (fun c o n hc => ?_)
    cases c with
    | none => exact fun _ _ _ => shown_nil k _
    | some x => exact fun _ _ _ => shown_cell hc
  | getSet k s =>
    refine traced_bind (traced_getP k o n) (fun c o n hc => traced_bind (traced_storeData (h.gives _ _ (.getSet k s)) o n) (fun _ _ _ _ => ?_))
    cases c with
    | none => exact fun _ _ _ => shown_nil k _
    | some x => exact fun _ _ _ => shown_cell hc
  | strLen k =>
    refine traced_bind (traced_getP k o n) (fun c o n hc => ?_)
    cases c <;> exact traced_pure trivial _ _
  | append k s =>
    have he := h.edits _ (.append k s)
    refine traced_bind (traced_getP k o n) (fun c o n hc => ?_)
    cases c with
    | none => exact traced_bind (traced_storeData (he _) _ _) (fun _ _ _ _ => traced_pure trivial _ _)
    | some x =>
      simp only
      split
      · exact traced_bind (traced_storeData (he _) _ _) (fun _ _ _ _ => traced_pure trivial _ _)
      · exact traced_pure trivial _ _
      · exact traced_pure trivial _ _
  | setRange k pos r =>
    have he := h.edits _ (.setRange k pos r)
    simp only [prog]
    split
    · exact traced_pure trivial _ _
    · refine traced_bind (traced_getP k o n) (fun c o n hc => ?_)
      cases c with
      | none =>
        simp only
        split
        · exact traced_pure trivial _ _
        · exact traced_bind (traced_storeData (he _) _ _) (fun _ _ _ _ => traced_pure trivial _ _)
      | some x =>
        simp only
        split
        · split
          · exact traced_pure trivial _ _
          · exact traced_bind (traced_storeData (he _) _ _) (fun _ _ _ _ => traced_pure trivial _ _)
        · exact traced_pure trivial _ _
        · exact traced_pure trivial _ _
  | getRange k a b =>
    refine traced_bind (traced_getP k o n) (fun c o n hc => ?_)
    cases c <;> exact traced_pure trivial _ _
  | incr k => exact traced_bind (traced_incrByP (h.edits _ (.incr k)) _ o n) (fun _ _ _ _ => traced_pure trivial _ _)
  | incrBy k i => exact traced_bind (traced_incrByP (h.edits _ (.incrBy k i)) _ o n) (fun _ _ _ _ => traced_pure trivial _ _)
  | decr k => exact traced_bind (traced_incrByP (h.edits _ (.decr k)) _ o n) (fun _ _ _ _ => traced_pure trivial _ _)
  | decrBy k i => exact traced_bind (traced_incrByP (h.edits _ (.decrBy k i)) _ o n) (fun _ _ _ _ => traced_pure trivial _ _)
  | incrByFloat k x =>
    have he := h.edits _ (.incrByFloat k x)
    refine traced_bind (traced_loadOrStore (he _) o n) (fun c o n _ => ?_)
    split
    · exact traced_pure trivial _ _
    · exact traced_bind (traced_storeData (he _) _ _) (fun _ _ _ _ => traced_pure trivial _ _)
    · exact traced_bind (traced_storeData (he _) _ _) (fun _ _ _ _ => traced_pure trivial _ _)
    · exact traced_pure trivial _ _
  | mSet kv => exact traced_bind (traced_mSetP kv (fun p hp => h.gives _ _ (.mSet kv p.1 p.2 hp)) o n) (fun _ _ _ _ => traced_pure trivial _ _)
  | mSetNX kv =>
    exact traced_bind (traced_mSetNXP kv (fun p hp => h.gives _ _ (.mSetNX kv p.1 p.2 hp)) 0 o n) (fun _ _ _ _ => traced_pure trivial _ _)
  | mGet ks => exact traced_bind (traced_mGetP ks o n) (fun _ _ _ hr _ _ _ => hr)
  | del k =>
    exact traced_bind (traced_getP k o n) (fun _ _ _ _ => traced_bind (traced_delData k _ _) (fun _ _ _ _ =>
      traced_bind (traced_delExp k _ _) (fun _ _ _ _ => traced_pure trivial _ _)))
  | flush =>
    exact traced_bind (R := Just All) (traced_prim (fun _ _ _ hw => ⟨rfl, ⟨fun _ _ h => by simp at h, fun _ _ h => by simp at h, hw.field⟩,
      fun _ _ _ => trivial⟩)) (fun _ _ _ _ => traced_bind (R := Just All) (traced_prim (fun _ _ _ hw => ⟨rfl, ⟨hw.ref, hw.str, hw.field⟩,
      fun _ _ _ => trivial⟩)) (fun _ _ _ _ => traced_pure trivial _ _))
  | exists_ ks => exact traced_bind (traced_existsP ks 0 o n) (fun _ _ _ _ => traced_pure trivial _ _)
  | type k =>
    refine traced_bind (traced_getP k o n) (fun c o n hc => ?_)
    cases c <;> exact traced_pure trivial _ _
  | hSet k f s =>
    exact traced_bind (R := Just All) (traced_fetchP o n (fun _ => trivial) (fun p o n hp =>
      traced_bind (traced_setP (h.fields _ _ _ (.hSet k f s)).1 hp) (fun _ _ _ _ => traced_pure trivial _ _))) (fun _ _ _ _ => traced_pure trivial _ _)
  | hSetNX k f s =>
    refine traced_bind (R := Just All) (traced_fetchP o n (fun _ => trivial) (fun p o n hp =>
      traced_bind (traced_fLoadOrStore (h.fields _ _ _ (.hSetNX k f s)).2 hp) (fun b o n hb => ?_))) (fun _ _ _ _ => traced_pure trivial _ _)
    cases b
    · exact traced_bind (traced_lenAdd _ hb) (fun _ _ _ _ => traced_pure trivial _ _)
    · exact traced_pure trivial _ _
  | hExists k f =>
    exact traced_bind (R := Just All) (traced_readP o n (fun _ => trivial) (fun _ _ => traced_pure trivial _ _) (fun p o n hp =>
      traced_bind (traced_fLoad f hp) (fun _ _ _ hc => traced_bind (traced_lenAdd _ hc.1) (fun _ _ _ _ => traced_pure trivial _ _))))
      (fun _ _ _ _ => traced_pure trivial _ _)
  | hDel k fs =>
    exact traced_bind (R := Just All) (traced_readP o n (fun _ => trivial) (fun _ _ => traced_pure trivial _ _) (fun p o n hp =>
      traced_hDelP p fs 0 hp)) (fun _ _ _ _ => traced_pure trivial _ _)
  | hLen k =>
    exact traced_bind (R := Just All) (traced_readP o n (fun _ => trivial) (fun _ _ => traced_pure trivial _ _) (fun p o n hp =>
      traced_bind (traced_lenLoad hp) (fun _ _ _ _ => traced_pure trivial _ _))) (fun _ _ _ _ => traced_pure trivial _ _)
  | hStrLen k f =>
    exact traced_bind (R := Just All) (traced_readP o n (fun _ => trivial) (fun _ _ => traced_pure trivial _ _) (fun p o n hp =>
      traced_bind (traced_fLoad f hp) (fun c _ _ _ => by cases c <;> exact traced_pure trivial _ _))) (fun _ _ _ _ => traced_pure trivial _ _)
  | hGet k f =>
    refine traced_bind (R := Just (ShownF PF k f)) (traced_readP o n (fun _ _ h => by cases h)
      (fun _ _ => traced_pure (fun _ h => by cases h) _ _) (fun p o n hp =>
      traced_bind (traced_fLoad f hp) (fun c _ _ hc => ?_))) (fun r _ _ hr _ _ _ => hr)
    cases c with
    | none => exact traced_pure (fun _ h => by cases h) _ _
    | some s => exact traced_pure (fun v hv => by cases hv; exact ⟨s, hc.2 s rfl, rfl⟩) _ _
  | hIncrBy k f i =>
    have hs := (h.fields _ _ _ (.hIncrBy k f i)).1
    refine traced_bind (R := Just All) (traced_fetchP o n (fun _ => trivial) (fun p o n hp =>
      traced_bind (traced_fLoad f hp) (fun c o n hc => ?_))) (fun _ _ _ _ => traced_pure trivial _ _)
    cases c with
    | none => exact traced_bind (traced_setP hs hc.1) (fun _ _ _ _ => traced_pure trivial _ _)
    | some x =>
      simp only
      split
      · exact traced_bind (traced_setP hs hc.1) (fun _ _ _ _ => traced_pure trivial _ _)
      · exact traced_pure trivial _ _
  | hIncrByFloat k f x =>
    have hs := (h.fields _ _ _ (.hIncrByFloat k f x)).1
    refine traced_bind (R := Just All) (traced_fetchP o n (fun _ => trivial) (fun p o n hp =>
      traced_bind (traced_fLoad f hp) (fun c o n hc => ?_))) (fun _ _ _ _ => traced_pure trivial _ _)
    cases c with
    | none => exact traced_bind (traced_setP hs hc.1) (fun _ _ _ _ => traced_pure trivial _ _)
    | some x =>
      simp only
      split
      · exact traced_bind (traced_setP hs hc.1) (fun _ _ _ _ => traced_pure trivial _ _)
      · exact traced_pure trivial _ _
  | hMSet k fv =>
    exact traced_bind (R := Just All) (traced_fetchP o n (fun _ => trivial) (fun p o n hp =>
      traced_hMSetP p fv (fun q hq => (h.fields _ _ _ (.hMSet k fv q.1 q.2 hq)).1) 0 hp)) (fun _ _ _ _ => traced_pure trivial _ _)
  | hMGet k fs =>
    refine traced_bind (R := Just (fun r => Shows PS PF (.hMGet k fs) (.slots r))) (traced_readP o n (fun _ => trivial)
      (fun o n => traced_bind (traced_hMGetP_none k fs o n) (fun _ _ _ hr _ _ _ => hr))
      (fun p o n hp => traced_bind (traced_hMGetP p fs hp) (fun _ _ _ hr _ _ _ => hr))) (fun r _ _ hr _ _ _ => hr)
  | hKeys k =>
    refine traced_bind (R := Just (fun r => Shows PS PF (.hKeys k) (.strs r))) (traced_readP o n (fun _ => trivial)
      (fun o n => traced_pure trivial _ _) (fun p o n hp => traced_bind (traced_fNames hp) (fun ns _ _ hp =>
      traced_bind (traced_hKeysP p ns hp) (fun _ _ _ hr _ _ _ => hr)))) (fun r _ _ hr _ _ _ => hr)
  | hVals k =>
    refine traced_bind (R := Just (fun r => Shows PS PF (.hVals k) (.strs r))) (traced_readP o n (fun _ => trivial)
      (fun o n => traced_pure trivial _ _) (fun p o n hp => traced_bind (traced_fNames hp) (fun ns _ _ hp =>
      traced_bind (traced_hValsP p ns hp) (fun _ _ _ hr _ _ _ => hr)))) (fun r _ _ hr _ _ _ => hr)
  | hGetAll k =>
    exact traced_bind (R := Just All) (traced_readP o n (fun _ => trivial) (fun _ _ => traced_pure trivial _ _) (fun p o n hp =>
      traced_bind (traced_fNames hp) (fun ns _ _ hp => traced_hGetAllP p ns hp))) (fun _ _ _ _ => traced_pure trivial _ _)
  | list i => exact traced_pure trivial _ _
  | cronTick =>
    exact traced_bind (R := Just All) (traced_prim (fun _ _ _ hw => ⟨rfl, ⟨fun k p h => hw.ref k p (cron_sub h),
      fun k s h => hw.str k s (cron_sub h), hw.field⟩, fun _ _ _ => trivial⟩)) (fun _ _ _ _ => traced_pure trivial _ _)

/-- Along every schedule the memory stays sourced, and every answer shows only what may stand there. -/
theorem traced_sound {v : Mem} {o : Own} (hv : Sourced PS PF o v) {calls : Nat → List Call} (hc : ∀ i, ∀ op ∈ calls i, Brings PS PF op)
    {g : Cfg} (h : Steps spec true (initial v calls) g) :
    ∃ o, Sourced PS PF o g.sh ∧ (∀ e ∈ g.log, Shows PS PF e.2.1 e.2.2) ∧
    (∀ i op p, (g.thr i).cur = some (op, p) → Traced PS PF (Just (Shows PS PF op)) p o g.sh.next) ∧
    (∀ i, ∀ op ∈ (g.thr i).todo, Brings PS PF op) := by
  induction h with
  | refl => exact ⟨o, hv, by simp [initial], by simp [initial], by simpa [initial] using hc⟩
  | snoc _ st ih =>
    obtain ⟨o, h1, h2, h3, h4⟩ := ih
    have start : ∀ (g : Cfg) (i : Nat) (op : Call) (rest : List Call), g.thr i = ⟨op :: rest, none⟩ →
        (∀ i op p, (g.thr i).cur = some (op, p) → Traced PS PF (Just (Shows PS PF op)) p o g.sh.next) →
        (∀ i, ∀ op ∈ (g.thr i).todo, Brings PS PF op) →
        (∀ j op' p, (setThr g.thr i ⟨rest, some (op, prog op)⟩ j).cur = some (op', p) →
          Traced PS PF (Just (Shows PS PF op')) p o g.sh.next) ∧
        (∀ j, ∀ op' ∈ (setThr g.thr i ⟨rest, some (op, prog op)⟩ j).todo, Brings PS PF op') := by
      intro g i op rest hti h3 h4
      have hok := h4 i
      rw [hti] at hok
      constructor
      · intro j op' p hj
        by_cases e : j = i
        · subst e; simp at hj; obtain ⟨rfl, rfl⟩ := hj; exact traced_prog _ (hok _ (by simp)) _ _
        · rw [setThr_ne _ _ e] at hj; exact h3 j op' p hj
      · intro j op' hj
        by_cases e : j = i
        · subst e; simp at hj; exact hok _ (by simp [hj])
        · rw [setThr_ne _ _ e] at hj; exact h4 j op' hj
    cases st with
    | tick s' h =>
      obtain ⟨n, _, rfl⟩ := h
      exact ⟨o, ⟨h1.ref, h1.str, h1.field⟩, h2, h3, h4⟩
    | startW i op rest hti hm hw hr => exact ⟨o, h1, h2, start _ i op rest hti h3 h4⟩
    | startR i op rest hti hm hw hr => exact ⟨o, h1, h2, start _ i op rest hti h3 h4⟩
    | startN i op rest hti hm => exact ⟨o, h1, h2, start _ i op rest hti h3 h4⟩
    | act i op todo u k hti =>
      have ht := h3 i op (.act u k) (by rw [hti])
      obtain ⟨o', e1, e2, e3⟩ := ht _ o (.refl _ _) h1
      refine ⟨o', e2, h2, ?_, ?_⟩
      · intro j op' p hj
        by_cases e : j = i
        · subst e; simp at hj; obtain ⟨rfl, rfl⟩ := hj; exact e3
        · simp only [setThr_ne _ _ e] at hj; exact (h3 j op' p hj).later e1
      · intro j op' hj
        by_cases e : j = i
        · subst e; simp at hj; exact h4 j op' (by rw [hti]; exact hj)
        · simp only [setThr_ne _ _ e] at hj; exact h4 j op' hj
    | fin i op todo a hti =>
      have hk : Shows PS PF op a := h3 i op (.ret a) (by rw [hti]) _ _ (.refl _ _)
      refine ⟨o, h1, ?_, ?_, ?_⟩
      · intro e he
        simp at he
        rcases he with he | rfl
        · exact h2 e he
        · exact hk
      · intro j op' p hj
        by_cases e : j = i
        · subst e; simp at hj
        · simp only [setThr_ne _ _ e] at hj; exact h3 j op' p hj
      · intro j op' hj
        by_cases e : j = i
        · subst e; simp at hj; exact h4 j op' (by rw [hti]; exact hj)
        · simp only [setThr_ne _ _ e] at hj; exact h4 j op' hj

end Verif.Conc.Full

import Verif.Conc.Race
import Verif.Conc.Source
/-!
# Which variables a call may touch
-/
namespace Verif.Conc.Race
open Verif
open Verif.Conc.Full (Cell Mem fmtCell cronCell Own Ext Held)

/-! ## The two machines make the same steps -/

/-- The same state up to the lists of accesses. -/
structure Same (g : Cfg) (f : Full.Cfg) : Prop where
  sh : g.sh.mem = f.sh
  writer : g.writer = f.writer
  readers : g.readers = f.readers
  log : g.log = f.log
  todo : ∀ i, (g.thr i).todo = (f.thr i).todo
  idle : ∀ i, (g.thr i).cur = none ↔ (f.thr i).cur = none
  cur : ∀ i op p op' p', (g.thr i).cur = some (op, p) → (f.thr i).cur = some (op', p') → op = op' ∧ Sim p p'

theorem Same.busy {g : Cfg} {f : Full.Cfg} (h : Same g f) {i : Nat} {todo : List Call} {op : Call} {p : GP Out}
    (ht : g.thr i = ⟨todo, some (op, p)⟩) : ∃ p', f.thr i = ⟨todo, some (op, p')⟩ ∧ Sim p p' := by
  have h1 := h.todo i
  have h2 := (h.idle i)
  rw [ht] at h1 h2
  cases hc : (f.thr i).cur with
  | none => rw [hc] at h2; simp at h2
  | some q =>
    obtain ⟨op', p'⟩ := q
    obtain ⟨rfl, hs⟩ := h.cur i op p op' p' (by rw [ht]) hc
    exact ⟨p', by cases hf : f.thr i; simp_all, hs⟩

theorem Same.free {g : Cfg} {f : Full.Cfg} (h : Same g f) {i : Nat} {todo : List Call}
    (ht : g.thr i = ⟨todo, none⟩) : f.thr i = ⟨todo, none⟩ := by
  have h1 := h.todo i
  have h2 := (h.idle i)
  rw [ht] at h1 h2
  cases hf : f.thr i
  simp_all

theorem Same.busy' {g : Cfg} {f : Full.Cfg} (h : Same g f) {i : Nat} {todo : List Call} {op : Call} {p : Full.MP Out}
    (ht : f.thr i = ⟨todo, some (op, p)⟩) : ∃ p', g.thr i = ⟨todo, some (op, p')⟩ ∧ Sim p' p := by
  have h1 := h.todo i
  have h2 := (h.idle i)
  rw [ht] at h1 h2
  cases hc : (g.thr i).cur with
  | none => rw [hc] at h2; simp at h2
  | some q =>
    obtain ⟨op', p'⟩ := q
    obtain ⟨rfl, hs⟩ := h.cur i op' p' op p hc (by rw [ht])
    exact ⟨p', by cases hf : g.thr i; simp_all, hs⟩

theorem Same.free' {g : Cfg} {f : Full.Cfg} (h : Same g f) {i : Nat} {todo : List Call}
    (ht : f.thr i = ⟨todo, none⟩) : g.thr i = ⟨todo, none⟩ := by
  have h1 := h.todo i
  have h2 := (h.idle i)
  rw [ht] at h1 h2
  cases hf : g.thr i
  simp_all

theorem same_thr {g : Cfg} {f : Full.Cfg} (h : Same g f) (i : Nat) {t : Thread G Call Out} {t' : Thread Mem Call Out}
    (h1 : t.todo = t'.todo) (h2 : t.cur = none ↔ t'.cur = none)
    (h3 : ∀ op p op' p', t.cur = some (op, p) → t'.cur = some (op', p') → op = op' ∧ Sim p p') :
    (∀ j, (setThr g.thr i t j).todo = (setThr f.thr i t' j).todo) ∧
    (∀ j, (setThr g.thr i t j).cur = none ↔ (setThr f.thr i t' j).cur = none) ∧
    (∀ j op p op' p', (setThr g.thr i t j).cur = some (op, p) → (setThr f.thr i t' j).cur = some (op', p') → op = op' ∧ Sim p p') := by
  refine ⟨fun j => ?_, fun j => ?_, fun j => ?_⟩ <;>
    by_cases hj : j = i <;> simp only [setThr, hj, if_true, if_false]
  · exact h1
  · exact h.todo j
  · exact h2
  · exact h.idle j
  · exact h3
  · exact h.cur j

theorem same_start {g : Cfg} {f : Full.Cfg} (h : Same g f) (i : Nat) (op : Call) (rest : List Call) :
    (∀ j, (setThr g.thr i ⟨rest, some (op, spec.prog op)⟩ j).todo = (setThr f.thr i ⟨rest, some (op, Full.spec.prog op)⟩ j).todo) ∧
    (∀ j, (setThr g.thr i ⟨rest, some (op, spec.prog op)⟩ j).cur = none ↔
      (setThr f.thr i ⟨rest, some (op, Full.spec.prog op)⟩ j).cur = none) ∧
    (∀ j a p b q, (setThr g.thr i ⟨rest, some (op, spec.prog op)⟩ j).cur = some (a, p) →
      (setThr f.thr i ⟨rest, some (op, Full.spec.prog op)⟩ j).cur = some (b, q) → a = b ∧ Sim p q) :=
  same_thr h i (t := ⟨rest, some (op, spec.prog op)⟩) (t' := ⟨rest, some (op, Full.spec.prog op)⟩) rfl (by simp)
    (by intro a p b q e1 e2; cases e1; cases e2; exact ⟨rfl, sim_prog op⟩)

/-- Every step here is a step there. -/
theorem same_step {ov : Bool} {g g' : Cfg} {f : Full.Cfg} (h : Same g f) (st : Step spec ov g g') :
    ∃ f', Step Full.spec ov f f' ∧ Same g' f' := by
  cases st with
  | tick s' ht =>
    obtain ⟨n, h1, rfl⟩ := ht
    exact ⟨_, .tick f { f.sh with now := n } ⟨n, by rw [← h.sh]; exact h1, rfl⟩,
      ⟨by simp [h.sh], h.writer, h.readers, h.log, h.todo, h.idle, h.cur⟩⟩
  | startW i op rest ht hm hw hr =>
    obtain ⟨a, b, c⟩ := same_start h i op rest
    exact ⟨_, .startW f i op rest (h.free ht) hm (h.writer ▸ hw) (h.readers ▸ hr), ⟨h.sh, rfl, h.readers, h.log, a, b, c⟩⟩
  | startR i op rest ht hm hw hr =>
    obtain ⟨a, b, c⟩ := same_start h i op rest
    exact ⟨_, .startR f i op rest (h.free ht) hm (h.writer ▸ hw) (h.readers ▸ hr),
      ⟨h.sh, h.writer, by simp [h.readers], h.log, a, b, c⟩⟩
  | startN i op rest ht hm =>
    obtain ⟨a, b, c⟩ := same_start h i op rest
    exact ⟨_, .startN f i op rest (h.free ht) hm, ⟨h.sh, h.writer, h.readers, h.log, a, b, c⟩⟩
  | act i op todo u k ht =>
    obtain ⟨p', e, hs⟩ := h.busy ht
    cases hs with
    | act hu hk =>
      rename_i u' k'
      obtain ⟨a, b, c⟩ := same_thr h i (t := ⟨todo, some (op, k g.sh)⟩) (t' := ⟨todo, some (op, k' f.sh)⟩) rfl (by simp)
        (by intro a p b q e1 e2; cases e1; cases e2; exact ⟨rfl, by rw [← h.sh]; exact hk _⟩)
      exact ⟨_, .act f i op todo u' k' e, ⟨by simp only; rw [hu, h.sh], h.writer, h.readers, h.log, a, b, c⟩⟩
  | fin i op todo o ht =>
    obtain ⟨p', e, hs⟩ := h.busy ht
    cases hs with
    | ret =>
      obtain ⟨a, b, c⟩ := same_thr h i (t := ⟨todo, none⟩) (t' := ⟨todo, none⟩) rfl (by simp) (by simp)
      exact ⟨_, .fin f i op todo o e, ⟨h.sh, by simp only; rw [h.writer]; rfl, by simp only; rw [h.readers]; rfl, by simp only; rw [h.log], a, b, c⟩⟩

/-- Every step there is a step here. -/
theorem same_step' {ov : Bool} {g : Cfg} {f f' : Full.Cfg} (h : Same g f) (st : Step Full.spec ov f f') :
    ∃ g', Step spec ov g g' ∧ Same g' f' := by
  cases st with
  | tick s' ht =>
    obtain ⟨n, h1, rfl⟩ := ht
    exact ⟨_, .tick g ⟨{ g.sh.mem with now := n }, g.sh.acc⟩ ⟨n, by rw [h.sh]; exact h1, rfl⟩,
      ⟨by simp [h.sh], h.writer, h.readers, h.log, h.todo, h.idle, h.cur⟩⟩
  | startW i op rest ht hm hw hr =>
    obtain ⟨a, b, c⟩ := same_start h i op rest
    exact ⟨_, .startW g i op rest (h.free' ht) hm (h.writer ▸ hw) (h.readers ▸ hr), ⟨h.sh, rfl, h.readers, h.log, a, b, c⟩⟩
  | startR i op rest ht hm hw hr =>
    obtain ⟨a, b, c⟩ := same_start h i op rest
    exact ⟨_, .startR g i op rest (h.free' ht) hm (h.writer ▸ hw) (h.readers ▸ hr),
      ⟨h.sh, h.writer, by simp [h.readers], h.log, a, b, c⟩⟩
  | startN i op rest ht hm =>
    obtain ⟨a, b, c⟩ := same_start h i op rest
    exact ⟨_, .startN g i op rest (h.free' ht) hm, ⟨h.sh, h.writer, h.readers, h.log, a, b, c⟩⟩
  | act i op todo u' k' ht =>
    obtain ⟨p', e, hs⟩ := h.busy' ht
    cases hs with
    | act hu hk =>
      rename_i u k
      obtain ⟨a, b, c⟩ := same_thr h i (t := ⟨todo, some (op, k g.sh)⟩) (t' := ⟨todo, some (op, k' f.sh)⟩) rfl (by simp)
        (by intro a p b q e1 e2; cases e1; cases e2; exact ⟨rfl, by rw [← h.sh]; exact hk _⟩)
      exact ⟨_, .act g i op todo u k e, ⟨by simp only; rw [hu, h.sh], h.writer, h.readers, h.log, a, b, c⟩⟩
  | fin i op todo o ht =>
    obtain ⟨p', e, hs⟩ := h.busy' ht
    cases hs with
    | ret =>
      obtain ⟨a, b, c⟩ := same_thr h i (t := ⟨todo, none⟩) (t' := ⟨todo, none⟩) rfl (by simp) (by simp)
      exact ⟨_, .fin g i op todo o e, ⟨h.sh, by simp only; rw [h.writer]; rfl, by simp only; rw [h.readers]; rfl, by simp only; rw [h.log], a, b, c⟩⟩

theorem same_initial (v : Mem) (calls : Nat → List Call) : Same (start v calls) (initial v calls) :=
  ⟨rfl, rfl, rfl, rfl, fun _ => rfl, fun _ => by simp [start, initial], by simp [start, initial]⟩

/-- The runs of the two machines correspond. -/
theorem same_runs {ov : Bool} {v : Mem} {calls : Nat → List Call} :
    (∀ g, Steps spec ov (start v calls) g → ∃ f, Steps Full.spec ov (initial v calls) f ∧ Same g f) ∧
    (∀ f, Steps Full.spec ov (initial v calls) f → ∃ g, Steps spec ov (start v calls) g ∧ Same g f) := by
  constructor
  · intro g h
    induction h with
    | refl => exact ⟨_, .refl, same_initial v calls⟩
    | snoc _ st ih =>
      obtain ⟨f, h1, h2⟩ := ih
      obtain ⟨f', h3, h4⟩ := same_step h2 st
      exact ⟨f', .snoc h1 h3, h4⟩
  · intro g h
    induction h with
    | refl => exact ⟨_, .refl, same_initial v calls⟩
    | snoc _ st ih =>
      obtain ⟨f, h1, h2⟩ := ih
      obtain ⟨f', h3, h4⟩ := same_step' h2 st
      exact ⟨f', .snoc h1 h3, h4⟩

/-! ## Accesses allowed to a program -/

/-- Accesses, by the keys the addresses were made for. -/
abbrev Perm := Own → Nat → Access → Prop

/-- Every key refers to an address made for it. -/
def Refs (o : Own) (w : Mem) : Prop := ∀ k p, w.data k = some (.ref p) → Held k p o w.next

/-- The program touches only what `U` allows and keeps `Refs`, whatever others do that keep `Refs`. -/
def Ok (U : Perm) {α : Type} (Q : α → Own → Nat → Prop) : GP α → Own → Nat → Prop
  | .ret a, o, n => ∀ o' n', Ext o n o' n' → Q a o' n'
  | .act u k, o, n => ∀ (g : G) o', Ext o n o' g.mem.next → Refs o' g.mem →
      ∃ o'', Ext o' g.mem.next o'' (u g).mem.next ∧ Refs o'' (u g).mem ∧
        (∀ a ∈ (u g).acc, U o'' (u g).mem.next a) ∧ Ok U Q (k g) o'' (u g).mem.next

variable {U : Perm}

theorem Ok.later {α : Type} {Q : α → Own → Nat → Prop} {p : GP α} {o o' : Own} {n n' : Nat} (h : Ok U Q p o n)
    (he : Ext o n o' n') : Ok U Q p o' n' := by
  cases p with
  | ret a => exact fun x m hx => h x m (he.trans hx)
  | act u k => exact fun w x hx hw => h w x (he.trans hx) hw

theorem ok_bind {α β : Type} {R : α → Own → Nat → Prop} {Q : β → Own → Nat → Prop} {p : GP α} {f : α → GP β} {o : Own} {n : Nat}
    (hp : Ok U R p o n) (hf : ∀ a o' n', Ext o n o' n' → R a o' n' → Ok U Q (f a) o' n') : Ok U Q (p >>= f) o n := by
  induction p generalizing o n with
  | ret a => exact hf a o n (.refl _ _) (hp o n (.refl _ _))
  | act u k ih =>
    intro w o' he hw
    obtain ⟨o'', h1, h2, h3, h4⟩ := hp w o' he hw
    exact ⟨o'', h1, h2, h3, ih w h4 (fun a o n he' => hf a o n ((he.trans h1).trans he'))⟩

/-- No claim about the result. -/
abbrev Any {α : Type} (_ : α) (_ : Own) (_ : Nat) : Prop := True

/-- If a slot refers to an address, it was made for `k`. -/
def SlotOf (k : Bytes) (c : Option Cell) (o : Own) (n : Nat) : Prop := ∀ p, c = some (.ref p) → Held k p o n

theorem ok_ret {α : Type} (a : α) (o : Own) (n : Nat) : Ok U Any (.ret a : GP α) o n := fun _ _ _ => trivial
theorem ok_slot {k : Bytes} {c : Option Cell} {o : Own} {n : Nat} (h : SlotOf k c o n) : Ok U (SlotOf k) (.ret c) o n :=
  fun _ _ he p hp => (h p hp).later he

/-- A step that gives out no address. -/
theorem ok_prim {α : Type} {Q : α → Own → Nat → Prop} {a : List Access} {u : Mem → Mem} {r : Mem → α} {o : Own} {n : Nat}
    (ha : ∀ o' n', Ext o n o' n' → ∀ x ∈ a, U o' n' x) (hn : ∀ w, (u w).next = w.next)
    (hd : ∀ w k p, (u w).data k = some (.ref p) → w.data k = some (.ref p))
    (hq : ∀ w o', Refs o' w → ∀ x m, Ext o' w.next x m → Q (r w) x m) : Ok U Q (prim a u r) o n := by
  intro g o' he hw
  simp only [hn]
  exact ⟨o', .refl _ _, fun k p h => by rw [hn]; exact hw k p (hd _ k p h), ha o' _ he, hq _ _ hw⟩

/-- Reading the two map fields is allowed. -/
def Maps (U : Perm) : Prop := (∀ o n, U o n ⟨.dataDict, false⟩) ∧ ∀ o n, U o n ⟨.expiresDict, false⟩

/-- Using the length of entries made for `k` is allowed. -/
def Lens (U : Perm) (k : Bytes) (b : Bool) : Prop := ∀ o n p, Held k p o n → U o n ⟨.length p, b⟩

theorem upd_keep {w : Mem} {j : Bytes} {c : Option Cell} (hc : ∀ p, c ≠ some (.ref p)) (k : Bytes) (p : Nat)
    (h : upd w.data j c k = some (.ref p)) : w.data k = some (.ref p) := by
  simp only [upd] at h
  split at h
  · exact absurd h (hc p)
  · exact h

theorem ok_loadData (hU : Maps U) (k : Bytes) (o : Own) (n : Nat) : Ok U (SlotOf k) (loadData k) o n :=
  ok_prim (fun o n _ x hx => by simp at hx; subst hx; exact hU.1 o n) (fun _ => rfl) (fun _ _ _ h => h)
    (fun w o' hw x m he p hp => (hw k p hp).later he)
theorem ok_storeData (hU : Maps U) (k : Bytes) (s : Scalar) (o : Own) (n : Nat) : Ok U Any (storeData k s) o n :=
  ok_prim (fun o n _ x hx => by simp at hx; subst hx; exact hU.1 o n) (fun _ => rfl) (fun _ => upd_keep (by simp)) (fun _ _ _ _ _ _ => trivial)
theorem ok_delData (hU : Maps U) (k : Bytes) (o : Own) (n : Nat) : Ok U Any (delData k) o n :=
  ok_prim (fun o n _ x hx => by simp at hx; subst hx; exact hU.1 o n) (fun _ => rfl) (fun _ => upd_keep (by simp)) (fun _ _ _ _ _ _ => trivial)
theorem ok_loadExp (hU : Maps U) (k : Bytes) (o : Own) (n : Nat) : Ok U Any (loadExp k) o n :=
  ok_prim (fun o n _ x hx => by simp at hx; subst hx; exact hU.2 o n) (fun _ => rfl) (fun _ _ _ h => h) (fun _ _ _ _ _ _ => trivial)
theorem ok_storeExp (hU : Maps U) (k : Bytes) (d : Int) (o : Own) (n : Nat) : Ok U Any (storeExp k d) o n :=
  ok_prim (fun o n _ x hx => by simp at hx; subst hx; exact hU.2 o n) (fun _ => rfl) (fun _ _ _ h => h) (fun _ _ _ _ _ _ => trivial)
theorem ok_delExp (hU : Maps U) (k : Bytes) (o : Own) (n : Nat) : Ok U Any (delExp k) o n :=
  ok_prim (fun o n _ x hx => by simp at hx; subst hx; exact hU.2 o n) (fun _ => rfl) (fun _ _ _ h => h) (fun _ _ _ _ _ _ => trivial)
theorem ok_clock (o : Own) (n : Nat) : Ok U Any clock o n :=
  ok_prim (by simp) (fun _ => rfl) (fun _ _ _ h => h) (fun _ _ _ _ _ _ => trivial)
theorem ok_loadOrStore (hU : Maps U) (k : Bytes) (s : Scalar) (o : Own) (n : Nat) : Ok U Any (loadOrStore k s) o n := by
  refine ok_prim (fun o n _ x hx => by simp at hx; subst hx; exact hU.1 o n) (fun w => ?_) (fun w j p h => ?_) (fun _ _ _ _ _ _ => trivial)
  · split <;> rfl
  · cases hk : w.data k with
    | none => simp only [hk] at h; exact upd_keep (by simp) j p h
    | some x => simp only [hk] at h; exact h

theorem ok_publish (hU : Maps U) (k : Bytes) (o : Own) (n : Nat) : Ok U (Held k) (publish k) o n := by
  intro g o' he hw
  have e : Ext o' g.mem.next (fun q => if q = g.mem.next then k else o' q) (g.mem.next + 1) :=
    ⟨by omega, fun p hp => by simp [Nat.ne_of_lt hp]⟩
  refine ⟨fun q => if q = g.mem.next then k else o' q, e, fun j p hj => ?_, ?_, fun x m hx => ?_⟩
  · simp only [upd] at hj
    split at hj
    · rename_i hjk; cases hj; exact ⟨by simp, by simp [hjk]⟩
    · exact (hw j p hj).later e
  · intro a ha
    simp at ha
    subst ha
    exact hU.1 _ _
  · have hh : Held k g.mem.next (fun q => if q = g.mem.next then k else o' q) (g.mem.next + 1) := ⟨by simp, by simp⟩
    exact hh.later hx

/-- A step on an entry that touches no variable. -/
theorem ok_field {α : Type} (p : Nat) (u : HashEntry → HashEntry) (r : HashEntry → α) (o : Own) (n : Nat) :
    Ok U Any (entry [] p u r) o n :=
  ok_prim (by simp) (fun _ => rfl) (fun _ _ _ h => h) (fun _ _ _ _ _ _ => trivial)

theorem ok_entry {α : Type} {a : List Access} {p : Nat} {u : HashEntry → HashEntry} {r : HashEntry → α} {o : Own} {n : Nat}
    (ha : ∀ o' n', Ext o n o' n' → ∀ x ∈ a, U o' n' x) : Ok U Any (entry a p u r) o n :=
  ok_prim ha (fun _ => rfl) (fun _ _ _ h => h) (fun _ _ _ _ _ _ => trivial)

theorem ok_lenLoad {k : Bytes} (hL : Lens U k false) {p : Nat} {o : Own} {n : Nat} (hp : Held k p o n) : Ok U Any (lenLoad p) o n :=
  ok_entry (fun o' n' he x hx => by simp at hx; subst hx; exact hL _ _ _ (hp.later he))

theorem ok_lenStore {k : Bytes} (hL : Lens U k true) {p : Nat} (i : Int) {o : Own} {n : Nat} (hp : Held k p o n) :
    Ok U Any (lenStore p i) o n :=
  ok_entry (fun o' n' he x hx => by simp at hx; subst hx; exact hL _ _ _ (hp.later he))

/-- Both. -/
def Counts (U : Perm) (k : Bytes) : Prop := Lens U k false ∧ Lens U k true

theorem ok_lenAdd {k : Bytes} (hL : Counts U k) {p : Nat} (i : Int) {o : Own} {n : Nat} (hp : Held k p o n) : Ok U Any (lenAdd p i) o n :=
  ok_bind (ok_lenLoad hL.1 hp) (fun _ _ _ he _ => ok_lenStore hL.2 _ (hp.later he))

theorem ok_setP {k : Bytes} (hL : Counts U k) {p : Nat} (f v : Bytes) {o : Own} {n : Nat} (hp : Held k p o n) :
    Ok U Any (setP p f v) o n := by
  refine ok_bind (ok_field _ _ _ _ _) (fun b o n he _ => ?_)
  have hp := hp.later he
  cases b
  · exact ok_bind (ok_lenAdd hL 1 hp) (fun _ _ _ _ _ => ok_ret _ _ _)
  · exact ok_bind (ok_field _ _ _ _ _) (fun _ _ _ he _ => ok_bind (ok_lenAdd hL 0 (hp.later he)) (fun _ _ _ _ _ => ok_ret _ _ _))

theorem ok_expiredP (hU : Maps U) (k : Bytes) (o : Own) (n : Nat) : Ok U Any (expiredP k) o n := by
  refine ok_bind (ok_loadExp hU k o n) (fun d o n _ _ => ?_)
  cases d with
  | none => exact ok_ret _ _ _
  | some d =>
    refine ok_bind (ok_clock o n) (fun t o n _ _ => ?_)
    split
    · exact ok_bind (ok_delData hU k _ _) (fun _ _ _ _ _ => ok_bind (ok_delExp hU k _ _) (fun _ _ _ _ _ => ok_ret _ _ _))
    · exact ok_ret _ _ _

theorem ok_getP (hU : Maps U) (k : Bytes) (o : Own) (n : Nat) : Ok U (SlotOf k) (getP k) o n := by
  refine ok_bind (ok_loadData hU k o n) (fun c o n _ h => ?_)
  cases c with
  | none => exact ok_slot h
  | some x =>
    refine ok_bind (ok_expiredP hU k o n) (fun b o n he _ => ?_)
    cases b
    · exact ok_slot (fun p hp => (h p hp).later he)
    · exact ok_slot (by simp [SlotOf])

theorem ok_expiresP (hU : Maps U) (k : Bytes) (d : Int64) (o : Own) (n : Nat) : Ok U Any (expiresP k d) o n := by
  unfold expiresP
  split
  · exact ok_delExp hU k o n
  · exact ok_bind (ok_clock o n) (fun _ _ _ _ _ => ok_storeExp hU k _ _ _)

theorem ok_incrByP (hU : Maps U) (k : Bytes) (i : Int64) (o : Own) (n : Nat) : Ok U Any (incrByP k i) o n := by
  refine ok_bind (ok_loadOrStore hU k _ o n) (fun c o n _ _ => ?_)
  rcases c with _ | (v | p | t)
  · exact ok_ret _ _ _
  · cases h : Cache.incrScalar i v with
    | none => simp only [h]; exact ok_ret _ _ _
    | some q => simp only [h]; exact ok_bind (ok_storeData hU k _ _ _) (fun _ _ _ _ _ => ok_ret _ _ _)
  · exact ok_ret _ _ _
  · exact ok_ret _ _ _

theorem ok_mSetP (hU : Maps U) (kv : List (Bytes × Bytes)) (o : Own) (n : Nat) : Ok U Any (mSetP kv) o n := by
  induction kv generalizing o n with
  | nil => exact ok_ret _ _ _
  | cons p kv ih => exact ok_bind (ok_storeData hU _ _ _ _) (fun _ o n _ _ => ih o n)

theorem ok_mSetNXP (hU : Maps U) (kv : List (Bytes × Bytes)) (i : Int) (o : Own) (n : Nat) : Ok U Any (mSetNXP kv i) o n := by
  induction kv generalizing o n i with
  | nil => exact ok_ret _ _ _
  | cons p kv ih =>
    refine ok_bind (ok_loadOrStore hU _ _ _ _) (fun c o n _ _ => ?_)
    cases c <;> exact ih _ o n

theorem ok_mGetP (hU : Maps U) (ks : List Bytes) (o : Own) (n : Nat) : Ok U Any (mGetP ks) o n := by
  induction ks generalizing o n with
  | nil => exact ok_ret _ _ _
  | cons k ks ih =>
    exact ok_bind (ok_getP hU k o n) (fun _ o n _ _ => ok_bind (ih o n) (fun _ _ _ _ _ => ok_ret _ _ _))

theorem ok_existsP (hU : Maps U) (ks : List Bytes) (i : Int) (o : Own) (n : Nat) : Ok U Any (existsP ks i) o n := by
  induction ks generalizing o n i with
  | nil => exact ok_ret _ _ _
  | cons k ks ih =>
    refine ok_bind (ok_loadData hU k o n) (fun c o n _ _ => ?_)
    cases c <;> exact ih _ o n

theorem ok_fetchP {α : Type} (hU : Maps U) {k : Bytes} {body : Nat → GP (Res α)} (o : Own) (n : Nat)
    (h : ∀ p o n, Held k p o n → Ok U Any (body p) o n) : Ok U Any (fetchP k body) o n := by
  refine ok_bind (ok_getP hU k o n) (fun c o n _ ho => ?_)
  rcases c with _ | (_ | p | _)
  · exact ok_bind (ok_publish hU k o n) (fun p o n _ hp => h p o n hp)
  · exact ok_ret _ _ _
  · exact h p o n (ho p rfl)
  · exact ok_ret _ _ _

theorem ok_readP {α : Type} (hU : Maps U) {k : Bytes} {body : Option Nat → GP (Res α)} (o : Own) (n : Nat)
    (h0 : ∀ o n, Ok U Any (body none) o n)
    (h : ∀ p o n, Held k p o n → Ok U Any (body (some p)) o n) : Ok U Any (readP k body) o n := by
  refine ok_bind (ok_getP hU k o n) (fun c o n _ ho => ?_)
  rcases c with _ | (_ | p | _)
  · exact h0 o n
  · exact ok_ret _ _ _
  · exact h p o n (ho p rfl)
  · exact ok_ret _ _ _

theorem ok_hMSetP {k : Bytes} (p : Nat) (fv : List (Bytes × Bytes)) (hL : fv ≠ [] → Counts U k) (i : Int) {o : Own} {n : Nat}
    (hp : Held k p o n) : Ok U Any (hMSetP p fv i) o n := by
  induction fv generalizing o n i with
  | nil => exact ok_ret _ _ _
  | cons q fv ih =>
    exact ok_bind (ok_setP (hL (by simp)) _ _ hp) (fun _ o n he _ => ih (fun _ => hL (by simp)) _ (hp.later he))

theorem ok_hDelP {k : Bytes} (hL : Counts U k) (p : Nat) (fs : List Bytes) (i : Int) {o : Own} {n : Nat}
    (hp : Held k p o n) : Ok U Any (hDelP p fs i) o n := by
  induction fs generalizing o n i with
  | nil =>
    unfold hDelP
    split
    · exact ok_ret _ _ _
    · exact ok_bind (ok_lenAdd hL _ hp) (fun _ _ _ _ _ => ok_ret _ _ _)
  | cons f fs ih =>
    refine ok_bind (ok_field _ _ _ _ _) (fun c o n he _ => ?_)
    cases c with
    | none => exact ih _ (hp.later he)
    | some v => exact ok_bind (ok_field _ _ _ _ _) (fun _ o n he' _ => ih _ ((hp.later he).later he'))

theorem ok_hMGetP (q : Option Nat) (fs : List Bytes) (o : Own) (n : Nat) : Ok U Any (hMGetP q fs) o n := by
  induction fs generalizing o n with
  | nil => exact ok_ret _ _ _
  | cons f fs ih =>
    cases q with
    | none => exact ok_bind (ih o n) (fun _ _ _ _ _ => ok_ret _ _ _)
    | some p => exact ok_bind (ok_field _ _ _ _ _) (fun _ o n _ _ => ok_bind (ih o n) (fun _ _ _ _ _ => ok_ret _ _ _))

theorem ok_hKeysP (p : Nat) (fs : List Bytes) (o : Own) (n : Nat) : Ok U Any (hKeysP p fs) o n := by
  induction fs generalizing o n with
  | nil => exact ok_ret _ _ _
  | cons f fs ih => exact ok_bind (ok_field _ _ _ _ _) (fun _ o n _ _ => ok_bind (ih o n) (fun _ _ _ _ _ => ok_ret _ _ _))

theorem ok_hValsP (p : Nat) (fs : List Bytes) (o : Own) (n : Nat) : Ok U Any (hValsP p fs) o n := by
  induction fs generalizing o n with
  | nil => exact ok_ret _ _ _
  | cons f fs ih => exact ok_bind (ok_field _ _ _ _ _) (fun _ o n _ _ => ok_bind (ih o n) (fun _ _ _ _ _ => ok_ret _ _ _))

theorem ok_hGetAllP (p : Nat) (fs : List Bytes) (o : Own) (n : Nat) : Ok U Any (hGetAllP p fs) o n := by
  induction fs generalizing o n with
  | nil => exact ok_ret _ _ _
  | cons f fs ih =>
    refine ok_bind (ok_field _ _ _ _ _) (fun c o n _ _ => ?_)
    cases c with
    | none => exact ih o n
    | some v => exact ih o n

end Verif.Conc.Race

import Verif.Conc.FullProg
/-!
# What a call can never do, however it is disturbed

`Tame U Q p v`: whatever the other goroutines do (as long as addresses stay private to the key they
were made for), the program `p` changes nothing at the keys `U`.
-/
namespace Verif.Conc.Full
open Verif Verif.Conc

/-- Address `p` is in use, and not for a key of `U`. -/
def Far (U : Bytes → Prop) (w : Mem) (p : Nat) : Prop := p < w.next ∧ ∀ k, U k → w.data k ≠ some (.ref p)

/-- Addresses away from `U` stay away. -/
def Later (U : Bytes → Prop) (v w : Mem) : Prop := ∀ p, Far U v p → Far U w p

theorem Later.refl {U : Bytes → Prop} (v : Mem) : Later U v v := fun _ h => h
theorem Later.trans {U : Bytes → Prop} {a b c : Mem} (h : Later U a b) (g : Later U b c) : Later U a c := fun p hp => g p (h p hp)

/-- No change at the keys `U`. -/
structure Away (U : Bytes → Prop) (w w' : Mem) : Prop where
  data : ∀ k, U k → w'.data k = w.data k
  exp : ∀ k, U k → w'.exp k = w.exp k
  heap : ∀ k p, U k → w.data k = some (.ref p) → w'.heap p = w.heap p
  next : w.next ≤ w'.next
  now : w'.now = w.now

theorem Away.refl {U : Bytes → Prop} (w : Mem) : Away U w w :=
  ⟨fun _ _ => rfl, fun _ _ => rfl, fun _ _ _ _ => rfl, Nat.le_refl _, rfl⟩

theorem Away.later {U : Bytes → Prop} {w w' : Mem} (h : Away U w w') : Later U w w' :=
  fun p hp => ⟨Nat.lt_of_lt_of_le hp.1 h.next, fun k hk => by rw [h.data k hk]; exact hp.2 k hk⟩

theorem Away.rely {U K : Bytes → Prop} {w w' : Mem} (h : Away U w w') (hK : ∀ k, K k → U k) : Rely K w w' :=
  ⟨fun k hk => h.data k (hK k hk), fun k hk => h.exp k (hK k hk), fun k p hk => h.heap k p (hK k hk), h.next,
    Int.le_of_eq h.now.symm⟩

/-- A pointer that appears under a key is new. -/
def Fresh (w w' : Mem) : Prop := ∀ k p, w'.data k = some (.ref p) → w.data k = some (.ref p) ∨ w.next ≤ p

theorem Fresh.refl (w : Mem) : Fresh w w := fun _ _ h => .inl h

theorem Fresh.later {U : Bytes → Prop} {w w' : Mem} (h : Fresh w w') (hn : w.next ≤ w'.next) : Later U w w' := by
  intro p hp
  refine ⟨Nat.lt_of_lt_of_le hp.1 hn, fun k hk he => ?_⟩
  rcases h k p he with h | h
  · exact hp.2 k hk h
  · exact Nat.lt_irrefl _ (Nat.lt_of_lt_of_le hp.1 h)

def Tame (U : Bytes → Prop) {α : Type} (Q : α → Mem → Prop) : MP α → Mem → Prop
  | .ret a, v => ∀ w, Later U v w → Q a w
  | .act u k, v => ∀ w, w.WF → Later U v w → (u w).WF ∧ Away U w (u w) ∧ Fresh w (u w) ∧ Tame U Q (k w) (u w)

variable {U : Bytes → Prop}

theorem Tame.later {α : Type} {Q : α → Mem → Prop} {p : MP α} {v w : Mem} (h : Tame U Q p v) (hr : Later U v w) : Tame U Q p w := by
  cases p with
  | ret a => exact fun x hx => h x (hr.trans hx)
  | act u k => exact fun x hw hx => h x hw (hr.trans hx)

theorem tame_bind {α β : Type} {R : α → Mem → Prop} {Q : β → Mem → Prop} {p : MP α} {f : α → MP β} {v : Mem}
    (hp : Tame U R p v) (hf : ∀ a w, R a w → Tame U Q (f a) w) : Tame U Q (p >>= f) v := by
  induction p generalizing v with
  | ret a => exact hf a v (hp v (.refl _))
  | act u k ih =>
    intro w hw hr
    obtain ⟨h1, h2, h3, h4⟩ := hp w hw hr
    exact ⟨h1, h2, h3, ih w h4⟩

/-- Nothing is claimed of the result. -/
abbrev Any {α : Type} (_ : α) (_ : Mem) : Prop := True

/-- A pointer in the slot is away from `U`. -/
def Ok (U : Bytes → Prop) (o : Option Cell) (w : Mem) : Prop := ∀ p, o = some (.ref p) → Far U w p

theorem tame_ret {α : Type} (a : α) (v : Mem) : Tame U Any (.ret a) v := fun _ _ => trivial
theorem tame_pure {α : Type} (a : α) (v : Mem) : Tame U Any (pure a) v := fun _ _ => trivial

theorem tame_prim {α : Type} {Q : α → Mem → Prop} {u : Mem → Mem} {r : Mem → α} {v : Mem}
    (h : ∀ w, w.WF → Later U v w → (u w).WF ∧ Away U w (u w) ∧ Fresh w (u w) ∧ ∀ x, Later U (u w) x → Q (r w) x) :
    Tame U Q (prim u r) v := h

theorem ok_ret {o : Option Cell} {v : Mem} (h : Ok U o v) : Tame U (Ok U) (.ret o) v := fun _ hw p hp => hw p (h p hp)

theorem ok_load {w : Mem} {k : Bytes} (hw : w.WF) (hk : ¬ U k) : Ok U (w.data k) w :=
  fun p hp => ⟨hw.alloc k p hp, fun j hj he => hk (hw.inj j k p he hp ▸ hj)⟩

theorem tame_loadData {k : Bytes} (hk : ¬ U k) (v : Mem) : Tame U (Ok U) (loadData k) v :=
  tame_prim (fun w hw _ => ⟨hw, .refl _, .refl _, fun x hx p hp => hx p (ok_load hw hk p hp)⟩)

theorem tame_loadExp (k : Bytes) (v : Mem) : Tame U Any (loadExp k) v :=
  tame_prim (fun w hw _ => ⟨hw, .refl _, .refl _, fun _ _ => trivial⟩)

theorem tame_clock (v : Mem) : Tame U Any clock v :=
  tame_prim (fun w hw _ => ⟨hw, .refl _, .refl _, fun _ _ => trivial⟩)

/-- Replacing a slot by something that is no pointer. -/
theorem upd_ok {w : Mem} (hw : w.WF) {k : Bytes} (hk : ¬ U k) {o : Option Cell} (ho : ∀ p, o ≠ some (.ref p)) :
    ({ w with data := upd w.data k o } : Mem).WF ∧ Away U w { w with data := upd w.data k o } ∧
      Fresh w { w with data := upd w.data k o } := by
  refine ⟨⟨?_, ?_, hw.names⟩, ⟨?_, fun _ _ => rfl, fun _ _ _ _ => rfl, Nat.le_refl _, rfl⟩, ?_⟩
  · intro j p hj
    simp only [upd] at hj
    split at hj
    · exact absurd hj (ho p)
    · exact hw.alloc _ _ hj
  · intro j j' p hj hj'
    simp only [upd] at hj hj'
    split at hj <;> try exact absurd hj (ho p)
    split at hj' <;> try exact absurd hj' (ho p)
    exact hw.inj _ _ _ ‹_› ‹_›
  · intro j hj
    have : j ≠ k := fun e => hk (e ▸ hj)
    simp [upd, this]
  · intro j p hj
    simp only [upd] at hj
    split at hj
    · exact absurd hj (ho p)
    · exact .inl hj

theorem tame_storeData {k : Bytes} (hk : ¬ U k) (s : Scalar) (v : Mem) : Tame U Any (storeData k s) v :=
  tame_prim (fun w hw _ => by
    obtain ⟨h1, h2, h3⟩ := upd_ok hw hk (o := some (.scalar s)) (by simp)
    exact ⟨h1, h2, h3, fun _ _ => trivial⟩)

theorem tame_delData {k : Bytes} (hk : ¬ U k) (v : Mem) : Tame U Any (delData k) v :=
  tame_prim (fun w hw _ => by
    obtain ⟨h1, h2, h3⟩ := upd_ok hw hk (o := none) (by simp)
    exact ⟨h1, h2, h3, fun _ _ => trivial⟩)

theorem tame_loadOrStore {k : Bytes} (hk : ¬ U k) (s : Scalar) (v : Mem) : Tame U (Ok U) (loadOrStore k s) v :=
  tame_prim (fun w hw _ => by
    cases hd : w.data k with
    | some x =>
      refine ⟨hw, .refl _, .refl _, fun y hy p hp => hy p ?_⟩
      rw [← hd] at hp
      exact ok_load hw hk p hp
    | none =>
      obtain ⟨h1, h2, h3⟩ := upd_ok hw hk (o := some (.scalar s)) (by simp)
      exact ⟨h1, h2, h3, fun y hy p hp => by cases hp⟩)

theorem exp_ok {w : Mem} (hw : w.WF) {k : Bytes} (hk : ¬ U k) (o : Option Int) :
    ({ w with exp := upd w.exp k o } : Mem).WF ∧ Away U w { w with exp := upd w.exp k o } ∧
      Fresh w { w with exp := upd w.exp k o } := by
  refine ⟨⟨hw.alloc, hw.inj, hw.names⟩, ⟨fun _ _ => rfl, fun j hj => ?_, fun _ _ _ _ => rfl, Nat.le_refl _, rfl⟩, fun _ _ h => .inl h⟩
  have : j ≠ k := fun e => hk (e ▸ hj)
  simp [upd, this]

theorem tame_storeExp {k : Bytes} (hk : ¬ U k) (d : Int) (v : Mem) : Tame U Any (storeExp k d) v :=
  tame_prim (fun w hw _ => by
    obtain ⟨h1, h2, h3⟩ := exp_ok hw hk (some d)
    exact ⟨h1, h2, h3, fun _ _ => trivial⟩)

theorem tame_delExp {k : Bytes} (hk : ¬ U k) (v : Mem) : Tame U Any (delExp k) v :=
  tame_prim (fun w hw _ => by
    obtain ⟨h1, h2, h3⟩ := exp_ok hw hk none
    exact ⟨h1, h2, h3, fun _ _ => trivial⟩)

theorem tame_publish {k : Bytes} (hk : ¬ U k) (v : Mem) : Tame U (fun p w => Far U w p) (publish k) v :=
  tame_prim (fun w hw _ => by
    refine ⟨published_wf hw (Nat.le_refl _), ⟨fun j hj => ?_, fun _ _ => rfl, fun j p hj hp => ?_, Nat.le_succ _, rfl⟩,
      fun j p hj => ?_, fun x hx => hx _ ⟨Nat.lt_succ_self _, fun j hj he => ?_⟩⟩
    · have : j ≠ k := fun e => hk (e ▸ hj)
      simp [upd, this]
    · have := hw.alloc _ _ hp
      have : p ≠ w.next := by omega
      simp [this]
    · simp only [upd] at hj
      split at hj
      · injection hj with hj; injection hj with hj; exact .inr (Nat.le_of_eq hj)
      · exact .inl hj
    · have : j ≠ k := fun e => hk (e ▸ hj)
      simp only [upd, this, if_false] at he
      exact Nat.lt_irrefl _ (hw.alloc _ _ he))

theorem tame_entry {α : Type} {p : Nat} {u : HashEntry → HashEntry} {r : HashEntry → α} {v : Mem} (hp : Far U v p)
    (hu : ∀ e, Distinct e → Distinct (u e)) : Tame U (fun _ w => Far U w p) (entry p u r) v :=
  tame_prim (fun w hw hl => by
    refine ⟨⟨hw.alloc, hw.inj, fun q => ?_⟩, ⟨fun _ _ => rfl, fun _ _ => rfl, fun j q hj hq => ?_, Nat.le_refl _, rfl⟩,
      fun _ _ h => .inl h, fun x hx => hx _ (hl _ hp)⟩
    · simp only
      split
      · exact hu _ (hw.names p)
      · exact hw.names q
    · simp only
      split
      · rename_i e
        subst e
        exact absurd hq ((hl _ hp).2 j hj)
      · rfl)

theorem tame_fLoad {p : Nat} (f : Bytes) {v : Mem} (hp : Far U v p) : Tame U (fun _ w => Far U w p) (fLoad p f) v :=
  tame_entry hp (fun _ h => h)
theorem tame_fNames {p : Nat} {v : Mem} (hp : Far U v p) : Tame U (fun _ w => Far U w p) (fNames p) v :=
  tame_entry hp (fun _ h => h)
theorem tame_lenLoad {p : Nat} {v : Mem} (hp : Far U v p) : Tame U (fun _ w => Far U w p) (lenLoad p) v :=
  tame_entry hp (fun _ h => h)
theorem tame_lenStore {p : Nat} (n : Int) {v : Mem} (hp : Far U v p) : Tame U (fun _ w => Far U w p) (lenStore p n) v :=
  tame_entry hp (fun _ h => h)
theorem tame_fStore {p : Nat} (f : Bytes) (s : Scalar) {v : Mem} (hp : Far U v p) : Tame U (fun _ w => Far U w p) (fStore p f s) v :=
  tame_entry hp (fun _ h => distinct_put h f s)
theorem tame_fDelete {p : Nat} (f : Bytes) {v : Mem} (hp : Far U v p) : Tame U (fun _ w => Far U w p) (fDelete p f) v :=
  tame_entry hp (fun _ h => distinct_delete h f)
theorem tame_fLoadOrStore {p : Nat} (f : Bytes) (s : Scalar) {v : Mem} (hp : Far U v p) :
    Tame U (fun _ w => Far U w p) (fLoadOrStore p f s) v :=
  tame_entry hp (fun _ h => distinct_loadOrStore h f s)

theorem far_ret {α : Type} {p : Nat} {v : Mem} (hp : Far U v p) (a : α) : Tame U (fun _ w => Far U w p) (.ret a) v :=
  fun _ hw => hw _ hp

theorem tame_any {α : Type} {Q : α → Mem → Prop} {p : MP α} {v : Mem} (h : Tame U Q p v) : Tame U Any p v := by
  induction p generalizing v with
  | ret a => exact fun _ _ => trivial
  | act u k ih =>
    intro w hw hr
    obtain ⟨h1, h2, h3, h4⟩ := h w hw hr
    exact ⟨h1, h2, h3, ih w h4⟩

theorem tame_lenAdd {p : Nat} (n : Int) {v : Mem} (hp : Far U v p) : Tame U (fun _ w => Far U w p) (lenAdd p n) v :=
  tame_bind (tame_lenLoad hp) (fun _ _ h => tame_lenStore _ h)

theorem tame_setP {p : Nat} (f s : Bytes) {v : Mem} (hp : Far U v p) : Tame U (fun _ w => Far U w p) (setP p f s) v := by
  refine tame_bind (tame_fLoadOrStore _ _ hp) (fun b w h => ?_)
  cases b
  · exact tame_bind (tame_lenAdd _ h) (fun _ _ h => far_ret h _)
  · exact tame_bind (tame_fStore _ _ h) (fun _ _ h => tame_bind (tame_lenAdd _ h) (fun _ _ h => far_ret h _))

theorem tame_expiredP {k : Bytes} (hk : ¬ U k) (v : Mem) : Tame U Any (expiredP k) v := by
  refine tame_bind (tame_loadExp k v) (fun o w _ => ?_)
  cases o with
  | none => exact tame_pure _ _
  | some d =>
    refine tame_bind (tame_clock w) (fun n w _ => ?_)
    split
    · exact tame_bind (tame_delData hk _) (fun _ _ _ => tame_bind (tame_delExp hk _) (fun _ _ _ => tame_pure _ _))
    · exact tame_pure _ _

/-- A program that claims nothing keeps a claim that others cannot break. -/
theorem tame_keep {α : Type} {p : MP α} {v : Mem} {I : Mem → Prop} (hI : ∀ a b, Later U a b → I a → I b) (hv : I v)
    (h : Tame U Any p v) : Tame U (fun _ w => I w) p v := by
  induction p generalizing v with
  | ret a => exact fun w hw => hI _ _ hw hv
  | act u k ih =>
    intro w hw hr
    obtain ⟨h1, h2, h3, h4⟩ := h w hw hr
    exact ⟨h1, h2, h3, ih w (hI _ _ (hr.trans h2.later) hv) h4⟩

theorem tame_getP {k : Bytes} (hk : ¬ U k) (v : Mem) : Tame U (Ok U) (getP k) v := by
  refine tame_bind (tame_loadData hk v) (fun o w h => ?_)
  cases o with
  | none => exact ok_ret h
  | some x =>
    refine tame_bind (tame_keep (I := fun w => Ok U (some x) w) (fun _ _ hl h p hp => hl p (h p hp)) h (tame_expiredP hk w))
      (fun b w h => ?_)
    cases b
    · exact ok_ret h
    · exact ok_ret (fun p hp => by cases hp)

theorem tame_expiresP {k : Bytes} (hk : ¬ U k) (d : Int64) (v : Mem) : Tame U Any (expiresP k d) v := by
  unfold expiresP
  split
  · exact tame_delExp hk v
  · exact tame_bind (tame_clock v) (fun _ _ _ => tame_storeExp hk _ _)

theorem tame_incrByP {k : Bytes} (hk : ¬ U k) (n : Int64) (v : Mem) : Tame U Any (incrByP k n) v := by
  refine tame_bind (tame_loadOrStore hk _ v) (fun o w _ => ?_)
  cases o with
  | none => exact tame_pure _ _
  | some x =>
    cases x with
    | scalar s =>
      simp only
      split
      · exact tame_bind (tame_storeData hk _ _) (fun _ _ _ => tame_pure _ _)
      · exact tame_pure _ _
    | ref p => exact tame_pure _ _
    | time t => exact tame_pure _ _

theorem tame_mSetP (kv : List (Bytes × Bytes)) (hk : ∀ p ∈ kv, ¬ U p.1) (v : Mem) : Tame U Any (mSetP kv) v := by
  induction kv generalizing v with
  | nil => exact tame_pure _ _
  | cons p kv ih =>
    exact tame_bind (tame_storeData (hk p (by simp)) _ _) (fun _ w _ => ih (fun q hq => hk q (by simp [hq])) w)

theorem tame_mSetNXP (kv : List (Bytes × Bytes)) (hk : ∀ p ∈ kv, ¬ U p.1) (n : Int) (v : Mem) : Tame U Any (mSetNXP kv n) v := by
  induction kv generalizing v n with
  | nil => exact tame_pure _ _
  | cons p kv ih =>
    refine tame_bind (tame_loadOrStore (hk p (by simp)) _ _) (fun o w _ => ?_)
    cases o <;> exact ih (fun q hq => hk q (by simp [hq])) _ w

theorem tame_mGetP (ks : List Bytes) (hk : ∀ k ∈ ks, ¬ U k) (v : Mem) : Tame U Any (mGetP ks) v := by
  induction ks generalizing v with
  | nil => exact tame_pure _ _
  | cons k ks ih =>
    exact tame_bind (tame_getP (hk k (by simp)) _) (fun _ w _ =>
      tame_bind (ih (fun q hq => hk q (by simp [hq])) w) (fun _ _ _ => tame_pure _ _))

theorem tame_existsP (ks : List Bytes) (hk : ∀ k ∈ ks, ¬ U k) (n : Int) (v : Mem) : Tame U Any (existsP ks n) v := by
  induction ks generalizing v n with
  | nil => exact tame_pure _ _
  | cons k ks ih =>
    refine tame_bind (tame_loadData (hk k (by simp)) _) (fun o w _ => ?_)
    cases o <;> exact ih (fun q hq => hk q (by simp [hq])) _ w

theorem tame_fetchP {α : Type} {k : Bytes} (hk : ¬ U k) {body : Nat → MP (Res α)} (v : Mem)
    (h : ∀ p w, Far U w p → Tame U Any (body p) w) : Tame U Any (fetchP k body) v := by
  refine tame_bind (tame_getP hk v) (fun o w ho => ?_)
  cases o with
  | none => exact tame_bind (tame_publish hk w) (fun p w hp => h p w hp)
  | some x =>
    cases x with
    | ref p => exact h p w (ho p rfl)
    | scalar s => exact tame_pure _ _
    | time t => exact tame_pure _ _

theorem tame_readP {α : Type} {k : Bytes} (hk : ¬ U k) {body : Option Nat → MP (Res α)} (v : Mem)
    (h0 : ∀ w, Tame U Any (body none) w) (h : ∀ p w, Far U w p → Tame U Any (body (some p)) w) : Tame U Any (readP k body) v := by
  refine tame_bind (tame_getP hk v) (fun o w ho => ?_)
  cases o with
  | none => exact h0 w
  | some x =>
    cases x with
    | ref p => exact h p w (ho p rfl)
    | scalar s => exact tame_pure _ _
    | time t => exact tame_pure _ _

theorem tame_hMSetP (p : Nat) (fv : List (Bytes × Bytes)) (n : Int) {v : Mem} (hp : Far U v p) : Tame U Any (hMSetP p fv n) v := by
  induction fv generalizing v n with
  | nil => exact tame_pure _ _
  | cons f fv ih => exact tame_bind (tame_setP _ _ hp) (fun _ _ h => ih _ h)

theorem tame_hDelP (p : Nat) (fs : List Bytes) (n : Int) {v : Mem} (hp : Far U v p) : Tame U Any (hDelP p fs n) v := by
  induction fs generalizing v n with
  | nil =>
    simp only [hDelP]
    split
    · exact tame_pure _ _
    · exact tame_bind (tame_lenAdd _ hp) (fun _ _ _ => tame_pure _ _)
  | cons f fs ih =>
    refine tame_bind (tame_fLoad _ hp) (fun o w h => ?_)
    cases o with
    | none => exact ih _ h
    | some s => exact tame_bind (tame_fDelete _ h) (fun _ _ h => ih _ h)

theorem tame_hMGetP_none (fs : List Bytes) (v : Mem) : Tame U Any (hMGetP none fs) v := by
  induction fs generalizing v with
  | nil => exact tame_pure _ _
  | cons f fs ih => exact tame_bind (ih v) (fun _ _ _ => tame_pure _ _)

theorem tame_hMGetP (p : Nat) (fs : List Bytes) {v : Mem} (hp : Far U v p) : Tame U Any (hMGetP (some p) fs) v := by
  induction fs generalizing v with
  | nil => exact tame_pure _ _
  | cons f fs ih => exact tame_bind (tame_fLoad _ hp) (fun _ _ h => tame_bind (ih h) (fun _ _ _ => tame_pure _ _))

theorem tame_hKeysP (p : Nat) (fs : List Bytes) {v : Mem} (hp : Far U v p) : Tame U Any (hKeysP p fs) v := by
  induction fs generalizing v with
  | nil => exact tame_pure _ _
  | cons f fs ih => exact tame_bind (tame_fLoad _ hp) (fun _ _ h => tame_bind (ih h) (fun _ _ _ => tame_pure _ _))

theorem tame_hValsP (p : Nat) (fs : List Bytes) {v : Mem} (hp : Far U v p) : Tame U Any (hValsP p fs) v := by
  induction fs generalizing v with
  | nil => exact tame_pure _ _
  | cons f fs ih => exact tame_bind (tame_fLoad _ hp) (fun _ _ h => tame_bind (ih h) (fun _ _ _ => tame_pure _ _))

theorem tame_hGetAllP (p : Nat) (fs : List Bytes) {v : Mem} (hp : Far U v p) : Tame U Any (hGetAllP p fs) v := by
  induction fs generalizing v with
  | nil => exact tame_pure _ _
  | cons f fs ih =>
    refine tame_bind (tame_fLoad _ hp) (fun o w h => ?_)
    cases o with
    | none => exact ih h
    | some s => simp only [fmtCell]; exact ih h

/-- Every call, however disturbed, leaves alone the keys it does not name. -/
theorem tame_prog (op : Call) (hU : ∀ k, touches op k → ¬ U k) (v : Mem) : Tame U Any (prog op) v := by
  have one : ∀ {k : Bytes}, op.keys = some [k] → ¬ U k := fun h => hU _ (fun ks hks => by rw [h] at hks; cases hks; simp)
  have all : op.keys = none → ∀ k, ¬ U k := fun h k => hU k (fun ks hks => by rw [h] at hks; cases hks)
  have str : ∀ {k : Bytes} {f : Option Cell → MP Out}, op.keys = some [k] → (∀ o w, Tame U Any (f o) w) →
      Tame U Any (getP k >>= f) v := fun h hf => tame_bind (tame_getP (one h) v) (fun o w _ => hf o w)
  have fetch : ∀ {α : Type} {k : Bytes} {body : Nat → MP (Res α)} {f : Res α → Out}, op.keys = some [k] →
      (∀ p w, Far U w p → Tame U Any (body p) w) → Tame U Any (fetchP k body >>= fun r => pure (f r)) v :=
    fun h hf => tame_bind (tame_fetchP (one h) v hf) (fun _ _ _ => tame_pure _ _)
  have read : ∀ {α : Type} {k : Bytes} {body : Option Nat → MP (Res α)} {f : Res α → Out}, op.keys = some [k] →
      (∀ w, Tame U Any (body none) w) → (∀ p w, Far U w p → Tame U Any (body (some p)) w) →
      Tame U Any (readP k body >>= fun r => pure (f r)) v :=
    fun h h0 hf => tame_bind (tame_readP (one h) v h0 hf) (fun _ _ _ => tame_pure _ _)
  cases op with
  | set k s => exact tame_bind (tame_storeData (one rfl) _ v) (fun _ _ _ => tame_pure _ _)
  | setNX k s =>
    refine tame_bind (tame_loadOrStore (one rfl) _ v) (fun o w _ => ?_)
    cases o <;> exact tame_pure _ _
  | setEX k s n => exact tame_bind (tame_storeData (one rfl) _ v) (fun _ _ _ => tame_bind (tame_expiresP (one rfl) _ _) (fun _ _ _ => tame_pure _ _))
  | pSetEX k s n => exact tame_bind (tame_storeData (one rfl) _ v) (fun _ _ _ => tame_bind (tame_expiresP (one rfl) _ _) (fun _ _ _ => tame_pure _ _))
  | get k => exact str rfl (fun o w => by cases o <;> exact tame_pure _ _)
  | getSet k s =>
    exact str rfl (fun o w => tame_bind (tame_storeData (one rfl) _ w) (fun _ _ _ => by cases o <;> exact tame_pure _ _))
  | strLen k => exact str rfl (fun o w => by cases o <;> exact tame_pure _ _)
  | append k s =>
    refine str rfl (fun o w => ?_)
    cases o with
    | none => exact tame_bind (tame_storeData (one rfl) _ w) (fun _ _ _ => tame_pure _ _)
    | some x =>
      simp only
      split
      · exact tame_bind (tame_storeData (one rfl) _ w) (fun _ _ _ => tame_pure _ _)
      · exact tame_pure _ _
      · exact tame_pure _ _
  | setRange k pos r =>
    simp only [prog]
    split
    · exact tame_pure _ _
    · refine str rfl (fun o w => ?_)
      cases o with
      | none =>
        simp only
        split
        · exact tame_pure _ _
        · exact tame_bind (tame_storeData (one rfl) _ w) (fun _ _ _ => tame_pure _ _)
      | some x =>
        simp only
        split
        · split
          · exact tame_pure _ _
          · exact tame_bind (tame_storeData (one rfl) _ w) (fun _ _ _ => tame_pure _ _)
        · exact tame_pure _ _
        · exact tame_pure _ _
  | getRange k a b => exact str rfl (fun o w => by cases o <;> exact tame_pure _ _)
  | incr k => exact tame_bind (tame_incrByP (one rfl) _ v) (fun _ _ _ => tame_pure _ _)
  | incrBy k n => exact tame_bind (tame_incrByP (one rfl) _ v) (fun _ _ _ => tame_pure _ _)
  | decr k => exact tame_bind (tame_incrByP (one rfl) _ v) (fun _ _ _ => tame_pure _ _)
  | decrBy k n => exact tame_bind (tame_incrByP (one rfl) _ v) (fun _ _ _ => tame_pure _ _)
  | incrByFloat k x =>
    refine tame_bind (tame_loadOrStore (one rfl) _ v) (fun o w _ => ?_)
    split
    · exact tame_pure _ _
    · exact tame_bind (tame_storeData (one rfl) _ w) (fun _ _ _ => tame_pure _ _)
    · exact tame_bind (tame_storeData (one rfl) _ w) (fun _ _ _ => tame_pure _ _)
    · exact tame_pure _ _
  | mSet kv =>
    refine tame_bind (tame_mSetP kv (fun p hp => hU _ ?_) v) (fun _ _ _ => tame_pure _ _)
    intro ks hks; cases hks; exact List.mem_map_of_mem hp
  | mSetNX kv =>
    refine tame_bind (tame_mSetNXP kv (fun p hp => hU _ ?_) 0 v) (fun _ _ _ => tame_pure _ _)
    intro ks hks; cases hks; exact List.mem_map_of_mem hp
  | mGet ks =>
    refine tame_bind (tame_mGetP ks (fun p hp => hU _ ?_) v) (fun _ _ _ => tame_pure _ _)
    intro ks hks; cases hks; exact hp
  | del k =>
    exact str rfl (fun o w => tame_bind (tame_delData (one rfl) w) (fun _ _ _ => tame_bind (tame_delExp (one rfl) _) (fun _ _ _ => tame_pure _ _)))
  | flush =>
    refine tame_bind (R := Any) (tame_prim (fun w hw _ => ⟨⟨fun _ _ h => by simp at h, fun _ _ _ h => by simp at h, hw.names⟩,
      ⟨fun k hk => absurd hk (all rfl k), fun _ _ => rfl, fun _ _ _ _ => rfl, Nat.le_refl _, rfl⟩, fun _ _ h => by simp at h, fun _ _ => trivial⟩))
      (fun _ w _ => tame_bind (R := Any) (tame_prim (fun w hw _ => ⟨⟨hw.alloc, hw.inj, hw.names⟩,
      ⟨fun _ _ => rfl, fun k hk => absurd hk (all rfl k), fun _ _ _ _ => rfl, Nat.le_refl _, rfl⟩, fun _ _ h => .inl h, fun _ _ => trivial⟩))
      (fun _ _ _ => tame_pure _ _))
  | exists_ ks =>
    refine tame_bind (tame_existsP ks (fun p hp => hU _ ?_) 0 v) (fun _ _ _ => tame_pure _ _)
    intro ks hks; cases hks; exact hp
  | type k => exact str rfl (fun o w => by cases o <;> exact tame_pure _ _)
  | hSet k f s => exact fetch rfl (fun p w hp => tame_bind (tame_setP _ _ hp) (fun _ _ _ => tame_pure _ _))
  | hSetNX k f s =>
    refine fetch rfl (fun p w hp => tame_bind (tame_fLoadOrStore _ _ hp) (fun b w h => ?_))
    cases b
    · exact tame_bind (tame_lenAdd _ h) (fun _ _ _ => tame_pure _ _)
    · exact tame_pure _ _
  | hExists k f =>
    exact read rfl (fun w => tame_pure _ _) (fun p w hp => tame_bind (tame_fLoad _ hp) (fun _ _ h =>
      tame_bind (tame_lenAdd _ h) (fun _ _ _ => tame_pure _ _)))
  | hDel k fs => exact read rfl (fun w => tame_pure _ _) (fun p w hp => tame_hDelP p fs 0 hp)
  | hLen k => exact read rfl (fun w => tame_pure _ _) (fun p w hp => tame_bind (tame_lenLoad hp) (fun _ _ _ => tame_pure _ _))
  | hStrLen k f =>
    exact read rfl (fun w => tame_pure _ _) (fun p w hp => tame_bind (tame_fLoad _ hp) (fun o _ _ => by cases o <;> exact tame_pure _ _))
  | hGet k f =>
    exact read rfl (fun w => tame_pure _ _) (fun p w hp => tame_bind (tame_fLoad _ hp) (fun o _ _ => by cases o <;> exact tame_pure _ _))
  | hIncrBy k f n =>
    refine fetch rfl (fun p w hp => tame_bind (tame_fLoad _ hp) (fun o w h => ?_))
    cases o with
    | none => exact tame_bind (tame_setP _ _ h) (fun _ _ _ => tame_pure _ _)
    | some x =>
      simp only
      split
      · exact tame_bind (tame_setP _ _ h) (fun _ _ _ => tame_pure _ _)
      · exact tame_pure _ _
  | hIncrByFloat k f x =>
    refine fetch rfl (fun p w hp => tame_bind (tame_fLoad _ hp) (fun o w h => ?_))
    cases o with
    | none => exact tame_bind (tame_setP _ _ h) (fun _ _ _ => tame_pure _ _)
    | some x =>
      simp only
      split
      · exact tame_bind (tame_setP _ _ h) (fun _ _ _ => tame_pure _ _)
      · exact tame_pure _ _
  | hMSet k fv => exact fetch rfl (fun p w hp => tame_hMSetP p fv 0 hp)
  | hMGet k fs =>
    exact read rfl (fun w => tame_bind (tame_hMGetP_none fs w) (fun _ _ _ => tame_pure _ _))
      (fun p w hp => tame_bind (tame_hMGetP p fs hp) (fun _ _ _ => tame_pure _ _))
  | hKeys k =>
    exact read rfl (fun w => tame_pure _ _) (fun p w hp => tame_bind (tame_fNames hp) (fun ns _ h =>
      tame_bind (tame_hKeysP p ns h) (fun _ _ _ => tame_pure _ _)))
  | hVals k =>
    exact read rfl (fun w => tame_pure _ _) (fun p w hp => tame_bind (tame_fNames hp) (fun ns _ h =>
      tame_bind (tame_hValsP p ns h) (fun _ _ _ => tame_pure _ _)))
  | hGetAll k =>
    exact read rfl (fun w => tame_pure _ _) (fun p w hp => tame_bind (tame_fNames hp) (fun ns _ h => tame_hGetAllP p ns h))
  | list n => exact tame_pure _ _
  | cronTick =>
    refine tame_bind (R := Any) (tame_prim (fun w hw _ => ⟨?_, ?_, ?_, fun _ _ => trivial⟩)) (fun _ _ _ => tame_pure _ _)
    · refine ⟨fun k p h => hw.alloc k p (cron_sub h), fun k k' p h h' => hw.inj k k' p (cron_sub h) (cron_sub h'), hw.names⟩
    · exact ⟨fun k hk => absurd hk (all rfl k), fun k hk => absurd hk (all rfl k), fun _ _ _ _ => rfl, Nat.le_refl _, rfl⟩
    · exact fun k p h => .inl (cron_sub h)

end Verif.Conc.Full

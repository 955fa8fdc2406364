import Verif.Conc.PropsRaceHash
import Verif.Conc.Props
/-!
# C114 for lists of hash calls with `HSetNX`

Without `HDel` a field that is there stays, so one call at most, of all those that could, makes a field.  `HSetNX` of a field that another makes takes the same steps as
`HStrLen`, which never uses the size.  So the program with `HStrLen` in the place of all `HSetNX` but those of the goroutine that makes the field has the same race.
For the converse: a field that is absent stays absent while no call made sets it, so the first `HSetNX` of it comes to the size of its hash.
-/
namespace Verif.Conc.Race
open Verif
open Verif.Conc.Full (Cell Mem fmtCell)

/-- Under `k`, and under no other key, there is the hash at address `p`, without deadline, and it has none of the fields in `Z`. -/
def Miss (k : Bytes) (p : Nat) (Z : Bytes → Prop) (w : Mem) : Prop :=
  Holds k p w ∧ p < w.next ∧ (∀ k', w.data k' = some (.ref p) → k' = k) ∧ ∀ z, Z z → hfind (w.heap p).fields z = none

/-- No field of the hash at `p` is lost. -/
def More (p : Nat) (w w' : Mem) : Prop := ∀ z, (hfind (w.heap p).fields z).isSome = true → (hfind (w'.heap p).fields z).isSome = true

/-- The program keeps this and loses no field, and its result satisfies `R`. -/
def Part {α : Type} (k : Bytes) (p : Nat) (Z : Bytes → Prop) (R : α → Prop) : GP α → Prop
  | .ret a => R a
  | .act u c => ∀ g, Miss k p Z g.mem → (Miss k p Z (u g).mem ∧ More p g.mem (u g).mem) ∧ Part k p Z R (c g)

theorem part_bind {α β : Type} {k : Bytes} {p : Nat} {Z : Bytes → Prop} {R : α → Prop} {R' : β → Prop} {q : GP α} {c : α → GP β} (h : Part k p Z R q)
    (hf : ∀ a, R a → Part k p Z R' (c a)) : Part k p Z R' (q >>= c) := by
  induction q with
  | ret a => exact hf a h
  | act u c ih => exact fun g hg => ⟨(h g hg).1, ih g (h g hg).2⟩

theorem part_alone {k : Bytes} {p : Nat} {Z : Bytes → Prop} {R : Out → Prop} {q : GP Out} : ∀ {g : G}, Part k p Z R q → Miss k p Z g.mem → Miss k p Z (alone q g).1.mem := by
  induction q with
  | ret a => exact fun _ h => h
  | act u c ih => exact fun h hg => ih _ (h _ hg).2 (h _ hg).1.1

section
variable {k : Bytes} {p : Nat} {Z : Bytes → Prop}

theorem part_pure {α : Type} (a : α) : Part k p Z Triv (pure a : GP α) := trivial

theorem part_any {α β : Type} {q : GP α} {c : α → GP β} (h : Part k p Z Triv q) (hf : ∀ a, Part k p Z Triv (c a)) : Part k p Z Triv (q >>= c) :=
  part_bind h fun a _ => hf a

/-- The step loses no field. -/
def Grows (u : HashEntry → HashEntry) : Prop := ∀ e f, (hfind e.fields f).isSome = true → (hfind (u e).fields f).isSome = true

theorem grows_id : Grows id := fun _ _ h => h
theorem grows_put (f : Bytes) (v : Scalar) : Grows fun e => { e with fields := hput e.fields f v } := by
  intro e g h
  simp only [hfind_hput]
  split
  · rfl
  · exact h
theorem grows_lpu (f : Bytes) (v : Scalar) : Grows fun e => if (hfind e.fields f).isSome then e else { e with fields := hput e.fields f v } := by
  intro e g h
  simp only
  split
  · exact h
  · exact grows_put f v e g h
theorem grows_len (n : Int) : Grows fun e => { e with length := n } := fun _ _ h => h

theorem part_entry {α : Type} (a : List Access) (q : Nat) {u : HashEntry → HashEntry} (hm : Grows u)
    (hu : q = p → ∀ e z, Z z → hfind e.fields z = none → hfind (u e).fields z = none) (r : HashEntry → α) : Part k p Z Triv (entry a q u r) := by
  intro g h
  refine ⟨⟨⟨h.1, h.2.1, h.2.2.1, fun z hz => ?_⟩, fun z hz => ?_⟩, trivial⟩
  · show hfind (if p = q then u (g.mem.heap q) else g.mem.heap p).fields z = none
    split
    · next e => subst e; exact hu rfl _ _ hz (h.2.2.2 z hz)
    · exact h.2.2.2 z hz
  · show (hfind (if p = q then u (g.mem.heap q) else g.mem.heap p).fields z).isSome = true
    split
    · next e => subst e; exact hm _ _ hz
    · exact hz

theorem part_fLoad (q : Nat) (g : Bytes) : Part k p Z Triv (fLoad q g) := part_entry _ _ grows_id (fun _ _ _ _ h => h) _
theorem part_fNames (q : Nat) : Part k p Z Triv (fNames q) := part_entry _ _ grows_id (fun _ _ _ _ h => h) _
theorem part_lenLoad (q : Nat) : Part k p Z Triv (lenLoad q) := part_entry _ _ grows_id (fun _ _ _ _ h => h) _
theorem part_lenAdd (q : Nat) (n : Int) : Part k p Z Triv (lenAdd q n) := part_any (part_lenLoad q) fun _ => part_entry _ _ (grows_len _) (fun _ _ _ _ h => h) _

theorem put_other {fs : List (Bytes × Scalar)} {g z : Bytes} {v : Scalar} (hg : ¬ Z g) (hz : Z z) (h : hfind fs z = none) : hfind (hput fs g v) z = none := by
  rw [hfind_hput, if_neg]
  · exact h
  · rintro rfl; exact hg hz

theorem part_fStore {q : Nat} {g : Bytes} (hg : q = p → ¬ Z g) (v : Scalar) : Part k p Z Triv (fStore q g v) :=
  part_entry _ _ (grows_put g v) (fun e _ _ hz h => put_other (hg e) hz h) _
theorem part_fLoadOrStore {q : Nat} {g : Bytes} (hg : q = p → ¬ Z g) (v : Scalar) : Part k p Z Triv (fLoadOrStore q g v) :=
  part_entry _ _ (grows_lpu g v) (fun e _ _ hz h => by
    split
    · exact h
    · exact put_other (hg e) hz h) _

theorem part_expiredP (k' : Bytes) : Part k p Z (fun b => k' = k → b = false) (expiredP k') := by
  intro g h
  refine ⟨⟨h, fun _ h => h⟩, ?_⟩
  show Part k p Z _ (match g.mem.exp k' with
    | none => (pure false : GP Bool)
    | some d => do
      let n ← clock
      if d < n then do delData k'; delExp k'; pure true else pure false)
  by_cases e : k' = k
  · subst e
    rw [h.1.2]
    exact fun _ => rfl
  · cases g.mem.exp k' with
    | none => exact fun h => absurd h e
    | some d =>
      intro g1 h1
      refine ⟨⟨h1, fun _ h => h⟩, ?_⟩
      show Part k p Z _ (if d < g1.mem.now then do delData k'; delExp k'; pure true else pure false : GP Bool)
      split
      · intro g2 h2
        refine ⟨⟨⟨⟨?_, h2.1.2⟩, h2.2.1, fun k2 h => ?_, h2.2.2.2⟩, fun _ h => h⟩, fun g3 h3 => ⟨⟨⟨⟨h3.1.1, ?_⟩, h3.2⟩, fun _ h => h⟩, fun h => absurd h e⟩⟩
        · show upd g2.mem.data k' none k = _
          rw [upd_other e]; exact h2.1.1
        · have h : upd g2.mem.data k' none k2 = some (.ref p) := h
          refine h2.2.2.1 k2 ?_
          simp only [upd] at h
          split at h
          · cases h
          · exact h
        · show upd g3.mem.exp k' none k = _
          rw [upd_other e]; exact h3.1.2
      · exact fun h => absurd h e

theorem part_getP (k' : Bytes) : Part k p Z (fun r => (k' = k → r = some (.ref p)) ∧ (r = some (.ref p) → k' = k)) (getP k') := by
  intro g h
  refine ⟨⟨h, fun _ h => h⟩, ?_⟩
  show Part k p Z _ (match g.mem.data k' with
    | none => (pure none : GP (Option Cell))
    | some v => do if ← expiredP k' then pure none else pure (some v))
  have h' : (k' = k → g.mem.data k' = some (.ref p)) ∧ (g.mem.data k' = some (.ref p) → k' = k) := by
    refine ⟨?_, h.2.2.1 k'⟩
    rintro rfl
    exact h.1.1
  cases e : g.mem.data k' with
  | none => rw [e] at h'; exact h'
  | some v =>
    rw [e] at h'
    refine part_bind (part_expiredP k') fun b hb => ?_
    cases b with
    | true => exact ⟨fun e' => (by cases hb e'), fun e' => (by cases e')⟩
    | false => exact h'

theorem part_fetchP {α : Type} {k' : Bytes} {body : Nat → GP (Res α)} (hb : ∀ q, (q = p → k' = k) → Part k p Z Triv (body q)) : Part k p Z Triv (fetchP k' body) := by
  refine part_bind (part_getP k') fun r hr => ?_
  rcases r with _ | (v | q | t)
  · have e : k' ≠ k := fun e => by cases hr.1 e
    have hbody : ∀ g : G, Miss k p Z g.mem → Part k p Z Triv (body g.mem.next) := fun g h => hb _ fun e => absurd e.symm (Nat.ne_of_lt h.2.1)
    intro g h
    refine ⟨⟨⟨⟨?_, h.1.2⟩, Nat.lt_succ_of_lt h.2.1, fun k2 h2 => ?_, fun z hz => ?_⟩, fun z hz => ?_⟩, hbody g h⟩
    · show upd g.mem.data k' _ k = _
      rw [upd_other e]; exact h.1.1
    · have h2 : upd g.mem.data k' (some (.ref g.mem.next)) k2 = some (.ref p) := h2
      simp only [upd] at h2
      split at h2
      · simp only [Option.some.injEq, Cell.ref.injEq] at h2
        exact absurd h2.symm (Nat.ne_of_lt h.2.1)
      · exact h.2.2.1 k2 h2
    · show hfind (if p = g.mem.next then HashEntry.empty else g.mem.heap p).fields z = none
      rw [if_neg (Nat.ne_of_lt h.2.1)]; exact h.2.2.2 z hz
    · show (hfind (if p = g.mem.next then HashEntry.empty else g.mem.heap p).fields z).isSome = true
      rw [if_neg (Nat.ne_of_lt h.2.1)]; exact hz
  · exact trivial
  · exact hb q fun e => hr.2 (by rw [e])
  · exact trivial

theorem part_readP {α : Type} (k' : Bytes) {body : Option Nat → GP (Res α)} (hb : ∀ q, Part k p Z Triv (body q)) : Part k p Z Triv (readP k' body) := by
  refine part_bind (part_getP k') fun r hr => ?_
  rcases r with _ | (v | q | t)
  · exact hb none
  · exact trivial
  · exact hb (some q)
  · exact trivial

/-- The steps on entries the calls below make. -/
macro "parts" : tactic =>
  `(tactic| first | exact part_fLoad _ _ | exact part_fNames _ | exact part_lenLoad _)

theorem part_setP {q : Nat} {f : Bytes} (hf : q = p → ¬ Z f) (v : Bytes) : Part k p Z Triv (setP q f v) := by
  have h := fun n => part_lenAdd (k := k) (p := p) (Z := Z) q n
  refine part_any (part_fLoadOrStore hf _) fun b => ?_
  cases b
  · exact part_any (h 1) fun _ => part_pure _
  · exact part_any (part_fStore hf _) fun _ => part_any (h 0) fun _ => part_pure _

theorem part_hMSetP {q : Nat} {fv : List (Bytes × Bytes)} (hf : q = p → ∀ x ∈ fv, ¬ Z x.1) : ∀ n, Part k p Z Triv (hMSetP q fv n) := by
  induction fv with
  | nil => exact fun n => trivial
  | cons x fv ih => exact fun n => part_any (part_setP (fun e => hf e x (by simp)) x.2) fun m => ih (fun e y hy => hf e y (List.mem_cons_of_mem _ hy)) (n + m)

theorem part_hMGetP (o : Option Nat) (fs : List Bytes) : Part k p Z Triv (hMGetP o fs) := by
  induction fs with
  | nil => trivial
  | cons f fs ih =>
    cases o with
    | none => exact part_any ih fun _ => part_pure _
    | some q => exact part_any (by parts) fun _ => part_any ih fun _ => part_pure _

theorem part_hKeysP (q : Nat) (fs : List Bytes) : Part k p Z Triv (hKeysP q fs) := by
  induction fs with
  | nil => trivial
  | cons f fs ih => exact part_any (by parts) fun _ => part_any ih fun _ => part_pure _

theorem part_hValsP (q : Nat) (fs : List Bytes) : Part k p Z Triv (hValsP q fs) := by
  induction fs with
  | nil => trivial
  | cons f fs ih => exact part_any (by parts) fun _ => part_any ih fun _ => part_pure _

theorem part_hGetAllP (q : Nat) (fs : List Bytes) : Part k p Z Triv (hGetAllP q fs) := by
  induction fs with
  | nil => trivial
  | cons f fs ih =>
    refine part_any (by parts) fun v => ?_
    cases v with
    | none => exact ih
    | some v =>
      show Part k p Z Triv (match fmtCell (.scalar v) with | .ok _ => hGetAllP q fs | _ => pure .panic)
      split
      · exact ih
      · trivial

theorem part_mGetP (ks : List Bytes) : Part k p Z Triv (mGetP ks) := by
  induction ks with
  | nil => trivial
  | cons k' ks ih => exact part_bind (part_getP k') fun _ _ => part_any ih fun _ => part_pure _

theorem part_existsP (ks : List Bytes) : ∀ n, Part k p Z Triv (existsP ks n) := by
  induction ks with
  | nil => exact fun n => trivial
  | cons k' ks ih =>
    intro n g h
    refine ⟨⟨h, fun _ h => h⟩, ?_⟩
    show Part k p Z Triv (match g.mem.data k' with | some _ => existsP ks (n + 1) | none => existsP ks n)
    split
    · exact ih _
    · exact ih _


end

/-- Not `HDel` of one field or more. -/
def NoDel : Call → Prop
  | .hDel _ (_ :: _) => False
  | _ => True

/-- The call may put the field `f` into the hash under `k`. -/
def Sets (k f : Bytes) : Call → Prop
  | .hSet k' f' _ | .hSetNX k' f' _ | .hIncrBy k' f' _ | .hIncrByFloat k' f' _ => k' = k ∧ f' = f
  | .hMSet k' fv => k' = k ∧ ∃ x ∈ fv, x.1 = f
  | _ => False

theorem part_prog {k : Bytes} {p : Nat} {Z : Bytes → Prop} {op : Call} (h : Gentle op) (hd : NoDel op) (hs : ∀ z, Z z → ¬ Sets k z op) : Part k p Z Triv (prog op) := by
  have pure' : ∀ {α β : Type} {q : GP α} {f : α → β}, Part k p Z Triv q → Part k p Z Triv (q >>= fun a => pure (f a)) :=
    fun h => part_any h fun _ => part_pure _
  cases op <;> first | exact h.elim | skip
  case get k' =>
    refine part_bind (part_getP k') fun r _ => ?_
    cases r <;> trivial
  case strLen k' =>
    refine part_bind (part_getP k') fun r _ => ?_
    cases r <;> trivial
  case getRange k' a b =>
    refine part_bind (part_getP k') fun r _ => ?_
    cases r <;> trivial
  case type k' =>
    refine part_bind (part_getP k') fun r _ => ?_
    cases r <;> trivial
  case exists_ ks => exact pure' (part_existsP ks 0)
  case mGet ks => exact pure' (part_mGetP ks)
  case hSet k' f v => exact pure' (part_fetchP fun q hq => pure' (part_setP (fun e hz => hs f hz ⟨hq e, rfl⟩) v))
  case hSetNX k' f v =>
    refine pure' (part_fetchP fun q hq => part_any (part_fLoadOrStore (fun e hz => hs f hz ⟨hq e, rfl⟩) _) fun b => ?_)
    cases b
    · exact part_any (part_lenAdd q 1) fun _ => part_pure _
    · trivial
  case hExists k' f =>
    refine pure' (part_readP k' fun q => ?_)
    cases q with
    | none => trivial
    | some q => exact part_any (by parts) fun v => part_any (part_lenAdd q _) fun _ => part_pure _
  case hDel k' fs =>
    refine pure' (part_readP k' fun q => ?_)
    cases fs with
    | cons f fs => exact hd.elim
    | nil => cases q <;> trivial
  case hLen k' =>
    refine pure' (part_readP k' fun q => ?_)
    cases q with
    | none => trivial
    | some q => exact pure' (by parts)
  case hStrLen k' f =>
    refine pure' (part_readP k' fun q => ?_)
    cases q with
    | none => trivial
    | some q =>
      refine part_any (by parts) fun v => ?_
      cases v <;> trivial
  case hGet k' f =>
    refine pure' (part_readP k' fun q => ?_)
    cases q with
    | none => trivial
    | some q =>
      refine part_any (by parts) fun v => ?_
      cases v <;> trivial
  case hIncrBy k' f n =>
    refine pure' (part_fetchP fun q hq => part_any (by parts) fun v => ?_)
    cases v with
    | none => exact part_any (part_setP (fun e hz => hs f hz ⟨hq e, rfl⟩) _) fun _ => part_pure _
    | some v =>
      show Part k p Z Triv (match Cache.hIncrScalar n v with
        | .ok m => do let _ ← setP q f (itoa n); pure (.ok m)
        | r => pure r)
      split
      · exact part_any (part_setP (fun e hz => hs f hz ⟨hq e, rfl⟩) _) fun _ => part_pure _
      · trivial
  case hIncrByFloat k' f n =>
    refine pure' (part_fetchP fun q hq => part_any (by parts) fun v => ?_)
    cases v with
    | none => exact part_any (part_setP (fun e hz => hs f hz ⟨hq e, rfl⟩) _) fun _ => part_pure _
    | some v =>
      show Part k p Z Triv (match Cache.hIncrFloatScalar n v with
        | .ok m => do let _ ← setP q f (formatFloat n); pure (.ok m)
        | r => pure r)
      split
      · exact part_any (part_setP (fun e hz => hs f hz ⟨hq e, rfl⟩) _) fun _ => part_pure _
      · trivial
  case hMSet k' fv => exact pure' (part_fetchP fun q hq => part_hMSetP (fun e x hx hz => hs x.1 hz ⟨hq e, x, hx, rfl⟩) 0)
  case hMGet k' fs => exact pure' (part_readP k' fun q => pure' (part_hMGetP q fs))
  case hKeys k' =>
    refine pure' (part_readP k' fun q => ?_)
    cases q with
    | none => trivial
    | some q => exact part_any (by parts) fun ns => pure' (part_hKeysP q ns)
  case hVals k' =>
    refine pure' (part_readP k' fun q => ?_)
    cases q with
    | none => trivial
    | some q => exact part_any (by parts) fun ns => pure' (part_hValsP q ns)
  case hGetAll k' =>
    refine pure' (part_readP k' fun q => ?_)
    cases q with
    | none => trivial
    | some q => exact part_any (by parts) fun ns => part_hGetAllP q ns


/-- With the lock free a goroutine can make a gentle call alone, and what is missing stays missing. -/
theorem part_call {k : Bytes} {p : Nat} {Z : Bytes → Prop} {g : Cfg} {i : Nat} {op : Call} {rest : List Call} (hop : Gentle op ∧ NoDel op ∧ ∀ z, Z z → ¬ Sets k z op) (hf : Unheld g) (hh : Miss k p Z g.sh.mem)
    (ht : g.thr i = ⟨op :: rest, none⟩) :
    ∃ g', Steps spec true g g' ∧ g'.thr i = ⟨rest, none⟩ ∧ (∀ j, j ≠ i → g'.thr j = g.thr j) ∧ Unheld g' ∧ Miss k p Z g'.sh.mem := by
  have after : ∀ g1 : Cfg, Steps spec true g g1 → g1.sh = g.sh → g1.thr i = ⟨rest, some (op, prog op)⟩ → (∀ j, j ≠ i → g1.thr j = g.thr j) →
      (unlockW (spec.mode op) g1.writer = none ∧ unlockR (spec.mode op) i g1.readers = []) →
      ∃ g', Steps spec true g g' ∧ g'.thr i = ⟨rest, none⟩ ∧ (∀ j, j ≠ i → g'.thr j = g.thr j) ∧ Unheld g' ∧ Miss k p Z g'.sh.mem := by
    intro g1 s1 e1 t1 o1 u1
    obtain ⟨g2, s2, h2, t2, o2, w2, r2, _⟩ := steps_alone (P := spec) _ g1 t1
    refine ⟨_, (s1.trans s2).snoc (.fin g2 i op rest _ t2), by simp, fun j hj => ?_, ?_, ?_⟩
    · simp [setThr_ne _ _ hj, o2 j hj, o1 j hj]
    · simp only [Unheld, w2, r2]; exact u1
    · show Miss k p Z g2.sh.mem
      rw [h2, e1]
      exact part_alone (part_prog hop.1 hop.2.1 hop.2.2) hh
  cases hm : spec.mode op with
  | write =>
    refine after _ (Steps.refl.snoc (.startW g i op rest ht hm hf.1 hf.2)) rfl (by simp; rfl) (fun j hj => by simp [setThr_ne _ _ hj]) ?_
    simp [unlockW, unlockR, hm, hf.2]
  | read =>
    refine after _ (Steps.refl.snoc (.startR g i op rest ht hm hf.1 (.inl rfl))) rfl (by simp; rfl) (fun j hj => by simp [setThr_ne _ _ hj]) ?_
    simp [unlockW, unlockR, hm, hf.1, hf.2]
  | unlocked =>
    refine after _ (Steps.refl.snoc (.startN g i op rest ht hm)) rfl (by simp; rfl) (fun j hj => by simp [setThr_ne _ _ hj]) ?_
    simp [unlockW, unlockR, hm, hf.1, hf.2]
  | unsupported => exact absurd hm (mode_supported op)

theorem part_calls {k : Bytes} {p : Nat} {Z : Bytes → Prop} {i : Nat} {rest : List Call} (l : List Call) : (∀ op ∈ l, Gentle op ∧ NoDel op ∧ ∀ z, Z z → ¬ Sets k z op) → ∀ {g : Cfg}, Unheld g → Miss k p Z g.sh.mem →
    g.thr i = ⟨l ++ rest, none⟩ →
    ∃ g', Steps spec true g g' ∧ g'.thr i = ⟨rest, none⟩ ∧ (∀ j, j ≠ i → g'.thr j = g.thr j) ∧ Unheld g' ∧ Miss k p Z g'.sh.mem := by
  induction l with
  | nil => exact fun _ _ hf hh ht => ⟨_, .refl, ht, fun _ _ => rfl, hf, hh⟩
  | cons op l ih =>
    intro hl g hf hh ht
    obtain ⟨g1, s1, t1, o1, f1, h1⟩ := part_call (hl op (by simp)) hf hh ht
    obtain ⟨g2, s2, t2, o2, f2, h2⟩ := ih (fun o ho => hl o (List.mem_cons_of_mem _ ho)) f1 h1 t1
    exact ⟨g2, s1.trans s2, t2, fun j hj => (o2 j hj).trans (o1 j hj), f2, h2⟩

theorem after_none {a : Call} {k z : Bytes} {x : Bool} (hs : sizeUse a = some (k, x)) (hn : ¬ Sets k z a) {F F' : List (Bytes × Scalar)} (h : After (cls a) F F')
    (h0 : hfind F z = none) : hfind F' z = none := by
  have same : F' = F → hfind F' z = none := fun e => e ▸ h0
  cases a <;> simp only [sizeUse, Option.some.injEq, Prod.mk.injEq, reduceCtorEq] at hs
  case hSet k' f v => exact (h.2 z fun e => hn ⟨hs.1, e.symm⟩).trans h0
  case hSetNX k' f v => exact (h.2 z fun e => hn ⟨hs.1, e.symm⟩).trans h0
  case hMSet k' fv =>
    cases fv with
    | nil => cases hs
    | cons y fv =>
      simp only [Option.some.injEq, Prod.mk.injEq] at hs
      exact (h.2 z fun e => hn ⟨hs.1, y, by simp, e.symm⟩).trans h0
  case hDel k' fs =>
    cases fs with
    | nil => cases hs
    | cons y fs => exact same h
  all_goals exact same h

/-- The call comes to the size of its hash if the fields in `Z` are missing. -/
def Bound (Z : Bytes → Prop) (a : Call) : Prop := Steady a ∨ ∃ k f x, a = .hSetNX k f x ∧ Z f

theorem bound_ready {Z : Bytes → Prop} {a : Call} (h : Bound Z a) {F : List (Bytes × Scalar)} (hF : ∀ z, Z z → hfind F z = none) : Ready (cls a) F := by
  rcases h with h | ⟨k, f, x, rfl, hz⟩
  · exact steady_ready h F
  · exact hF f hz

theorem part_go {k : Bytes} {p : Nat} {Z : Bytes → Prop} {R : Out → Prop} {q q' : GP Out} {g g' : G} (hg : Go q g q' g') (h : Part k p Z R q) (hm : Miss k p Z g.mem) :
    Miss k p Z g'.mem := by
  induction hg with
  | refl => exact hm
  | act _ ih => exact ih (h _ hm).2 (h _ hm).1.1

/-- One goroutine comes near to its use of the size, then the other makes its calls and comes near to its own: if what is made so far does not set the fields that must
be missing, they can race. -/
theorem race_missing {v : Mem} {calls : Nat → List Call} {i j : Nat} (hij : i ≠ j) {l r l' r' : List Call} {a b : Call} (hi : calls i = l ++ a :: r) (hj : calls j = l' ++ b :: r')
    (hc : ∀ i, ∀ o ∈ calls i, Gentle o ∧ NoDel o) {k : Bytes} {p : Nat} {Z Z' : Bytes → Prop} (hl : ∀ o ∈ l, ∀ z, Z z ∨ Z' z → ¬ Sets k z o)
    (ha : ∀ z, Z' z → ¬ Sets k z a) (hl' : ∀ o ∈ l', ∀ z, Z' z → ¬ Sets k z o)
    {x y : Bool} (sa : sizeUse a = some (k, x)) (sb : sizeUse b = some (k, y)) (hw : x = true ∨ y = true) (ra : Bound Z a) (rb : Bound Z' b)
    (hh : Miss k p (fun z => Z z ∨ Z' z) v) : HasRace (start v calls) := by
  have ci : ∀ o ∈ l ++ a :: r, Gentle o ∧ NoDel o := fun o ho => hc i o (by rw [hi]; exact ho)
  have cj : ∀ o ∈ l' ++ b :: r', Gentle o ∧ NoDel o := fun o ho => hc j o (by rw [hj]; exact ho)
  have ti : (start v calls).thr i = ⟨l ++ a :: r, none⟩ := by simp [start, initial, hi]
  have tj : (start v calls).thr j = ⟨l' ++ b :: r', none⟩ := by simp [start, initial, hj]
  obtain ⟨g1, s1, t1, o1, f1, h1⟩ := part_calls (g := start v calls) (i := i) l (fun o ho => ⟨(ci o (by simp [ho])).1, (ci o (by simp [ho])).2, hl o ho⟩) (rest := a :: r)
    ⟨rfl, rfl⟩ hh ti
  let g2 : Cfg := { g1 with thr := setThr g1.thr i ⟨r, some (a, prog a)⟩ }
  have s2 : Step spec true g1 g2 := .startN g1 i a r t1 (bare_mode (sizeUse_bare sa))
  have h0 : Has k p (g2.sh.mem.heap p).fields g2.sh := ⟨h1.1.1, h1.1.2, rfl⟩
  obtain ⟨p1, u1, F1, e1, w1, k1, c1⟩ := commit sa h0 (bound_ready ra fun z hz => h1.2.2.2 z (.inl hz))
  have m1 : Miss k p Z' u1.mem := part_go e1 (part_prog (ci a (by simp)).1 (ci a (by simp)).2 ha) ⟨h1.1, h1.2.1, h1.2.2.1, fun z hz => h1.2.2.2 z (.inr hz)⟩
  let g3 : Cfg := { g2 with sh := u1, thr := setThr g2.thr i ⟨r, some (a, p1)⟩ }
  have s3 : Steps spec true g2 g3 := steps_go (op := a) e1 g2 i r rfl (by simp [g2])
  have tj3 : g3.thr j = ⟨l' ++ b :: r', none⟩ := by
    simp only [g3, g2, setThr_ne _ _ (Ne.symm hij)]
    rw [o1 j (Ne.symm hij)]; exact tj
  obtain ⟨g4, s4, t4, o4, f4, h4⟩ := part_calls (g := g3) (i := j) l' (fun o ho => ⟨(cj o (by simp [ho])).1, (cj o (by simp [ho])).2, hl' o ho⟩) (rest := b :: r') f1 m1 tj3
  let g5 : Cfg := { g4 with thr := setThr g4.thr j ⟨r', some (b, prog b)⟩ }
  have s5 : Step spec true g4 g5 := .startN g4 j b r' t4 (bare_mode (sizeUse_bare sb))
  have ti5 : g5.thr i = ⟨r, some (a, p1)⟩ := by
    simp only [g5, setThr_ne _ _ hij]
    rw [o4 i hij]; simp [g3]
  have h5 : Has k p (g5.sh.mem.heap p).fields g5.sh := ⟨h4.1.1, h4.1.2, rfl⟩
  obtain ⟨q1, u2, F2, e2, w2, k2, _⟩ := commit sb h5 (bound_ready rb h4.2.2.2)
  obtain ⟨a2, b2, c2, d2, x2⟩ := go_on (g := g5) (i := j) (a := b) (r := r') (by simp [g5]) e2
  obtain ⟨p2, u3, e3, t3⟩ := w1 a2.sh
  obtain ⟨a3, b3, c3, d3, x3⟩ := go_on (g := a2) ((x2 i hij).trans ti5) e3
  obtain ⟨q2, u4, e4, t5⟩ := w2 a3.sh
  obtain ⟨a4, b4, c4, d4, x4⟩ := go_on (g := a3) ((x3 j (Ne.symm hij)).trans d2) e4
  exact race_at ((((((s1.snoc s2).trans s3).trans s4).snoc s5).trans b2).trans (b3.trans b4)) hij ((x4 i hij).trans d3) d4 t3 t5 ⟨rfl, hw⟩

/-- The first call of a list that satisfies `Q`. -/
theorem first_of {Q : Call → Prop} {L : List Call} (h : ∃ c ∈ L, Q c) : ∃ l a r, L = l ++ a :: r ∧ Q a ∧ ∀ o ∈ l, ¬ Q o := by
  induction L with
  | nil => obtain ⟨c, hc, _⟩ := h; cases hc
  | cons c L ih =>
    by_cases hc : Q c
    · exact ⟨[], c, L, rfl, hc, by simp⟩
    · obtain ⟨d, hd, hs⟩ := h
      rcases List.mem_cons.1 hd with rfl | hd
      · exact absurd hs hc
      · obtain ⟨l, a, r, rfl, h1, h2⟩ := ih ⟨d, hd, hs⟩
        refine ⟨c :: l, a, r, rfl, h1, fun o ho => ?_⟩
        rcases List.mem_cons.1 ho with rfl | ho
        · exact hc
        · exact h2 o ho

theorem first_set {k f : Bytes} {L : List Call} (h : ∃ c ∈ L, Sets k f c) : ∃ l a r, L = l ++ a :: r ∧ Sets k f a ∧ ∀ o ∈ l, ¬ Sets k f o := first_of h

/-- Under the keys in `C` there are hashes, without deadline; that of `k` is at `P k`. -/
def Kept (C : Bytes → Prop) (P : Bytes → Nat) (w : Mem) : Prop := ∀ k, C k → Miss k (P k) (fun _ => False) w

/-- The field is there. -/
def Pres (P : Bytes → Nat) (k f : Bytes) (w : Mem) : Prop := (hfind (w.heap (P k)).fields f).isSome = true

/-- No field in `S` comes. -/
def Quiet (S : Bytes → Bytes → Prop) (P : Bytes → Nat) (w w' : Mem) : Prop := ∀ k f, S k f → Pres P k f w' → Pres P k f w

/-- Two programs that make the same steps as long as the first makes none of the fields in `S`. -/
inductive Mime {α : Type} (C : Bytes → Prop) (P : Bytes → Nat) (S : Bytes → Bytes → Prop) (R : α → α → Prop) : GP α → GP α → Prop
  | ret {a b : α} : R a b → Mime C P S R (.ret a) (.ret b)
  | act {u u' : G → G} {c c' : G → GP α} :
      (∀ g, Kept C P g.mem → Kept C P (u g).mem ∧ ∀ k, C k → More (P k) g.mem (u g).mem) →
      (∀ g, Kept C P g.mem → Quiet S P g.mem (u g).mem → u g = u' g) →
      (∀ g, Kept C P g.mem → Quiet S P g.mem (u g).mem → Mime C P S R (c g) (c' g)) → Mime C P S R (.act u c) (.act u' c')

abbrev Triv2 {α : Type} : α → α → Prop := fun _ _ => True

section
variable {C : Bytes → Prop} {P : Bytes → Nat} {S : Bytes → Bytes → Prop}

theorem Mime.bind {α β : Type} {R : α → α → Prop} {R' : β → β → Prop} {p q : GP α} {f f' : α → GP β} (h : Mime C P S R p q)
    (hf : ∀ a b, R a b → Mime C P S R' (f a) (f' b)) : Mime C P S R' (p >>= f) (q >>= f') := by
  induction h with
  | ret h => exact hf _ _ h
  | act h0 h1 _ ih => exact .act h0 h1 fun g hg hq => ih g hg hq

theorem Mime.mono {α : Type} {R R' : α → α → Prop} {p q : GP α} (h : Mime C P S R p q) (hr : ∀ a b, R a b → R' a b) : Mime C P S R' p q := by
  induction h with
  | ret h => exact .ret (hr _ _ h)
  | act h0 h1 _ ih => exact .act h0 h1 ih

theorem mime_of_part {α : Type} {R : Bytes → α → Prop} {q : GP α} (h : ∀ k, C k → Part k (P k) (fun _ => False) (R k) q) :
    Mime C P S (fun a b => a = b ∧ ∀ k, C k → R k a) q q := by
  induction q with
  | ret a => exact .ret ⟨rfl, h⟩
  | act u c ih =>
    exact .act (fun g hg => ⟨fun k hk => (h k hk g (hg k hk)).1.1, fun k hk => (h k hk g (hg k hk)).1.2⟩) (fun _ _ _ => rfl)
      fun g hg _ => ih g fun k hk => (h k hk g (hg k hk)).2

open Classical in
/-- `HStrLen` in the place of `HSetNX` of fields in `S`. -/
noncomputable def swapNX (S : Bytes → Bytes → Prop) : Call → Call
  | .hSetNX k f x => if S k f then .hStrLen k f else .hSetNX k f x
  | op => op

theorem swapNX_cases (S : Bytes → Bytes → Prop) (op : Call) : swapNX S op = op ∧ (∀ k f x, op = .hSetNX k f x → ¬ S k f) ∨
    ∃ k f x, S k f ∧ swapNX S op = .hStrLen k f ∧ op = .hSetNX k f x := by
  cases op <;> first | exact .inl ⟨rfl, fun _ _ _ e => by cases e⟩ | skip
  case hSetNX k f x =>
    by_cases h : S k f
    · exact .inr ⟨k, f, x, h, by simp [swapNX, h], rfl⟩
    · exact .inl ⟨by simp [swapNX, h], fun _ _ _ e => by cases e; exact h⟩

theorem swapNX_mode (S : Bytes → Bytes → Prop) (op : Call) : spec.mode (swapNX S op) = spec.mode op := by
  rcases swapNX_cases S op with ⟨h, _⟩ | ⟨k, f, x, _, h, rfl⟩ <;> rw [h] <;> rfl

theorem mime_prog (hS : ∀ k f, S k f → C k) {op : Call} (h : Gentle op) (hd : NoDel op) : Mime C P S Triv2 (prog op) (prog (swapNX S op)) := by
  rcases swapNX_cases S op with ⟨e, _⟩ | ⟨k, f, x, hk, e, rfl⟩
  · rw [e]
    exact (mime_of_part (R := fun _ => Triv) fun k _ => part_prog h hd fun _ h => h.elim).mono fun _ _ _ => trivial
  · rw [e]
    refine Mime.bind (R := Triv2) ?_ fun _ _ _ => .ret trivial
    refine Mime.bind (mime_of_part fun k' _ => part_getP k) fun r r' hr => ?_
    obtain ⟨rfl, hr⟩ := hr
    rw [(hr k (hS k f hk)).1 rfl]
    have lpu : ∀ g : G, Kept C P g.mem → Kept C P (first (fLoadOrStore (P k) f (.str x)) g).mem ∧ ∀ k', C k' → More (P k') g.mem (first (fLoadOrStore (P k) f (.str x)) g).mem := by
      intro g hg
      have h := fun k' => part_fLoadOrStore (k := k') (p := P k') (Z := fun _ => False) (q := P k) (g := f) (fun _ h => h) (.str x) g
      exact ⟨fun k' hk' => (h k' (hg k' hk')).1.1, fun k' hk' => (h k' (hg k' hk')).1.2⟩
    have pres : ∀ g : G, Quiet S P g.mem (first (fLoadOrStore (P k) f (.str x)) g).mem → (hfind (g.mem.heap (P k)).fields f).isSome = true := by
      intro g hq
      obtain ⟨_, h1, h2, _⟩ := has_loadOrStore (k := k) (p := P k) (g := ⟨{ g.mem with data := fun _ => some (.ref (P k)), exp := fun _ => none }, g.acc⟩) ⟨rfl, rfl, rfl⟩ f (.str x)
      refine hq k f hk ?_
      rw [← h1.2.2] at h2
      exact h2
    refine .act lpu (fun g hg hq => ?_) fun g hg hq => ?_
    · have := pres g hq
      simp only [this, if_true]
      rfl
    · have := pres g hq
      show Mime _ _ _ _ (if (hfind (g.mem.heap (P k)).fields f).isSome = true then pure (.ok 0) else (do lenAdd (P k) 1; pure (.ok 1)) : GP (Res Int))
        (match hfind (g.mem.heap (P k)).fields f with
        | some v => pure (.ok ((fmtScalar v).length : Int))
        | none => pure (.ok 0) : GP (Res Int))
      rw [if_pos this]
      split <;> exact .ret trivial

/-- What a goroutine is at, in the two programs. -/
def TwinNX (C : Bytes → Prop) (P : Bytes → Nat) (S : Bytes → Bytes → Prop) (t t' : Thread G Call Out) : Prop :=
  (∀ op ∈ t.todo, Mime C P S Triv2 (prog op) (prog (swapNX S op))) ∧ t'.todo = t.todo.map (swapNX S) ∧
    ((t.cur = none ∧ t'.cur = none) ∨ ∃ op p p', t.cur = some (op, p) ∧ t'.cur = some (swapNX S op, p') ∧ Mime C P S Triv2 p p')

theorem idle_nx {t' : Thread G Call Out} {op : Call} {rest : List Call} (h : TwinNX C P S ⟨op :: rest, none⟩ t') :
    t' = ⟨swapNX S op :: rest.map (swapNX S), none⟩ ∧ TwinNX C P S ⟨rest, some (op, prog op)⟩ ⟨rest.map (swapNX S), some (swapNX S op, prog (swapNX S op))⟩ := by
  obtain ⟨h1, h2, ⟨_, h3⟩ | ⟨_, _, _, h3, _⟩⟩ := h
  · exact ⟨by cases t'; simp_all, fun o ho => h1 o (List.mem_cons_of_mem _ ho), rfl, .inr ⟨op, _, _, rfl, rfl, h1 op (by simp)⟩⟩
  · cases h3

theorem busy_nx {t' : Thread G Call Out} {op : Call} {p : GP Out} {rest : List Call} (h : TwinNX C P S ⟨rest, some (op, p)⟩ t') :
    ∃ p', t' = ⟨rest.map (swapNX S), some (swapNX S op, p')⟩ ∧ Mime C P S Triv2 p p' := by
  obtain ⟨h1, h2, ⟨h3, _⟩ | ⟨o, q, q', h3, h4, h5⟩⟩ := h
  · cases h3
  · cases h3
    exact ⟨q', by cases t'; simp_all, h5⟩

end

/-- The fields that another goroutine than `i` is to make, or nobody. -/
def NotBy (C : Bytes → Prop) (ch : Bytes → Bytes → Option Nat) (i : Nat) (k f : Bytes) : Prop := C k ∧ ch k f ≠ some i

structure BothNX (C : Bytes → Prop) (P : Bytes → Nat) (ch : Bytes → Bytes → Option Nat) (g g' : Cfg) : Prop where
  sh : g'.sh = g.sh
  writer : g'.writer = g.writer
  readers : g'.readers = g.readers
  thr : ∀ i, TwinNX C P (NotBy C ch i) (g.thr i) (g'.thr i)
  kept : Kept C P g.sh.mem

section
variable {C : Bytes → Prop} {P : Bytes → Nat} {ch : Bytes → Bytes → Option Nat}

theorem both_nx {f f' : Nat → Thread G Call Out} (h : ∀ i, TwinNX C P (NotBy C ch i) (f i) (f' i)) {i : Nat} {t t' : Thread G Call Out} (ht : TwinNX C P (NotBy C ch i) t t') :
    ∀ j, TwinNX C P (NotBy C ch j) (setThr f i t j) (setThr f' i t' j) := by
  intro j
  by_cases e : j = i
  · subst e; simpa using ht
  · rw [setThr_ne _ _ e, setThr_ne _ _ e]; exact h j

theorem acts_nx {g g' h : Cfg} {i : Nat} (hb : BothNX C P ch g g') (hs : Acts i g h) (hq : Quiet (NotBy C ch i) P g.sh.mem h.sh.mem) : ∃ h', Acts i g' h' ∧ BothNX C P ch h h' := by
  cases hs with
  | mk op todo u c ht =>
    have hi := hb.thr i
    rw [ht] at hi
    obtain ⟨p', e, ht'⟩ := busy_nx hi
    cases ht' with
    | act h0 h1 h2 =>
      refine ⟨_, .mk g' _ _ _ _ e, ?_, hb.writer, hb.readers, both_nx hb.thr ⟨hi.1, rfl, .inr ⟨op, _, _, rfl, rfl, ?_⟩⟩, (h0 _ hb.kept).1⟩
      · rw [hb.sh]; exact (h1 _ hb.kept hq).symm
      · rw [hb.sh]; exact h2 _ hb.kept hq

/-- No step loses a field. -/
theorem acts_more {g g' h : Cfg} {i : Nat} (hb : BothNX C P ch g g') (hs : Acts i g h) : ∀ k, C k → More (P k) g.sh.mem h.sh.mem := by
  cases hs with
  | mk op todo u c ht =>
    have hi := hb.thr i
    rw [ht] at hi
    obtain ⟨p', e, ht'⟩ := busy_nx hi
    cases ht' with
    | act h0 h1 h2 => exact (h0 _ hb.kept).2

end

/-- The choice `ch` tells of every field that is there who made it, as noted in `W`. -/
def Agrees (C : Bytes → Prop) (P : Bytes → Nat) (W ch : Bytes → Bytes → Option Nat) (w : Mem) : Prop := ∀ k f, C k → Pres P k f w → ch k f = W k f

/-- For every choice of who makes the fields that are still missing, the twin program comes to the same. -/
def Follows (C : Bytes → Prop) (P : Bytes → Nat) (v : Mem) (calls : Nat → List Call) (W : Bytes → Bytes → Option Nat) (g : Cfg) : Prop :=
  ∀ ch, Agrees C P W ch g.sh.mem → (∀ k f, C k → Pres P k f v → ch k f = none) ∧
    ∃ g', Steps spec true (start v fun i => (calls i).map (swapNX (NotBy C ch i))) g' ∧ BothNX C P ch g g'

open Classical in
/-- The notes after a step of goroutine `i`. -/
noncomputable def note (P : Bytes → Nat) (W : Bytes → Bytes → Option Nat) (i : Nat) (w : Mem) : Bytes → Bytes → Option Nat :=
  fun k f => if Pres P k f w then W k f else some i

section
variable {C : Bytes → Prop} {P : Bytes → Nat} {v : Mem} {calls : Nat → List Call}

theorem agrees_back {W ch : Bytes → Bytes → Option Nat} {i : Nat} {w w' : Mem} (hm : ∀ k, C k → More (P k) w w') (h : Agrees C P (note P W i w) ch w') :
    Agrees C P W ch w ∧ Quiet (NotBy C ch i) P w w' := by
  refine ⟨fun k f hk hp => ?_, fun k f hk hp => ?_⟩
  · have := h k f hk (hm k hk f hp)
    rwa [note, if_pos hp] at this
  · refine Classical.byContradiction fun hn => hk.2 ?_
    have := h k f hk.1 hp
    rwa [note, if_neg hn] at this

theorem follows_more {W : Bytes → Bytes → Option Nat} {g h : Cfg} {i : Nat} (hf : Follows C P v calls W g) (hs : Acts i g h) : ∀ k, C k → More (P k) g.sh.mem h.sh.mem := by
  obtain ⟨_, g', _, hb⟩ := hf W fun _ _ _ _ => rfl
  exact acts_more hb hs

theorem follows_acts {W : Bytes → Bytes → Option Nat} {g h : Cfg} {i : Nat} (hf : Follows C P v calls W g) (hs : Acts i g h) : Follows C P v calls (note P W i g.sh.mem) h := by
  intro ch hch
  obtain ⟨h1, h2⟩ := agrees_back (follows_more hf hs) hch
  obtain ⟨h0, g', s, hb⟩ := hf ch h1
  obtain ⟨h', s', hb'⟩ := acts_nx hb hs h2
  refine ⟨h0, h', ?_, hb'⟩
  cases s' with
  | mk op todo u c ht => exact s.snoc (.act g' i op todo u c ht)

theorem follows_step {W : Bytes → Bytes → Option Nat} {g h : Cfg} (hf : Follows C P v calls W g) (hs : Step spec true g h) : ∃ W', Follows C P v calls W' h := by
  have same : ∀ {h : Cfg}, (∀ k f, Pres P k f g.sh.mem → Pres P k f h.sh.mem) → (∀ {ch : Bytes → Bytes → Option Nat} {g' : Cfg}, BothNX C P ch g g' → ∃ h', Step spec true g' h' ∧ BothNX C P ch h h') →
      ∃ W', Follows C P v calls W' h := by
    intro h hp hstep
    refine ⟨W, fun ch hch => ?_⟩
    obtain ⟨h0, g', s, hb⟩ := hf ch fun k f hk hw => hch k f hk (hp k f hw)
    obtain ⟨h', s', hb'⟩ := hstep hb
    exact ⟨h0, h', s.snoc s', hb'⟩
  cases hs with
  | tick s' ht =>
    refine same (fun k f hp => ?_) fun {ch g'} hb => ⟨_, .tick g' s' (by rw [hb.sh]; exact ht), rfl, hb.writer, hb.readers, hb.thr, ?_⟩
    · obtain ⟨n, _, rfl⟩ := ht
      exact hp
    · obtain ⟨n, _, rfl⟩ := ht
      exact hb.kept
  | startW i op rest ht hm hw hr =>
    refine same (fun _ _ h => h) fun {ch g'} hb => ?_
    have hi := hb.thr i
    rw [ht] at hi
    obtain ⟨e, t⟩ := idle_nx hi
    exact ⟨_, .startW g' i _ _ e (by rw [swapNX_mode]; exact hm) (hb.writer.trans hw) (hb.readers.trans hr), hb.sh, rfl, hb.readers, both_nx hb.thr t, hb.kept⟩
  | startR i op rest ht hm hw hr =>
    refine same (fun _ _ h => h) fun {ch g'} hb => ?_
    have hi := hb.thr i
    rw [ht] at hi
    obtain ⟨e, t⟩ := idle_nx hi
    exact ⟨_, .startR g' i _ _ e (by rw [swapNX_mode]; exact hm) (hb.writer.trans hw) (.inl rfl), hb.sh, hb.writer, congrArg (i :: ·) hb.readers,
      both_nx hb.thr t, hb.kept⟩
  | startN i op rest ht hm =>
    refine same (fun _ _ h => h) fun {ch g'} hb => ?_
    have hi := hb.thr i
    rw [ht] at hi
    obtain ⟨e, t⟩ := idle_nx hi
    exact ⟨_, .startN g' i _ _ e (by rw [swapNX_mode]; exact hm), hb.sh, hb.writer, hb.readers, both_nx hb.thr t, hb.kept⟩
  | act i op todo u c ht => exact ⟨_, follows_acts hf (.mk g op todo u c ht)⟩
  | fin i op todo o ht =>
    refine same (fun _ _ h => h) fun {ch g'} hb => ?_
    have hi := hb.thr i
    rw [ht] at hi
    obtain ⟨p', e, ht'⟩ := busy_nx hi
    cases ht' with
    | ret h1 =>
      refine ⟨_, .fin g' i _ _ _ e, hb.sh, ?_, ?_, both_nx hb.thr ⟨hi.1, rfl, .inl ⟨rfl, rfl⟩⟩, hb.kept⟩
      · show unlockW _ _ = unlockW _ _
        rw [swapNX_mode, hb.writer]
      · show unlockR _ _ _ = unlockR _ _ _
        rw [swapNX_mode, hb.readers]

theorem follows_steps {g h : Cfg} (hf : ∃ W, Follows C P v calls W g) (hs : Steps spec true g h) : ∃ W, Follows C P v calls W h := by
  induction hs with
  | refl => exact hf
  | snoc _ s ih =>
    obtain ⟨W, h⟩ := ih
    exact follows_step h s

/-- The program in which one goroutine at most makes a field, and `HSetNX` of it by the others is `HStrLen`, has the same race. -/
theorem race_nx (hv : Kept C P v) (hc : ∀ i, ∀ op ∈ calls i, Gentle op ∧ NoDel op) (h : HasRace (start v calls)) :
    ∃ ch : Bytes → Bytes → Option Nat, (∀ k f, C k → Pres P k f v → ch k f = none) ∧ HasRace (start v fun i => (calls i).map (swapNX (NotBy C ch i))) := by
  obtain ⟨g, g1, g2, i, j, a, b, hs, h1, h2, hij, ha, hb, hab⟩ := h
  have f0 : Follows C P v calls (fun _ _ => none) (start v calls) := by
    intro ch hch
    exact ⟨hch, _, .refl, rfl, rfl, rfl, fun i => ⟨fun op ho => mime_prog (fun _ _ h => h.1) (hc i op ho).1 (hc i op ho).2, rfl, .inl ⟨rfl, rfl⟩⟩, hv⟩
  obtain ⟨W, f⟩ := follows_steps ⟨_, f0⟩ hs
  have f1 := follows_acts f h1
  obtain ⟨a2, q2⟩ := agrees_back (follows_more f1 h2) (ch := note P (note P W i g.sh.mem) j g1.sh.mem) (W := note P W i g.sh.mem) (i := j) fun _ _ _ _ => rfl
  obtain ⟨a1, q1⟩ := agrees_back (follows_more f h1) a2
  obtain ⟨h0, g', s', b1⟩ := f _ a1
  obtain ⟨g1', s1, b2⟩ := acts_nx b1 h1 q1
  obtain ⟨g2', s2, b3⟩ := acts_nx b2 h2 q2
  exact ⟨_, h0, g', g1', g2', i, j, a, b, s', s1, s2, hij, by rw [b2.sh]; exact ha, by rw [b3.sh]; exact hb, hab⟩

end

/-- `HSetNX` of a field that is there at first. -/
def Idle (v : Mem) (op : Call) : Prop := ∃ k f x p, op = .hSetNX k f x ∧ v.data k = some (.ref p) ∧ (hfind (v.heap p).fields f).isSome = true

/-- C114, exactly, for any number of goroutines with any lists of HSet, HSetNX, HMSet, HExists, HLen, HGet, HMGet, HStrLen, HKeys, HVals, HGetAll, Get, MGet, StrLen, GetRange,
Type and Exists, on hashes that exist and have no deadline: they can race if and only if two of them use the size of one hash and one of the two changes it, by
calls that are not HSetNX of a field that is there at first, and not both HSetNX of the same field. -/
theorem C114_setnx_lists_exact {v : Mem} (hv : v.WF) (calls : Nat → List Call)
    (hc : ∀ i, ∀ op ∈ calls i, Gentle op ∧ (Steady op ∨ ∃ k f x, op = .hSetNX k f x))
    (hh : ∀ i, ∀ op ∈ calls i, ∀ k x, sizeUse op = some (k, x) → ∃ p, Holds k p v) :
    HasRace (start v calls) ↔ ∃ i j a b k x y, i ≠ j ∧ a ∈ calls i ∧ b ∈ calls j ∧ ¬ Idle v a ∧ ¬ Idle v b ∧ ¬ SameNX a b ∧
      sizeUse a = some (k, x) ∧ sizeUse b = some (k, y) ∧ (x = true ∨ y = true) := by
  have hdel : ∀ i, ∀ op ∈ calls i, Gentle op ∧ NoDel op := by
    intro i op ho
    refine ⟨(hc i op ho).1, ?_⟩
    rcases (hc i op ho).2 with h | ⟨k, f, x, rfl⟩
    · cases op with
      | hDel k fs =>
        cases fs with
        | nil => trivial
        | cons f fs => exact h
      | _ => trivial
    · trivial
  constructor
  · intro h
    let C : Bytes → Prop := fun k => ∃ p, Holds k p v
    let P : Bytes → Nat := fun k => match v.data k with | some (.ref p) => p | _ => 0
    have hP : ∀ {k p}, v.data k = some (.ref p) → P k = p := fun {k p} hp => by
      show (match v.data k with | some (.ref p) => p | _ => 0) = p; rw [hp]
    have hk : Kept C P v := by
      rintro k ⟨p, hp⟩
      rw [hP hp.1]
      exact ⟨hp, hv.alloc k p hp.1, fun k' hk => hv.inj _ _ _ hk hp.1, fun _ h => h.elim⟩
    obtain ⟨ch, h0, hr⟩ := race_nx hk hdel h
    refine Classical.byContradiction fun hn => C114_no_race_partial hv (fun i j hij a' ha' b' hb' hcl => ?_) hr
    obtain ⟨a, ha, rfl⟩ := List.mem_map.1 ha'
    obtain ⟨b, hb, rfl⟩ := List.mem_map.1 hb'
    clear ha' hb'
    have nofl : ∀ {i a S}, a ∈ calls i → swapNX S a ≠ .flush := by
      intro i a S ha e
      rcases swapNX_cases S a with ⟨h, _⟩ | ⟨k, f, x, _, h, _⟩
      · rw [h] at e; rw [e] at ha; exact (hdel i _ ha).1
      · rw [h] at e; cases e
    have back : ∀ {i a k x}, a ∈ calls i → sizeUse (swapNX (NotBy C ch i) a) = some (k, x) →
        sizeUse a = some (k, x) ∧ ¬ Idle v a ∧ ∀ k f x, a = .hSetNX k f x → ch k f = some i := by
      intro i a k x ha e
      rcases swapNX_cases (NotBy C ch i) a with ⟨h, hs⟩ | ⟨k, f, x, _, h, _⟩
      · rw [h] at e
        have hch : ∀ k f x, a = .hSetNX k f x → ch k f = some i := by
          rintro k' f x' rfl
          exact Classical.byContradiction fun hne => hs k' f x' rfl ⟨hh i _ ha k' true rfl, hne⟩
        refine ⟨e, ?_, hch⟩
        rintro ⟨k', f, z, p, rfl, hp, hf⟩
        have h1 := hch k' f z rfl
        rw [h0 k' f (hh i _ ha k' true rfl) (by rw [Pres, hP hp]; exact hf)] at h1
        cases h1
      · rw [h] at e; cases e
    rcases hcl with ⟨e, _, _⟩ | ⟨e, _, _⟩ | ⟨k, x, y, u1, u2, h3⟩
    · exact nofl ha e
    · exact nofl hb e
    · obtain ⟨h1, s1, c1⟩ := back ha u1
      obtain ⟨h2, s2, c2⟩ := back hb u2
      refine hn ⟨i, j, a, b, k, x, y, hij, ha, hb, s1, s2, ?_, h1, h2, h3⟩
      rintro ⟨k', f, z, z', rfl, rfl⟩
      have := (c1 k' f z rfl).symm.trans (c2 k' f z' rfl)
      exact hij (Option.some.inj this)
  · rintro ⟨i, j, a, b, k, x, y, hij, ha, hb, na, nb, nn, h1, h2, h3⟩
    obtain ⟨p, hp⟩ := hh i a ha k x h1
    have miss : ∀ Z : Bytes → Prop, (∀ z, Z z → hfind (v.heap p).fields z = none) → Miss k p Z v :=
      fun Z hZ => ⟨hp, hv.alloc k p hp.1, fun k' hk => hv.inj _ _ _ hk hp.1, hZ⟩
    -- a call that sets a missing field, and sets it first, comes to the size
    have comes : ∀ {i a f}, a ∈ calls i → Sets k f a → sizeUse a = some (k, true) ∧ (Bound (· = f) a) := by
      intro i a f ha hs
      refine ⟨?_, ?_⟩
      · cases a <;> first | exact hs.elim | skip
        case hMSet k' fv =>
          obtain ⟨rfl, y, hy, _⟩ := hs
          cases fv with
          | nil => cases hy
          | cons _ _ => rfl
        all_goals (obtain ⟨rfl, rfl⟩ := hs; rfl)
      · rcases (hc i a ha).2 with h | ⟨k', f', x', rfl⟩
        · exact .inl h
        · exact .inr ⟨k', f', x', rfl, hs.2⟩
    -- one call is steady, the other sets a missing field
    have one : ∀ {i j a b x f}, i ≠ j → a ∈ calls i → b ∈ calls j → Steady a → sizeUse a = some (k, x) → Sets k f b → hfind (v.heap p).fields f = none →
        HasRace (start v calls) := by
      intro i j a b x f hij ha hb hst hs hset hf
      obtain ⟨l, b', r, e, hs', hl⟩ := first_set ⟨b, hb, hset⟩
      obtain ⟨l', r', e'⟩ := List.append_of_mem ha
      obtain ⟨c1, c2⟩ := comes (i := j) (a := b') (by rw [e]; simp) hs'
      refine race_missing (Z := (· = f)) (Z' := fun _ => False) (p := p) (Ne.symm hij) e e' hdel ?_ (fun _ h => h.elim) (fun _ _ _ h => h.elim) c1 hs (.inl rfl) c2 (.inl hst) (miss _ ?_)
      · rintro o ho z (rfl | h)
        · exact hl o ho
        · exact h.elim
      · rintro z (rfl | h)
        · exact hf
        · exact h.elim
    -- each sets a missing field before the other's
    have two : ∀ {i j f g l a r l' b r'}, i ≠ j → calls i = l ++ a :: r → calls j = l' ++ b :: r' → Sets k f a → Sets k g b → (∀ o ∈ l, ¬ Sets k f o ∧ ¬ Sets k g o) →
        (∀ o ∈ l', ¬ Sets k g o) → ¬ Sets k g a → hfind (v.heap p).fields f = none → hfind (v.heap p).fields g = none → HasRace (start v calls) := by
      intro i j f g l a r l' b r' hij e e' sa sb hl hl' hga hf hg
      obtain ⟨c1, c2⟩ := comes (i := i) (a := a) (by rw [e]; simp) sa
      obtain ⟨c3, c4⟩ := comes (i := j) (a := b) (by rw [e']; simp) sb
      refine race_missing (Z := (· = f)) (Z' := (· = g)) (p := p) hij e e' hdel ?_ ?_ ?_ c1 c3 (.inl rfl) c2 c4 (miss _ ?_)
      · rintro o ho z (rfl | rfl)
        · exact (hl o ho).1
        · exact (hl o ho).2
      · rintro z rfl; exact hga
      · rintro o ho z rfl; exact hl' o ho
      · rintro z (rfl | rfl)
        · exact hf
        · exact hg
    have fresh : ∀ {f x}, ¬ Idle v (.hSetNX k f x) → hfind (v.heap p).fields f = none := by
      intro f x hn
      cases e : hfind (v.heap p).fields f with
      | none => rfl
      | some s => exact absurd ⟨k, f, x, p, rfl, hp.1, by rw [e]; rfl⟩ hn
    -- two calls that set missing fields, different ones
    have diff : ∀ {i j f g x x'}, i ≠ j → f ≠ g → .hSetNX k f x ∈ calls i → .hSetNX k g x' ∈ calls j → hfind (v.heap p).fields f = none →
        hfind (v.heap p).fields g = none → HasRace (start v calls) := by
      intro i j f g x x' hij hfg ha hb hf hg
      have sf : Sets k f (.hSetNX k f x) := ⟨rfl, rfl⟩
      have sg : Sets k g (.hSetNX k g x') := ⟨rfl, rfl⟩
      -- the first call of `i` that sets either, and the first of `j`
      obtain ⟨l, a, r, e, sa, hl⟩ := first_of (Q := fun o => Sets k f o ∨ Sets k g o) ⟨_, ha, .inl sf⟩
      obtain ⟨l', b, r', e', sb, hl'⟩ := first_of (Q := fun o => Sets k f o ∨ Sets k g o) ⟨_, hb, .inr sg⟩
      have ma : a ∈ calls i := by rw [e]; simp
      have mb : b ∈ calls j := by rw [e']; simp
      rcases (hc i a ma).2 with h | ⟨k1, f1, x1, rfl⟩
      · have hs : sizeUse a = some (k, true) := by
          rcases sa with h | h <;> exact (comes ma h).1
        exact one hij ma hb h hs sg hg
      · rcases (hc j b mb).2 with h | ⟨k2, f2, x2, rfl⟩
        · have hs : sizeUse b = some (k, true) := by
            rcases sb with h | h <;> exact (comes mb h).1
          exact one (Ne.symm hij) mb ha h hs sf hf
        · have L1 : ∀ {f' g' : Bytes}, (f' = f ∧ g' = g ∨ f' = g ∧ g' = f) → ∀ o ∈ l, ¬ Sets k f' o ∧ ¬ Sets k g' o := by
            rintro f' g' (⟨rfl, rfl⟩ | ⟨rfl, rfl⟩) o ho
            · exact ⟨fun h => hl o ho (.inl h), fun h => hl o ho (.inr h)⟩
            · exact ⟨fun h => hl o ho (.inr h), fun h => hl o ho (.inl h)⟩
          rcases sa with ⟨rfl, rfl⟩ | ⟨rfl, rfl⟩
          · -- `i` sets `f` first; then `j` its `g`
            obtain ⟨m, c, s, e2, sc, hm⟩ := first_set ⟨_, hb, sg⟩
            exact two hij e e2 ⟨rfl, rfl⟩ sc (L1 (.inl ⟨rfl, rfl⟩)) hm (fun h => hfg h.2) hf hg
          · rcases sb with ⟨rfl, rfl⟩ | sb'
            · -- `i` sets `g` first, `j` sets `f` first
              exact two hij e e' ⟨rfl, rfl⟩ ⟨rfl, rfl⟩ (L1 (.inr ⟨rfl, rfl⟩)) (fun o ho h => hl' o ho (.inl h)) (fun h => hfg h.2.symm) hg hf
            · -- both set `g` first: `j` does, then `i` its `f`
              obtain ⟨m, c, s, e2, sc, hm⟩ := first_set ⟨_, ha, sf⟩
              exact two (Ne.symm hij) e' e2 sb' sc (fun o ho => ⟨fun h => hl' o ho (.inr h), fun h => hl' o ho (.inl h)⟩) hm (fun h => hfg (h.2.symm.trans sb'.2)) hg hf
    rcases (hc i a ha).2 with sa | ⟨k1, f, x1, rfl⟩
    · rcases (hc j b hb).2 with sb | ⟨k2, g, x2, rfl⟩
      · obtain ⟨l, r, e⟩ := List.append_of_mem ha
        obtain ⟨l', r', e'⟩ := List.append_of_mem hb
        exact race_missing (Z := fun _ => False) (Z' := fun _ => False) (p := p) hij e e' hdel (fun _ _ _ h => (h.elim id id : False).elim) (fun _ h => h.elim) (fun _ _ _ h => h.elim) h1 h2 h3
          (.inl sa) (.inl sb) (miss _ fun _ h => (h.elim id id).elim)
      · simp only [sizeUse, Option.some.injEq, Prod.mk.injEq] at h2
        obtain ⟨rfl, rfl⟩ := h2
        exact one hij ha hb sa h1 ⟨rfl, rfl⟩ (fresh nb)
    · simp only [sizeUse, Option.some.injEq, Prod.mk.injEq] at h1
      obtain ⟨rfl, rfl⟩ := h1
      rcases (hc j b hb).2 with sb | ⟨k2, g, x2, rfl⟩
      · exact one (Ne.symm hij) hb ha sb h2 ⟨rfl, rfl⟩ (fresh na)
      · simp only [sizeUse, Option.some.injEq, Prod.mk.injEq] at h2
        obtain ⟨rfl, rfl⟩ := h2
        exact diff hij (fun e => nn ⟨_, f, x1, x2, rfl, by rw [e]⟩) ha hb (fresh na) (fresh nb)

/-- Two goroutines ask for a field to be set unless it is there, again and again, and a third for another that is there: no race … -/
example (k f h x y : Bytes) (s : Scalar) :
    ¬ HasRace (start (oneHash k [(h, s)]) fun i => if i = 0 then [.hSetNX k f x, .hGet k f, .hSetNX k f y] else if i = 1 then [.hSetNX k f y] else [.hSetNX k h x]) := by
  rw [C114_setnx_lists_exact (oneHash_wf (by simp))]
  · rintro ⟨i, j, a, b, k', u, w, hij, ha, hb, na, nb, nn, ua, ub, _⟩
    have key : ∀ {i a k' u}, a ∈ (if i = 0 then [Call.hSetNX k f x, .hGet k f, .hSetNX k f y] else if i = 1 then [.hSetNX k f y] else [.hSetNX k h x]) →
        ¬ Idle (oneHash k [(h, s)]) a → sizeUse a = some (k', u) → ∃ z, a = .hSetNX k f z := by
      intro i a k' u ha na ua
      split at ha
      · simp at ha; rcases ha with rfl | rfl | rfl
        · exact ⟨_, rfl⟩
        · cases ua
        · exact ⟨_, rfl⟩
      · split at ha
        · simp at ha; exact ⟨_, ha⟩
        · simp at ha; subst ha
          exact absurd ⟨k, h, x, 0, rfl, by simp [oneHash], by simp [oneHash, hfind]⟩ na
    obtain ⟨z, rfl⟩ := key ha na ua
    obtain ⟨z', rfl⟩ := key hb nb ub
    exact nn ⟨k, f, z, z', rfl, rfl⟩
  · intro i op ho
    split at ho
    · simp at ho; rcases ho with rfl | rfl | rfl
      · exact ⟨trivial, .inr ⟨_, _, _, rfl⟩⟩
      · exact ⟨trivial, .inl trivial⟩
      · exact ⟨trivial, .inr ⟨_, _, _, rfl⟩⟩
    · split at ho <;> (simp at ho; subst ho; exact ⟨trivial, .inr ⟨_, _, _, rfl⟩⟩)
  · intro i op ho k' u hs
    have hk : k' = k := by
      split at ho
      · simp at ho; rcases ho with rfl | rfl | rfl <;> simp [sizeUse] at hs <;> exact hs.1.symm
      · split at ho <;> (simp at ho; subst ho; simp [sizeUse] at hs; exact hs.1.symm)
    subst hk
    exact ⟨0, by simp [oneHash], rfl⟩

/-- … but if one of the two asks for the size after: a race. -/
example (k f x y : Bytes) :
    HasRace (start (oneHash k []) fun i => if i = 0 then [.hSetNX k f x] else if i = 1 then [.hSetNX k f y, .hLen k] else []) := by
  refine (C114_setnx_lists_exact (oneHash_wf (by simp)) _ ?_ ?_).2 ⟨0, 1, .hSetNX k f x, .hLen k, k, true, false, by decide, by simp, by simp, ?_, ?_, ?_, rfl, rfl, .inl rfl⟩
  · intro i op ho
    split at ho
    · simp at ho; subst ho; exact ⟨trivial, .inr ⟨_, _, _, rfl⟩⟩
    · split at ho
      · simp at ho; rcases ho with rfl | rfl
        · exact ⟨trivial, .inr ⟨_, _, _, rfl⟩⟩
        · exact ⟨trivial, .inl trivial⟩
      · cases ho
  · intro i op ho k' u hs
    have hk : k' = k := by
      split at ho
      · simp at ho; subst ho; simp [sizeUse] at hs; exact hs.1.symm
      · split at ho
        · simp at ho; rcases ho with rfl | rfl <;> simp [sizeUse] at hs <;> exact hs.1.symm
        · cases ho
    subst hk
    exact ⟨0, by simp [oneHash], rfl⟩
  · rintro ⟨k', g', x', p, e, _, h⟩
    simp only [oneHash] at h
    split at h <;> cases h
  · rintro ⟨k', g', x', p, e, h⟩
    cases e
  · rintro ⟨k', f', z, z', _, e⟩
    cases e

end Verif.Conc.Race

import Verif.Conc.PropsRaceLists
/-!
# C114 for lists of hash calls on hashes that exist
-/
namespace Verif.Conc.Race
open Verif
open Verif.Conc.Full (Cell Mem fmtCell)

/-- Under `k` there is the hash at address `p`, without deadline. -/
def Holds (k : Bytes) (p : Nat) (w : Mem) : Prop := w.data k = some (.ref p) ∧ w.exp k = none

/-- Under `k` there is a hash or nothing, without deadline. -/
def Soft (k : Bytes) (w : Mem) : Prop := (w.data k = none ∨ ∃ p, w.data k = some (.ref p)) ∧ w.exp k = none

/-- The program keeps `J` of what is under `k`, and its result satisfies `R`. -/
def Keep {α : Type} (k : Bytes) (J : Option Cell → Option Int → Prop) (R : α → Prop) : GP α → Prop
  | .ret a => R a
  | .act u c => ∀ g, J (g.mem.data k) (g.mem.exp k) → J ((u g).mem.data k) ((u g).mem.exp k) ∧ Keep k J R (c g)

/-- What the calls below keep: no deadline; … -/
def Mild (J : Option Cell → Option Int → Prop) : Prop := ∀ ⦃d e⦄, J d e → e = none

/-- … and a new hash only where there was nothing. -/
def New (J : Option Cell → Option Int → Prop) : Prop := ∀ ⦃d e⦄ q, J none none → J d e → J (some (.ref q)) e

theorem mild_holds (p : Nat) : Mild fun d e => d = some (.ref p) ∧ e = none := fun _ _ h => h.2
theorem new_holds (p : Nat) : New fun d e => d = some (.ref p) ∧ e = none := fun _ _ _ h => by simp at h
theorem mild_soft : Mild fun d e => (d = none ∨ ∃ p, d = some (.ref p)) ∧ e = none := fun _ _ h => h.2
theorem new_soft : New fun d e => (d = none ∨ ∃ p, d = some (.ref p)) ∧ e = none := fun _ _ q _ h => ⟨.inr ⟨q, rfl⟩, h.2⟩

theorem keep_bind {α β : Type} {k : Bytes} {J : Option Cell → Option Int → Prop} {R : α → Prop} {R' : β → Prop} {q : GP α} {f : α → GP β} (h : Keep k J R q)
    (hf : ∀ a, R a → Keep k J R' (f a)) : Keep k J R' (q >>= f) := by
  induction q with
  | ret a => exact hf a h
  | act u c ih => exact fun g hg => ⟨(h g hg).1, ih g (h g hg).2⟩

theorem keep_alone {k : Bytes} {J : Option Cell → Option Int → Prop} {R : Out → Prop} {q : GP Out} : ∀ {g : G}, Keep k J R q → J (g.mem.data k) (g.mem.exp k) → J ((alone q g).1.mem.data k) ((alone q g).1.mem.exp k) := by
  induction q with
  | ret a => exact fun _ h => h
  | act u c ih => exact fun h hg => ih _ (h _ hg).2 (h _ hg).1

section
variable {k : Bytes} {J : Option Cell → Option Int → Prop}

abbrev Triv {α : Type} : α → Prop := fun _ => True

theorem keep_pure {α : Type} (a : α) : Keep k J Triv (pure a : GP α) := trivial

theorem keep_entry {α : Type} (a : List Access) (q : Nat) (u : HashEntry → HashEntry) (r : HashEntry → α) : Keep k J Triv (entry a q u r) :=
  fun _ h => ⟨h, trivial⟩

theorem keep_any {α β : Type} {q : GP α} {f : α → GP β} (h : Keep k J Triv q) (hf : ∀ a, Keep k J Triv (f a)) : Keep k J Triv (q >>= f) :=
  keep_bind h fun a _ => hf a

theorem upd_other {α : Type} {f : Bytes → Option α} {k k' : Bytes} {x : Option α} (h : k' ≠ k) : upd f k' x k = f k := by
  simp [upd, Ne.symm h]

theorem keep_expiredP (hJ : Mild J) (k' : Bytes) : Keep k J (fun b => k' = k → b = false) (expiredP k') := by
  intro g h
  refine ⟨h, ?_⟩
  show Keep k J _ (match g.mem.exp k' with
    | none => (pure false : GP Bool)
    | some d => do
      let n ← clock
      if d < n then do delData k'; delExp k'; pure true else pure false)
  by_cases e : k' = k
  · subst e
    rw [hJ h]
    exact fun _ => rfl
  · cases g.mem.exp k' with
    | none => exact fun h => absurd h e
    | some d =>
      intro g1 h1
      refine ⟨h1, ?_⟩
      show Keep k J _ (if d < g1.mem.now then do delData k'; delExp k'; pure true else pure false : GP Bool)
      split
      · intro g2 h2
        refine ⟨?_, fun g3 h3 => ⟨?_, fun h => absurd h e⟩⟩
        · show J (upd g2.mem.data k' none k) _
          rw [upd_other e]; exact h2
        · show J _ (upd g3.mem.exp k' none k)
          rw [upd_other e]; exact h3
      · exact fun h => absurd h e

theorem keep_getP (hJ : Mild J) (k' : Bytes) : Keep k J (fun r => k' = k → J r none) (getP k') := by
  intro g h
  refine ⟨h, ?_⟩
  show Keep k J _ (match g.mem.data k' with
    | none => (pure none : GP (Option Cell))
    | some v => do if ← expiredP k' then pure none else pure (some v))
  have h' : k' = k → J (g.mem.data k') none := by
    rintro rfl
    rw [hJ h] at h
    exact h
  cases e : g.mem.data k' with
  | none => rw [e] at h'; exact h'
  | some v =>
    rw [e] at h'
    refine keep_bind (keep_expiredP hJ k') fun b hb => ?_
    cases b with
    | true => intro e'; cases hb e'
    | false => exact h'

theorem keep_fetchP (hJ : Mild J) {α : Type} {k' : Bytes} (hn : New J ∨ k' ≠ k) {body : Nat → GP (Res α)} (hb : ∀ q, Keep k J Triv (body q)) : Keep k J Triv (fetchP k' body) := by
  refine keep_bind (keep_getP hJ k') fun r hr => ?_
  rcases r with _ | (v | q | t)
  · intro g h
    refine ⟨?_, hb _⟩
    show J (upd g.mem.data k' _ k) _
    by_cases e : k' = k
    · subst e
      simp only [upd, if_true]
      exact (hn.resolve_right fun h => h rfl) _ (hr rfl) h
    · rw [upd_other e]; exact h
  · exact trivial
  · exact hb q
  · exact trivial

theorem keep_readP (hJ : Mild J) {α : Type} (k' : Bytes) {body : Option Nat → GP (Res α)} (hb : ∀ q, Keep k J Triv (body q)) : Keep k J Triv (readP k' body) := by
  refine keep_bind (keep_getP hJ k') fun r hr => ?_
  rcases r with _ | (v | q | t)
  · exact hb none
  · exact trivial
  · exact hb (some q)
  · exact trivial

/-- Step through a program that works on entries. -/
macro "keeps" : tactic =>
  `(tactic| repeat' first
    | assumption
    | exact keep_pure _
    | exact keep_entry _ _ _ _
    | refine keep_any ?_ (fun _ => ?_)
    | split)

theorem keep_lenAdd (q : Nat) (n : Int) : Keep k J Triv (lenAdd q n) := by unfold lenAdd; keeps
theorem keep_fLoad (q : Nat) (f : Bytes) : Keep k J Triv (fLoad q f) := keep_entry _ _ _ _
theorem keep_fStore (q : Nat) (f : Bytes) (v : Scalar) : Keep k J Triv (fStore q f v) := keep_entry _ _ _ _

theorem keep_setP (q : Nat) (f v : Bytes) : Keep k J Triv (setP q f v) := by
  have h := fun n => keep_lenAdd (k := k) (J := J) q n
  refine keep_any (keep_entry _ _ _ _) fun b => ?_
  cases b
  · exact keep_any (h 1) fun _ => keep_pure _
  · exact keep_any (keep_entry _ _ _ _) fun _ => keep_any (h 0) fun _ => keep_pure _

theorem keep_hMSetP (q : Nat) (fv : List (Bytes × Bytes)) : ∀ n, Keep k J Triv (hMSetP q fv n) := by
  induction fv with
  | nil => exact fun n => trivial
  | cons x fv ih => exact fun n => keep_any (keep_setP q x.1 x.2) fun m => ih (n + m)

theorem keep_hDelP (q : Nat) (fs : List Bytes) : ∀ n, Keep k J Triv (hDelP q fs n) := by
  induction fs with
  | nil =>
    intro n
    unfold hDelP
    split
    · trivial
    · exact keep_any (keep_lenAdd q _) fun _ => keep_pure _
  | cons f fs ih =>
    intro n
    refine keep_any (keep_entry _ _ _ _) fun v => ?_
    cases v with
    | none => exact ih n
    | some v => exact keep_any (keep_entry _ _ _ _) fun _ => ih (n + 1)

theorem keep_hMGetP (o : Option Nat) (fs : List Bytes) : Keep k J Triv (hMGetP o fs) := by
  induction fs with
  | nil => trivial
  | cons f fs ih =>
    cases o with
    | none => exact keep_any ih fun _ => keep_pure _
    | some q => exact keep_any (keep_entry _ _ _ _) fun _ => keep_any ih fun _ => keep_pure _

theorem keep_hKeysP (q : Nat) (fs : List Bytes) : Keep k J Triv (hKeysP q fs) := by
  induction fs with
  | nil => trivial
  | cons f fs ih => exact keep_any (keep_entry _ _ _ _) fun _ => keep_any ih fun _ => keep_pure _

theorem keep_hValsP (q : Nat) (fs : List Bytes) : Keep k J Triv (hValsP q fs) := by
  induction fs with
  | nil => trivial
  | cons f fs ih => exact keep_any (keep_entry _ _ _ _) fun _ => keep_any ih fun _ => keep_pure _

theorem keep_hGetAllP (q : Nat) (fs : List Bytes) : Keep k J Triv (hGetAllP q fs) := by
  induction fs with
  | nil => trivial
  | cons f fs ih =>
    refine keep_any (keep_entry _ _ _ _) fun v => ?_
    cases v with
    | none => exact ih
    | some v =>
      show Keep k J Triv (match fmtCell (.scalar v) with | .ok _ => hGetAllP q fs | _ => pure .panic)
      split
      · exact ih
      · trivial

theorem keep_mGetP (hJ : Mild J) (ks : List Bytes) : Keep k J Triv (mGetP ks) := by
  induction ks with
  | nil => trivial
  | cons k' ks ih => exact keep_bind (keep_getP hJ k') fun _ _ => keep_any ih fun _ => keep_pure _

theorem keep_existsP (ks : List Bytes) : ∀ n, Keep k J Triv (existsP ks n) := by
  induction ks with
  | nil => exact fun n => trivial
  | cons k' ks ih =>
    intro n g h
    refine ⟨h, ?_⟩
    show Keep k J Triv (match g.mem.data k' with | some _ => existsP ks (n + 1) | none => existsP ks n)
    split
    · exact ih _
    · exact ih _

end

/-- The hash calls, and MGet, Get, StrLen, GetRange, Type and Exists: calls that leave hashes that exist where they are. -/
def Gentle : Call → Prop
  | .hSet .. | .hSetNX .. | .hExists .. | .hDel .. | .hLen .. | .hStrLen .. | .hGet .. | .hIncrBy .. | .hIncrByFloat .. | .hMSet .. | .hMGet .. | .hKeys ..
  | .hVals .. | .hGetAll .. | .mGet .. | .get .. | .strLen .. | .getRange .. | .type .. | .exists_ .. => True
  | _ => False

/-- The key under which the call may put a new hash. -/
def made : Call → Option Bytes
  | .hSet k _ _ | .hSetNX k _ _ | .hIncrBy k _ _ | .hIncrByFloat k _ _ | .hMSet k _ => some k
  | _ => none

theorem keep_prog {k : Bytes} {J : Option Cell → Option Int → Prop} (hJ : Mild J) {op : Call} (h : Gentle op) (hn : New J ∨ made op ≠ some k) :
    Keep k J Triv (prog op) := by
  replace hn : ∀ k', made op = some k' → New J ∨ k' ≠ k := fun k' h => hn.imp_right fun hn e => hn (e ▸ h)
  have pure' : ∀ {α β : Type} {q : GP α} {f : α → β}, Keep k J Triv q → Keep k J Triv (q >>= fun a => pure (f a)) :=
    fun h => keep_any h fun _ => keep_pure _
  cases op <;> first | exact h.elim | skip
  case get k' =>
    refine keep_bind (keep_getP hJ k') fun r _ => ?_
    cases r <;> trivial
  case strLen k' =>
    refine keep_bind (keep_getP hJ k') fun r _ => ?_
    cases r <;> trivial
  case getRange k' a b =>
    refine keep_bind (keep_getP hJ k') fun r _ => ?_
    cases r <;> trivial
  case type k' =>
    refine keep_bind (keep_getP hJ k') fun r _ => ?_
    cases r <;> trivial
  case exists_ ks => exact pure' (keep_existsP ks 0)
  case mGet ks => exact pure' (keep_mGetP hJ ks)
  case hSet k' f v => exact pure' (keep_fetchP hJ (hn _ rfl) fun q => pure' (keep_setP q f v))
  case hSetNX k' f v =>
    refine pure' (keep_fetchP hJ (hn _ rfl) fun q => keep_any (keep_entry _ _ _ _) fun b => ?_)
    cases b
    · exact keep_any (keep_lenAdd q 1) fun _ => keep_pure _
    · trivial
  case hExists k' f =>
    refine pure' (keep_readP hJ k' fun q => ?_)
    cases q with
    | none => trivial
    | some q => exact keep_any (keep_entry _ _ _ _) fun v => keep_any (keep_lenAdd q _) fun _ => keep_pure _
  case hDel k' fs =>
    refine pure' (keep_readP hJ k' fun q => ?_)
    cases q with
    | none => trivial
    | some q => exact keep_hDelP q fs 0
  case hLen k' =>
    refine pure' (keep_readP hJ k' fun q => ?_)
    cases q with
    | none => trivial
    | some q => exact pure' (keep_entry _ _ _ _)
  case hStrLen k' f =>
    refine pure' (keep_readP hJ k' fun q => ?_)
    cases q with
    | none => trivial
    | some q =>
      refine keep_any (keep_entry _ _ _ _) fun v => ?_
      cases v <;> trivial
  case hGet k' f =>
    refine pure' (keep_readP hJ k' fun q => ?_)
    cases q with
    | none => trivial
    | some q =>
      refine keep_any (keep_entry _ _ _ _) fun v => ?_
      cases v <;> trivial
  case hIncrBy k' f n =>
    refine pure' (keep_fetchP hJ (hn _ rfl) fun q => keep_any (keep_entry _ _ _ _) fun v => ?_)
    cases v with
    | none => exact keep_any (keep_setP q f _) fun _ => keep_pure _
    | some v =>
      show Keep k J Triv (match Cache.hIncrScalar n v with
        | .ok m => do let _ ← setP q f (itoa n); pure (.ok m)
        | r => pure r)
      split
      · exact keep_any (keep_setP q f _) fun _ => keep_pure _
      · trivial
  case hIncrByFloat k' f n =>
    refine pure' (keep_fetchP hJ (hn _ rfl) fun q => keep_any (keep_entry _ _ _ _) fun v => ?_)
    cases v with
    | none => exact keep_any (keep_setP q f _) fun _ => keep_pure _
    | some v =>
      show Keep k J Triv (match Cache.hIncrFloatScalar n v with
        | .ok m => do let _ ← setP q f (formatFloat n); pure (.ok m)
        | r => pure r)
      split
      · exact keep_any (keep_setP q f _) fun _ => keep_pure _
      · trivial
  case hMSet k' fv => exact pure' (keep_fetchP hJ (hn _ rfl) fun q => keep_hMSetP q fv 0)
  case hMGet k' fs => exact pure' (keep_readP hJ k' fun q => pure' (keep_hMGetP q fs))
  case hKeys k' =>
    refine pure' (keep_readP hJ k' fun q => ?_)
    cases q with
    | none => trivial
    | some q => exact keep_any (keep_entry _ _ _ _) fun ns => pure' (keep_hKeysP q ns)
  case hVals k' =>
    refine pure' (keep_readP hJ k' fun q => ?_)
    cases q with
    | none => trivial
    | some q => exact keep_any (keep_entry _ _ _ _) fun ns => pure' (keep_hValsP q ns)
  case hGetAll k' =>
    refine pure' (keep_readP hJ k' fun q => ?_)
    cases q with
    | none => trivial
    | some q => exact keep_any (keep_entry _ _ _ _) fun ns => keep_hGetAllP q ns

/-- With the lock free a goroutine can make a gentle call alone, and `J` stays. -/
theorem gentle_alone {k : Bytes} {J : Option Cell → Option Int → Prop} (hJ : Mild J) (hN : New J) {g : Cfg} {i : Nat} {op : Call} {rest : List Call} (hop : Gentle op) (hf : Unheld g) (hh : J (g.sh.mem.data k) (g.sh.mem.exp k))
    (ht : g.thr i = ⟨op :: rest, none⟩) :
    ∃ g', Steps spec true g g' ∧ g'.thr i = ⟨rest, none⟩ ∧ (∀ j, j ≠ i → g'.thr j = g.thr j) ∧ Unheld g' ∧ J (g'.sh.mem.data k) (g'.sh.mem.exp k) := by
  have after : ∀ g1 : Cfg, Steps spec true g g1 → g1.sh = g.sh → g1.thr i = ⟨rest, some (op, prog op)⟩ → (∀ j, j ≠ i → g1.thr j = g.thr j) →
      (unlockW (spec.mode op) g1.writer = none ∧ unlockR (spec.mode op) i g1.readers = []) →
      ∃ g', Steps spec true g g' ∧ g'.thr i = ⟨rest, none⟩ ∧ (∀ j, j ≠ i → g'.thr j = g.thr j) ∧ Unheld g' ∧ J (g'.sh.mem.data k) (g'.sh.mem.exp k) := by
    intro g1 s1 e1 t1 o1 u1
    obtain ⟨g2, s2, h2, t2, o2, w2, r2, _⟩ := steps_alone (P := spec) _ g1 t1
    refine ⟨_, (s1.trans s2).snoc (.fin g2 i op rest _ t2), by simp, fun j hj => ?_, ?_, ?_⟩
    · simp [setThr_ne _ _ hj, o2 j hj, o1 j hj]
    · simp only [Unheld, w2, r2]; exact u1
    · show J (g2.sh.mem.data k) (g2.sh.mem.exp k)
      rw [h2, e1]
      exact keep_alone (keep_prog hJ hop (.inl hN)) hh
  cases hm : spec.mode op with
  | write =>
    refine after _ (Steps.refl.snoc (.startW g i op rest ht hm hf.1 hf.2)) rfl (by simp; rfl) (fun j hj => by simp [setThr_ne _ _ hj]) ?_
    simp [unlockW, unlockR, hm, hf.2]
  | read =>
    refine after _ (Steps.refl.snoc (.startR g i op rest ht hm hf.1 (.inl rfl))) rfl (by simp; rfl) (fun j hj => by simp [setThr_ne _ _ hj]) ?_
    simp [unlockW, unlockR, hm, hf.1, hf.2]
  | unlocked =>
    refine after _ (Steps.refl.snoc (.startN g i op rest ht hm)) rfl (by simp; rfl) (fun j hj => by simp [setThr_ne _ _ hj]) ?_
    simp [unlockW, unlockR, hm, hf.1, hf.2]
  | unsupported => exact absurd hm (mode_supported op)

theorem gentles_alone {k : Bytes} {J : Option Cell → Option Int → Prop} (hJ : Mild J) (hN : New J) {i : Nat} {rest : List Call} (l : List Call) : (∀ op ∈ l, Gentle op) → ∀ {g : Cfg}, Unheld g → J (g.sh.mem.data k) (g.sh.mem.exp k) →
    g.thr i = ⟨l ++ rest, none⟩ →
    ∃ g', Steps spec true g g' ∧ g'.thr i = ⟨rest, none⟩ ∧ (∀ j, j ≠ i → g'.thr j = g.thr j) ∧ Unheld g' ∧ J (g'.sh.mem.data k) (g'.sh.mem.exp k) := by
  induction l with
  | nil => exact fun _ _ hf hh ht => ⟨_, .refl, ht, fun _ _ => rfl, hf, hh⟩
  | cons op l ih =>
    intro hl g hf hh ht
    obtain ⟨g1, s1, t1, o1, f1, h1⟩ := gentle_alone hJ hN (hl op (by simp)) hf hh ht
    obtain ⟨g2, s2, t2, o2, f2, h2⟩ := ih (fun o ho => hl o (List.mem_cons_of_mem _ ho)) f1 h1 t1
    exact ⟨g2, s1.trans s2, t2, fun j hj => (o2 j hj).trans (o1 j hj), f2, h2⟩

/-- Calls that come to the size of the hash whatever its fields are (HSet, HMSet, HExists, HLen), and calls that do not use it. -/
def Steady : Call → Prop
  | .hSetNX .. | .hIncrBy .. | .hIncrByFloat .. | .hDel _ (_ :: _) => False
  | _ => True

theorem steady_ready {op : Call} (h : Steady op) (F : List (Bytes × Scalar)) : Ready (cls op) F := by
  cases op <;> first | exact h.elim | trivial | skip
  case hDel k fs =>
    cases fs with
    | nil => trivial
    | cons f fs => exact h.elim
  case hMSet k fv => cases fv <;> trivial

/-- Two calls that have come near to clashing steps take turns to them. -/
theorem take_turns {v : Mem} {calls : Nat → List Call} {g : Cfg} (hg : Steps spec true (start v calls) g) {m n : Nat} {c d : Call} {rc rd : List Call}
    {x y : Access} (hmn : m ≠ n) (tm : g.thr m = ⟨rc, some (c, prog c)⟩) (tn : g.thr n = ⟨rd, some (d, prog d)⟩) {p1 q1 : GP Out} {u1 u2 : G}
    (e1 : Go (prog c) g.sh p1 u1) (e2 : Go (prog d) u1 q1 u2) (w1 : Will p1 x) (w2 : Will q1 y) (hc : Conflict x y) : HasRace (start v calls) := by
  obtain ⟨a1, b1, c1, d1, x1⟩ := go_on tm e1
  obtain ⟨a2, b2, c2, d2, x2⟩ := go_on (g := a1) ((x1 n (Ne.symm hmn)).trans tn) (by rw [c1]; exact e2)
  obtain ⟨p2, u3, e3, t3⟩ := w1 a2.sh
  obtain ⟨a3, b3, c3, d3, x3⟩ := go_on (g := a2) ((x2 m hmn).trans d1) e3
  obtain ⟨q2, u4, e4, t4⟩ := w2 a3.sh
  obtain ⟨a4, b4, c4, d4, x4⟩ := go_on (g := a3) ((x3 n (Ne.symm hmn)).trans d2) e4
  exact race_at ((((hg.trans b1).trans b2).trans b3).trans b4) hmn ((x4 m hmn).trans d3) d4 t3 t4 hc

/-- Two goroutines about to make calls on the size of a hash that exists: whatever they have to call before, they can race. -/
theorem race_from {v : Mem} {calls : Nat → List Call} {g : Cfg} (hg : Steps spec true (start v calls) g) (hf : Unheld g) {i j : Nat} (hij : i ≠ j)
    {l r l' r' : List Call} {a b : Call} (ti : g.thr i = ⟨l ++ a :: r, none⟩) (tj : g.thr j = ⟨l' ++ b :: r', none⟩) (hl : ∀ o ∈ l, Gentle o)
    (hl' : ∀ o ∈ l', Gentle o) {k : Bytes} {x y : Bool} (sa : sizeUse a = some (k, x)) (sb : sizeUse b = some (k, y)) (hw : x = true ∨ y = true)
    (ra : Steady a) (rb : Steady b) {p : Nat} (hh : Holds k p g.sh.mem) : HasRace (start v calls) := by
  obtain ⟨g1, s1, t1, o1, f1, h1⟩ := gentles_alone (mild_holds p) (new_holds p) (g := g) (i := i) l hl (rest := a :: r) hf hh ti
  obtain ⟨g2, s2, t2, o2, f2, h2⟩ := gentles_alone (mild_holds p) (new_holds p) (g := g1) (i := j) l' hl' (rest := b :: r') f1 h1 (by rw [o1 j (Ne.symm hij)]; exact tj)
  have t2' : g2.thr i = ⟨a :: r, none⟩ := (o2 i hij).trans t1
  let g3 : Cfg := { g2 with thr := setThr g2.thr i ⟨r, some (a, prog a)⟩ }
  let g4 : Cfg := { g3 with thr := setThr g3.thr j ⟨r', some (b, prog b)⟩ }
  have s3 : Step spec true g2 g3 := .startN g2 i a r t2' (bare_mode (sizeUse_bare sa))
  have s4 : Step spec true g3 g4 := .startN g3 j b r' (by simp only [g3, setThr_ne _ _ (Ne.symm hij)]; exact t2) (bare_mode (sizeUse_bare sb))
  have ti : g4.thr i = ⟨r, some (a, prog a)⟩ := by simp [g4, g3, setThr_ne _ _ hij]
  have tj : g4.thr j = ⟨r', some (b, prog b)⟩ := by simp [g4]
  have hs : Steps spec true (start v calls) g4 := ((hg.trans (s1.trans s2)).snoc s3).snoc s4
  have h0 : Has k p (g4.sh.mem.heap p).fields g4.sh := ⟨h2.1, h2.2, rfl⟩
  obtain ⟨p1, u1, F1, e1, w1, k1, _⟩ := commit sa h0 (steady_ready ra _)
  obtain ⟨q1, u2, F2, e2, w2, k2, _⟩ := commit sb k1 (steady_ready rb _)
  exact take_turns hs hij ti tj e1 e2 w1 w2 ⟨rfl, hw⟩

/-- C114 is false of every state and every program of hash calls and calls that read (Get, MGet, StrLen, GetRange, Type, Exists) in which two goroutines, anywhere in
their lists, use the size of one hash that exists and has no deadline, one changing it, by HSet, HMSet, HExists or HLen. -/
theorem C114_hash_lists_violated (v : Mem) (calls : Nat → List Call) (hc : ∀ i, ∀ op ∈ calls i, Gentle op) {i j : Nat} (hij : i ≠ j) {a b : Call}
    (ha : a ∈ calls i) (hb : b ∈ calls j) {k : Bytes} {x y : Bool} (sa : sizeUse a = some (k, x)) (sb : sizeUse b = some (k, y)) (hw : x = true ∨ y = true)
    (ra : Steady a) (rb : Steady b) {p : Nat} (hh : Holds k p v) : HasRace (start v calls) := by
  obtain ⟨l, r, hl⟩ := List.append_of_mem ha
  obtain ⟨l', r', hl'⟩ := List.append_of_mem hb
  exact race_from .refl ⟨rfl, rfl⟩ hij (l := l) (l' := l') (by simp [start, initial, hl]; rfl) (by simp [start, initial, hl']; rfl)
    (fun o ho => hc i o (by rw [hl]; simp [ho])) (fun o ho => hc j o (by rw [hl']; simp [ho])) sa sb hw ra rb hh

/-- `HSet`, and `HMSet` of one pair or more. -/
def Puts (k : Bytes) (op : Call) : Prop := (∃ f x, op = .hSet k f x) ∨ ∃ a fv, op = .hMSet k (a :: fv)

theorem Puts.use {k : Bytes} {op : Call} (h : Puts k op) : sizeUse op = some (k, true) := by
  rcases h with ⟨f, x, rfl⟩ | ⟨a, fv, rfl⟩ <;> rfl

theorem Puts.steady {k : Bytes} {op : Call} (h : Puts k op) : Steady op := by
  rcases h with ⟨f, x, rfl⟩ | ⟨a, fv, rfl⟩ <;> trivial

/-- Where there is nothing such a call makes the hash, and then comes to its size. -/
theorem commit_new {op : Call} {k : Bytes} (h : Puts k op) {g : G} (hd : g.mem.data k = none) (he : g.mem.exp k = none) :
    ∃ p q g', Go (prog op) g p g' ∧ Will p ⟨.length q, true⟩ ∧ Has k q [] g' := by
  have new : ∀ {α : Type} (body : Nat → GP (Res α)), ∃ q g', Go (fetchP k body) g (body q) g' ∧ Has k q [] g' := by
    intro α body
    refine ⟨g.mem.next, ⟨{ g.mem with
      data := upd g.mem.data k (some (.ref g.mem.next))
      heap := fun q => if q = g.mem.next then HashEntry.empty else g.mem.heap q
      next := g.mem.next + 1 }, [⟨.dataDict, false⟩]⟩, ?_, ?_⟩
    · refine .act ?_
      simp only [hd]
      exact .act (.refl _ _)
    · exact ⟨by simp [upd], he, by simp [HashEntry.empty]⟩
  rcases h with ⟨f, x, rfl⟩ | ⟨a, fv, rfl⟩
  · obtain ⟨q, g', e, hh⟩ := new (fun p => do let n ← setP p f x; pure (.ok n))
    exact ⟨_, q, g', e.bind _, ((will_setP q f x).bind _).bind _, hh⟩
  · obtain ⟨q, g', e, hh⟩ := new (fun p => hMSetP p (a :: fv) 0)
    exact ⟨_, q, g', e.bind _, ((will_setP q a.1 a.2).bind _).bind _, hh⟩

theorem soft_cases {k : Bytes} {w : Mem} (h : Soft k w) : (w.data k = none ∧ w.exp k = none) ∨ ∃ p, Holds k p w := by
  rcases h with ⟨h | ⟨p, h⟩, e⟩
  · exact .inl ⟨h, e⟩
  · exact .inr ⟨p, h, e⟩

/-- C114 is false also where the hash does not exist yet, as in a new cache: one goroutine calls HSet or HMSet, another a call that uses the size. -/
theorem C114_create_lists_violated (v : Mem) (calls : Nat → List Call) (hc : ∀ i, ∀ op ∈ calls i, Gentle op) {i j : Nat} (hij : i ≠ j) {a b : Call}
    (ha : a ∈ calls i) (hb : b ∈ calls j) {k : Bytes} {y : Bool} (pa : Puts k a) (sb : sizeUse b = some (k, y)) (rb : Steady b) (hh : Soft k v) :
    HasRace (start v calls) := by
  obtain ⟨l, r, hl⟩ := List.append_of_mem ha
  obtain ⟨l', r', hl'⟩ := List.append_of_mem hb
  obtain ⟨g1, s1, t1, o1, f1, h1⟩ := gentles_alone mild_soft new_soft (g := start v calls) (i := i) l (fun o ho => hc i o (by rw [hl]; simp [ho])) (rest := a :: r)
    ⟨rfl, rfl⟩ hh (by simp [start, initial, hl])
  obtain ⟨g2, s2, t2, o2, f2, h2⟩ := gentles_alone mild_soft new_soft (g := g1) (i := j) l' (fun o ho => hc j o (by rw [hl']; simp [ho])) (rest := b :: r') f1 h1
    (by rw [o1 j (Ne.symm hij)]; simp [start, initial, hl'])
  have t2' : g2.thr i = ⟨a :: r, none⟩ := (o2 i hij).trans t1
  rcases soft_cases h2 with ⟨hd, he⟩ | ⟨p, hp⟩
  · let g3 : Cfg := { g2 with thr := setThr g2.thr i ⟨r, some (a, prog a)⟩ }
    let g4 : Cfg := { g3 with thr := setThr g3.thr j ⟨r', some (b, prog b)⟩ }
    have s3 : Step spec true g2 g3 := .startN g2 i a r t2' (bare_mode (sizeUse_bare pa.use))
    have s4 : Step spec true g3 g4 := .startN g3 j b r' (by simp only [g3, setThr_ne _ _ (Ne.symm hij)]; exact t2) (bare_mode (sizeUse_bare sb))
    have ti : g4.thr i = ⟨r, some (a, prog a)⟩ := by simp [g4, g3, setThr_ne _ _ hij]
    have tj : g4.thr j = ⟨r', some (b, prog b)⟩ := by simp [g4]
    obtain ⟨p1, q, u1, e1, w1, k1⟩ := commit_new pa (g := g4.sh) hd he
    obtain ⟨q1, u2, F2, e2, w2, k2, _⟩ := commit sb k1 (steady_ready rb _)
    exact take_turns (((s1.trans s2).snoc s3).snoc s4) hij ti tj e1 e2 w1 w2 ⟨rfl, .inl rfl⟩
  · exact race_from (s1.trans s2) f2 hij (l := []) (l' := []) t2' t2 (by simp) (by simp) pa.use sb (.inl rfl) pa.steady rb hp

/-- … or a third goroutine calls HSet or HMSet. -/
theorem C114_third_lists_violated (v : Mem) (calls : Nat → List Call) (hc : ∀ i, ∀ op ∈ calls i, Gentle op) {i j m : Nat} (hij : i ≠ j) {a b c : Call}
    (ha : a ∈ calls i) (hb : b ∈ calls j) (hm : c ∈ calls m) {k : Bytes} {x y : Bool} (sa : sizeUse a = some (k, x)) (sb : sizeUse b = some (k, y))
    (hw : x = true ∨ y = true) (pc : Puts k c) (ra : Steady a) (rb : Steady b) (hh : Soft k v) : HasRace (start v calls) := by
  by_cases hi : m = i
  · exact C114_create_lists_violated v calls hc hij (hi ▸ hm) hb pc sb rb hh
  by_cases hj : m = j
  · exact C114_create_lists_violated v calls hc (Ne.symm hij) (hj ▸ hm) ha pc sa ra hh
  obtain ⟨l0, r0, hl0⟩ := List.append_of_mem hm
  obtain ⟨l, r, hl⟩ := List.append_of_mem ha
  obtain ⟨l', r', hl'⟩ := List.append_of_mem hb
  obtain ⟨g1, s1, t1, o1, f1, h1⟩ := gentles_alone mild_soft new_soft (g := start v calls) (i := m) l0 (fun o ho => hc m o (by rw [hl0]; simp [ho])) (rest := c :: r0)
    ⟨rfl, rfl⟩ hh (by simp [start, initial, hl0])
  have ti : g1.thr i = ⟨l ++ a :: r, none⟩ := (o1 i (Ne.symm hi)).trans (by simp [start, initial, hl])
  have tj : g1.thr j = ⟨l' ++ b :: r', none⟩ := (o1 j (Ne.symm hj)).trans (by simp [start, initial, hl'])
  have gl : ∀ o ∈ l, Gentle o := fun o ho => hc i o (by rw [hl]; simp [ho])
  have gl' : ∀ o ∈ l', Gentle o := fun o ho => hc j o (by rw [hl']; simp [ho])
  rcases soft_cases h1 with ⟨hd, he⟩ | ⟨p, hp⟩
  · -- the third stops when it has made the hash
    let g2 : Cfg := { g1 with thr := setThr g1.thr m ⟨r0, some (c, prog c)⟩ }
    have s2 : Step spec true g1 g2 := .startN g1 m c r0 t1 (bare_mode (sizeUse_bare pc.use))
    obtain ⟨p1, q, u1, e1, w1, k1⟩ := commit_new pc (g := g2.sh) hd he
    let g3 : Cfg := { g2 with sh := u1, thr := setThr g2.thr m ⟨r0, some (c, p1)⟩ }
    have s3 : Steps spec true g2 g3 := steps_go (op := c) e1 g2 m r0 rfl (by simp [g2])
    exact race_from ((s1.snoc s2).trans s3) f1 hij (by simp only [g3, g2, setThr_ne _ _ (Ne.symm hi)]; exact ti)
      (by simp only [g3, g2, setThr_ne _ _ (Ne.symm hj)]; exact tj) gl gl' sa sb hw ra rb ⟨k1.1, k1.2.1⟩
  · exact race_from s1 f1 hij ti tj gl gl' sa sb hw ra rb hp

/-- C114, exactly, for any number of goroutines with any lists of HSet, HMSet, HExists, HLen, HGet, HMGet, HStrLen, HKeys, HVals, HGetAll, Get, MGet,
StrLen, GetRange, Type and Exists, on hashes that exist and have no deadline: they can race if and only if two of them use the size of one hash and one of the two changes it. -/
theorem C114_hash_lists_exact {v : Mem} (hv : v.WF) (calls : Nat → List Call) (hc : ∀ i, ∀ op ∈ calls i, Gentle op ∧ Steady op)
    (hh : ∀ i, ∀ op ∈ calls i, ∀ k x, sizeUse op = some (k, x) → ∃ p, Holds k p v) :
    HasRace (start v calls) ↔ ∃ i j a b k x y, i ≠ j ∧ a ∈ calls i ∧ b ∈ calls j ∧ sizeUse a = some (k, x) ∧ sizeUse b = some (k, y) ∧ (x = true ∨ y = true) := by
  constructor
  · intro h
    refine Classical.byContradiction fun hn => C114_no_race_partial hv (fun i j hij a ha b hb hcl => ?_) h
    rcases hcl with ⟨rfl, _, _⟩ | ⟨rfl, _, _⟩ | ⟨k, x, y, h1, h2, h3⟩
    · exact (hc i _ ha).1
    · exact (hc j _ hb).1
    · exact hn ⟨i, j, a, b, k, x, y, hij, ha, hb, h1, h2, h3⟩
  · rintro ⟨i, j, a, b, k, x, y, hij, ha, hb, h1, h2, h3⟩
    obtain ⟨p, hp⟩ := hh i a ha k x h1
    exact C114_hash_lists_violated v calls (fun i op ho => (hc i op ho).1) hij ha hb h1 h2 h3 (hc i a ha).2 (hc j b hb).2 hp

/-- One goroutine reads and asks whether a field exists, another reads and asks for the size. -/
example (k f : Bytes) : HasRace (start (oneHash k []) fun i => if i = 0 then [.hGet k f, .hExists k f] else if i = 1 then [.hGetAll k, .hLen k] else []) := by
  refine (C114_hash_lists_exact (oneHash_wf (by simp)) _ ?_ ?_).2 ⟨0, 1, .hExists k f, .hLen k, k, true, false, by decide, by simp, by simp, rfl, rfl, .inl rfl⟩
  · intro i op ho
    split at ho
    · simp at ho; rcases ho with rfl | rfl <;> exact ⟨trivial, trivial⟩
    · split at ho
      · simp at ho; rcases ho with rfl | rfl <;> exact ⟨trivial, trivial⟩
      · cases ho
  · intro i op ho k' x hs
    have hk : k' = k := by
      split at ho
      · simp at ho; rcases ho with rfl | rfl <;> simp [sizeUse] at hs
        exact hs.1.symm
      · split at ho
        · simp at ho; rcases ho with rfl | rfl <;> simp [sizeUse] at hs
          exact hs.1.symm
        · cases ho
    subst hk
    exact ⟨0, by simp [oneHash], rfl⟩

/-- In a new cache one goroutine sets a field, another asks for the size. -/
example (k f x : Bytes) : HasRace (start (Mem.empty 0) fun i => if i = 0 then [.hGet k f, .hSet k f x] else [.hLen k]) := by
  refine C114_create_lists_violated _ _ ?_ (i := 0) (j := 1) (by decide) (a := .hSet k f x) (b := .hLen k) (by simp) (by simp) (.inl ⟨f, x, rfl⟩) rfl trivial
    ⟨.inl rfl, rfl⟩
  intro i op ho
  split at ho
  · simp at ho; rcases ho with rfl | rfl <;> trivial
  · simp at ho; subst ho; trivial

end Verif.Conc.Race

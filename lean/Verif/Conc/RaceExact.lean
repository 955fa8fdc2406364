import Verif.Conc.RaceSound
/-!
# Which pairs of calls race
-/
namespace Verif.Conc.Race
open Verif
open Verif.Conc.Full (Cell Mem fmtCell cronCell Own Ext Held)

/-- Thread 0 makes the call `a`, thread 1 the call `b`. -/
def pair (a b : Call) : Nat → List Call := fun i => if i = 0 then [a] else if i = 1 then [b] else []

/-! ## Programs that run for a while without interference -/

/-- The program `p`, alone, comes from `g` to `p'` at `g'`. -/
inductive Go {α : Type} : GP α → G → GP α → G → Prop
  | refl (p : GP α) (g : G) : Go p g p g
  | act {u : G → G} {k : G → GP α} {g : G} {p' : GP α} {g' : G} : Go (k g) (u g) p' g' → Go (.act u k) g p' g'

theorem Go.trans {α : Type} {p q r : GP α} {g g1 g2 : G} (h : Go p g q g1) (h' : Go q g1 r g2) : Go p g r g2 := by
  induction h with
  | refl => exact h'
  | act _ ih => exact .act (ih h')

theorem Go.bind {α β : Type} {p q : GP α} {g g1 : G} (h : Go p g q g1) (f : α → GP β) : Go (p.bind f) g (q.bind f) g1 := by
  induction h with
  | refl => exact .refl _ _
  | act _ ih => exact .act ih

/-- The next step of the program touches `a`. -/
def At {α : Type} (p : GP α) (a : Access) : Prop := ∃ u k, p = .act u k ∧ ∀ g, a ∈ (u g).acc

theorem At.bind {α β : Type} {p : GP α} {a : Access} (h : At p a) (f : α → GP β) : At (p.bind f) a := by
  obtain ⟨u, k, rfl, h⟩ := h
  exact ⟨u, _, rfl, h⟩

/-- Whatever happened so far, the program alone comes to a step that touches `a`. -/
def Will {α : Type} (p : GP α) (a : Access) : Prop := ∀ g, ∃ p' g', Go p g p' g' ∧ At p' a

theorem Will.bind {α β : Type} {p : GP α} {a : Access} (h : Will p a) (f : α → GP β) : Will (p.bind f) a := by
  intro g
  obtain ⟨p', g', h1, h2⟩ := h g
  exact ⟨_, _, h1.bind f, h2.bind f⟩

theorem will_act {α : Type} {u : G → G} {k : G → GP α} {a : Access} (h : ∀ g, Will (k g) a) : Will (.act u k) a := by
  intro g
  obtain ⟨p', g', h1, h2⟩ := h g (u g)
  exact ⟨_, _, .act h1, h2⟩

theorem At.will {α : Type} {p : GP α} {a : Access} (h : At p a) : Will p a := fun g => ⟨p, g, .refl _ _, h⟩

/-- The goroutine that runs alone. -/
theorem steps_go {op : Call} {p q : GP Out} {s s' : G} (h : Go p s q s') : ∀ (g : Cfg) (i : Nat) (todo : List Call),
    g.sh = s → g.thr i = ⟨todo, some (op, p)⟩ →
    Steps spec true g { g with sh := s', thr := setThr g.thr i ⟨todo, some (op, q)⟩ } := by
  induction h with
  | refl p s =>
    rintro g i todo rfl ht
    rw [show setThr g.thr i ⟨todo, some (op, p)⟩ = g.thr from by
      funext j; by_cases e : j = i
      · subst e; simp [ht]
      · simp [setThr_ne _ _ e]]
    exact .refl
  | @act u k s p' s' _ ih =>
    rintro g i todo rfl ht
    have h1 : Step spec true g { g with sh := u g.sh, thr := setThr g.thr i ⟨todo, some (op, k g.sh)⟩ } := .act g i op todo u k ht
    have h2 := ih { g with sh := u g.sh, thr := setThr g.thr i ⟨todo, some (op, k g.sh)⟩ } i todo rfl (by simp)
    refine (Steps.snoc .refl h1).trans ?_
    have e : setThr (setThr g.thr i ⟨todo, some (op, k g.sh)⟩) i ⟨todo, some (op, p')⟩ = setThr g.thr i ⟨todo, some (op, p')⟩ := by
      funext j; by_cases e : j = i
      · subst e; simp
      · simp [setThr_ne _ _ e]
    simpa only [e] using h2

/-- Both calls have begun. -/
def begun (w : Option Nat) (a b : Call) (p q : GP Out) (s : G) : Cfg :=
  { sh := s, writer := w, readers := [], log := [],
    thr := fun i => if i = 0 then ⟨[], some (a, p)⟩ else if i = 1 then ⟨[], some (b, q)⟩ else ⟨[], none⟩ }

theorem bare_mode {b : Call} (h : bare b = true) : spec.mode b = .unlocked := by
  show Full.mode b = .unlocked
  simpa [bare] using h

theorem steps_begun {a b : Call} (hm : bare a = true ∧ bare b = true ∨ a = .flush ∧ bare b = true ∨ bare a = true ∧ b = .flush) (v : Mem) :
    ∃ w, Steps spec true (start v (pair a b)) (begun w a b (prog a) (prog b) ⟨v, []⟩) := by
  have thr1 : ∀ (t : Nat → Thread G Call Out), (∀ i, t i = if i = 0 then ⟨[], some (a, prog a)⟩ else ⟨pair a b i, none⟩) →
      setThr t 1 ⟨[], some (b, prog b)⟩ = (begun none a b (prog a) (prog b) ⟨v, []⟩).thr := by
    intro t ht
    funext j
    by_cases e1 : j = 1
    · subst e1; simp [begun]
    · rw [setThr_ne _ _ e1, ht]
      simp only [begun, e1, if_false]
      by_cases e : j = 0 <;> simp [e, pair, e1]
  have thr0 : ∀ i, setThr (start v (pair a b)).thr 0 ⟨[], some (a, prog a)⟩ i = if i = 0 then ⟨[], some (a, prog a)⟩ else ⟨pair a b i, none⟩ := by
    intro i
    by_cases e : i = 0
    · subst e; simp
    · rw [setThr_ne _ _ e]; simp [e, start, initial]
  have e := thr1 _ thr0
  have t1 : setThr (start v (pair a b)).thr 0 ⟨[], some (a, prog a)⟩ 1 = ⟨[b], none⟩ := by simp [thr0, pair]
  have shape : ∀ w, begun w a b (prog a) (prog b) ⟨v, []⟩ = ({ start v (pair a b) with
      writer := w, thr := setThr (setThr (start v (pair a b)).thr 0 ⟨[], some (a, prog a)⟩) 1 ⟨[], some (b, prog b)⟩ } : Cfg) := by
    intro w
    rw [e]
    rfl
  rcases hm with ⟨ha, hb⟩ | ⟨ha, hb⟩ | ⟨ha, hb⟩
  · refine ⟨none, ?_⟩
    rw [shape]
    exact .snoc (.snoc .refl (.startN _ 0 a [] rfl (bare_mode ha))) (.startN _ 1 b [] t1 (bare_mode hb))
  · refine ⟨some 0, ?_⟩
    rw [shape]
    exact .snoc (.snoc .refl (.startW _ 0 a [] rfl (by rw [ha]; rfl) rfl rfl)) (.startN _ 1 b [] t1 (bare_mode hb))
  · refine ⟨some 1, ?_⟩
    rw [shape]
    exact .snoc (.snoc .refl (.startN _ 0 a [] rfl (bare_mode ha))) (.startW _ 1 b [] t1 (by rw [hb]; rfl) rfl rfl)

theorem begun_left {w : Option Nat} {a b : Call} {p p' q : GP Out} {s s' : G} (h : Go p s p' s') :
    Steps spec true (begun w a b p q s) (begun w a b p' q s') := by
  have := steps_go (op := a) h (begun w a b p q s) 0 [] rfl rfl
  rwa [show ({ begun w a b p q s with sh := s', thr := setThr (begun w a b p q s).thr 0 ⟨[], some (a, p')⟩ } : Cfg) = begun w a b p' q s' from by
    simp only [begun]; congr 1; funext j; by_cases e : j = 0
    · subst e; simp
    · simp [setThr_ne _ _ e, e]] at this

theorem begun_right {w : Option Nat} {a b : Call} {p q q' : GP Out} {s s' : G} (h : Go q s q' s') :
    Steps spec true (begun w a b p q s) (begun w a b p q' s') := by
  have := steps_go (op := b) h (begun w a b p q s) 1 [] rfl rfl
  rwa [show ({ begun w a b p q s with sh := s', thr := setThr (begun w a b p q s).thr 1 ⟨[], some (b, q')⟩ } : Cfg) = begun w a b p q' s' from by
    simp only [begun]; congr 1; funext j; by_cases e : j = 1
    · subst e; simp
    · simp [setThr_ne _ _ e, e]] at this

/-- Two goroutines in front of conflicting accesses. -/
theorem race_begun {v : Mem} {a b : Call} {w : Option Nat} {p q : GP Out} {s : G} {x y : Access}
    (h : Steps spec true (start v (pair a b)) (begun w a b p q s)) (hp : At p x) (hq : At q y) (hc : Conflict x y) :
    HasRace (start v (pair a b)) := by
  obtain ⟨u, k, rfl, hu⟩ := hp
  obtain ⟨u', k', rfl, hu'⟩ := hq
  refine ⟨_, _, _, 0, 1, x, y, h, .mk _ a [] u k rfl, .mk _ b [] u' k' ?_, by decide, hu _, hu' _, hc⟩
  simp [setThr, begun]

/-! ## Flush -/

/-- A call without lock begins with a look at the map. -/
theorem bare_first {b : Call} (h : bare b = true) (hm : mapUse b = true) : At (prog b) ⟨.dataDict, false⟩ := by
  have hb := bare_mode h
  have ga : ∀ {α : Type} (k : Bytes) (f : Option Cell → GP α), At ((getP k).bind f) ⟨.dataDict, false⟩ :=
    fun k f => ⟨_, _, rfl, fun g => by simp⟩
  cases b
  case mSet kv => cases kv with | nil => cases hm | cons => exact ⟨_, _, rfl, fun g => by simp⟩
  case mSetNX kv => cases kv with | nil => cases hm | cons => exact ⟨_, _, rfl, fun g => by simp⟩
  case mGet kv => cases kv with | nil => cases hm | cons => exact ⟨_, _, rfl, fun g => by simp⟩
  case exists_ kv => cases kv with | nil => cases hm | cons => exact ⟨_, _, rfl, fun g => by simp⟩
  case list => cases hm
  all_goals first | (cases hb; done) | exact ⟨_, _, rfl, fun g => by simp⟩

theorem race_flush {a b : Call} (h : a = .flush ∧ bare b = true ∧ mapUse b = true ∨ b = .flush ∧ bare a = true ∧ mapUse a = true) (v : Mem) :
    HasRace (start v (pair a b)) := by
  have hf : At (prog .flush) ⟨.dataDict, true⟩ := ⟨_, _, rfl, fun g => by simp⟩
  rcases h with ⟨rfl, hb, hm⟩ | ⟨rfl, ha, hm⟩
  · obtain ⟨w, hs⟩ := steps_begun (a := .flush) (b := b) (.inr (.inl ⟨rfl, hb⟩)) v
    exact race_begun hs hf (bare_first hb hm) ⟨rfl, .inl rfl⟩
  · obtain ⟨w, hs⟩ := steps_begun (a := a) (b := .flush) (.inr (.inr ⟨ha, rfl⟩)) v
    exact race_begun hs (bare_first ha hm) hf ⟨rfl, .inr rfl⟩

/-! ## The size of a hash -/

/-- What a call needs to find in the hash, to come to the size: `nx f` the field missing, `incr f` the
field missing or a number, `del f` the field present; `put f` and `look` come there always, and `put f`
and `nx f` store the field on their way. -/
inductive Cls where
  | nx (f : Bytes)
  | incr (f : Bytes)
  | del (f : Bytes)
  | put (f : Bytes)
  | look

def cls : Call → Cls
  | .hSetNX _ f _ => .nx f
  | .hIncrBy _ f _ | .hIncrByFloat _ f _ => .incr f
  | .hDel _ (f :: _) => .del f
  | .hSet _ f _ | .hMSet _ ((f, _) :: _) => .put f
  | _ => .look

def Ready : Cls → List (Bytes × Scalar) → Prop
  | .nx f, F => hfind F f = none
  | .incr f, F => ∀ v, hfind F f = some v → ∃ n, v = .int64 n
  | .del f, F => (hfind F f).isSome = true
  | _, _ => True

def After : Cls → List (Bytes × Scalar) → List (Bytes × Scalar) → Prop
  | .nx f, F, F' | .put f, F, F' => (hfind F' f).isSome = true ∧ ∀ f', f' ≠ f → hfind F' f' = hfind F f'
  | _, F, F' => F' = F

/-- The memory has, under `k`, the hash at address `p` with the fields `F`, without deadline. -/
def Has (k : Bytes) (p : Nat) (F : List (Bytes × Scalar)) (g : G) : Prop :=
  g.mem.data k = some (.ref p) ∧ g.mem.exp k = none ∧ (g.mem.heap p).fields = F

theorem go_getP {k : Bytes} {p : Nat} {F : List (Bytes × Scalar)} {g : G} (h : Has k p F g) :
    ∃ g', Go (getP k) g (.ret (some (.ref p))) g' ∧ Has k p F g' := by
  refine ⟨⟨g.mem, [⟨.expiresDict, false⟩]⟩, ?_, h⟩
  refine .act ?_
  simp only [h.1, id]
  refine .act ?_
  simp only [h.2.1, id]
  exact .refl _ _

theorem go_fetchP {α : Type} {k : Bytes} {p : Nat} {F : List (Bytes × Scalar)} {g : G} (h : Has k p F g) (body : Nat → GP (Res α)) :
    ∃ g', Go (fetchP k body) g (body p) g' ∧ Has k p F g' := by
  obtain ⟨g', h1, h2⟩ := go_getP h
  exact ⟨g', h1.bind _, h2⟩

theorem go_readP {α : Type} {k : Bytes} {p : Nat} {F : List (Bytes × Scalar)} {g : G} (h : Has k p F g) (body : Option Nat → GP (Res α)) :
    ∃ g', Go (readP k body) g (body (some p)) g' ∧ Has k p F g' := by
  obtain ⟨g', h1, h2⟩ := go_getP h
  exact ⟨g', h1.bind _, h2⟩

theorem at_lenLoad {α : Type} (p : Nat) (f : Int → GP α) : At ((lenLoad p).bind f) ⟨.length p, false⟩ :=
  ⟨_, _, rfl, fun g => by simp⟩

theorem will_lenAdd (p : Nat) (n : Int) : Will (lenAdd p n) ⟨.length p, true⟩ :=
  will_act (fun g => At.will ⟨_, _, rfl, fun g => by simp⟩)

theorem will_setP_after (p : Nat) (f v : Bytes) (b : Bool) :
    Will (if b = true then (do fStore p f (tryInt64 v); lenAdd p 0; pure 0 : GP Int) else do lenAdd p 1; pure 1) ⟨.length p, true⟩ := by
  cases b
  · exact (will_lenAdd p 1).bind _
  · exact will_act (fun _ => (will_lenAdd p 0).bind _)

theorem will_setP (p : Nat) (f v : Bytes) : Will (setP p f v) ⟨.length p, true⟩ :=
  will_act (fun _ => will_setP_after p f v _)

theorem will_hDelP (p : Nat) (fs : List Bytes) (n : Int) (hn : 0 < n) : Will (hDelP p fs n) ⟨.length p, true⟩ := by
  induction fs generalizing n with
  | nil =>
    simp only [hDelP, show ¬ n = 0 by omega, if_false]
    exact (will_lenAdd p _).bind _
  | cons f fs ih =>
    refine will_act (fun g => ?_)
    show Will (match hfind (g.mem.heap p).fields f with
      | some _ => (fDelete p f).bind (fun _ => hDelP p fs (n + 1))
      | none => hDelP p fs n) _
    cases hfind (g.mem.heap p).fields f with
    | none => exact ih n hn
    | some v => exact will_act (fun _ => ih (n + 1) (by omega))

/-- The memory after the first step. -/
def first {α : Type} : GP α → G → G
  | .ret _, g => g
  | .act u _, g => u g

/-- The entry after `LoadOrStore`. -/
theorem has_loadOrStore {k : Bytes} {p : Nat} {F : List (Bytes × Scalar)} {g : G} (h : Has k p F g) (f : Bytes) (v : Scalar) :
    ∃ F', Has k p F' (first (fLoadOrStore p f v) g) ∧
      (hfind F' f).isSome = true ∧ ∀ f', f' ≠ f → hfind F' f' = hfind F f' := by
  refine ⟨_, ⟨h.1, h.2.1, rfl⟩, ?_⟩
  simp only [first, fLoadOrStore, entry, prim, if_true]
  split
  · rename_i hs
    exact ⟨hs, fun f' _ => by rw [h.2.2]⟩
  · refine ⟨by simp [hfind_hput], fun f' hf => ?_⟩
    rw [← h.2.2]
    simp [hfind_hput, hf]

theorem commit {op : Call} {k : Bytes} {w : Bool} (hs : sizeUse op = some (k, w)) {p : Nat} {F : List (Bytes × Scalar)} {g : G}
    (h : Has k p F g) (hr : Ready (cls op) F) :
    ∃ p' g' F', Go (prog op) g p' g' ∧ Will p' ⟨.length p, w⟩ ∧ Has k p F' g' ∧ After (cls op) F F' := by
  have set_go : ∀ (f v : Bytes) {g : G}, Has k p F g → ∃ q g' F', Go (setP p f v) g q g' ∧ Will q ⟨.length p, true⟩ ∧
      Has k p F' g' ∧ (hfind F' f).isSome = true ∧ ∀ f', f' ≠ f → hfind F' f' = hfind F f' := by
    intro f v g h
    obtain ⟨F', h1, h2⟩ := has_loadOrStore h f (tryInt64 v)
    exact ⟨_, _, F', .act (.refl _ _), will_setP_after p f v _, h1, h2⟩
  cases op <;> simp only [sizeUse, Option.some.injEq, Prod.mk.injEq, reduceCtorEq] at hs
  case hSet k' f v =>
    obtain ⟨rfl, rfl⟩ := hs
    obtain ⟨g1, e1, h1⟩ := go_fetchP h (fun p => do let n ← setP p f v; pure (.ok n))
    obtain ⟨q, g2, F', e2, w2, h2, a2⟩ := set_go f v h1
    exact ⟨_, g2, F', (e1.trans (e2.bind _)).bind _, (w2.bind _).bind _, h2, a2⟩
  case hSetNX k' f v =>
    obtain ⟨rfl, rfl⟩ := hs
    obtain ⟨g1, e1, h1⟩ := go_fetchP (α := Int) h (fun p => do
      if ← fLoadOrStore p f (.str v) then pure (.ok 0)
      else do lenAdd p 1; pure (.ok 1))
    obtain ⟨F', h2, a2⟩ := has_loadOrStore h1 f (.str v)
    have e2 : Go (do
      if ← fLoadOrStore p f (.str v) then pure (.ok 0)
      else do lenAdd p 1; pure (.ok 1) : GP (Res Int)) g1 (do lenAdd p 1; pure (.ok 1)) (first (fLoadOrStore p f (.str v)) g1) := by
      refine .act ?_
      have : ¬ (hfind (g1.mem.heap p).fields f).isSome = true := by rw [h1.2.2, hr]; simp
      show Go (if (hfind (g1.mem.heap p).fields f).isSome = true then (pure (.ok 0) : GP (Res Int)) else do lenAdd p 1; pure (.ok 1))
        (first (fLoadOrStore p f (.str v)) g1) _ _
      rw [if_neg this]
      exact .refl _ _
    exact ⟨_, _, F', (e1.trans e2).bind _, ((will_lenAdd p 1).bind _).bind _, h2, a2⟩
  case hMSet k' fv =>
    cases fv with
    | nil => simp [sizeUse] at hs
    | cons a fv =>
      obtain ⟨f, v⟩ := a
      simp only [sizeUse, Option.some.injEq, Prod.mk.injEq] at hs
      obtain ⟨rfl, rfl⟩ := hs
      obtain ⟨g1, e1, h1⟩ := go_fetchP h (fun p => hMSetP p ((f, v) :: fv) 0)
      obtain ⟨q, g2, F', e2, w2, h2, a2⟩ := set_go f v h1
      exact ⟨_, g2, F', (e1.trans (e2.bind _)).bind _, (w2.bind _).bind _, h2, a2⟩
  case hExists k' f =>
    obtain ⟨rfl, rfl⟩ := hs
    obtain ⟨g1, e1, h1⟩ := go_readP (α := Int) h (fun
      | none => pure (.ok 0)
      | some p => do
        let v ← fLoad p f
        let n : Int := if v.isSome then 1 else 0
        lenAdd p (-n)
        pure (.ok n))
    exact ⟨_, g1, F, e1.bind _, (will_act (fun _ => (will_lenAdd p _).bind _) : Will (_ : GP (Res Int)) _).bind _, h1, rfl⟩
  case hLen k' =>
    obtain ⟨rfl, rfl⟩ := hs
    obtain ⟨g1, e1, h1⟩ := go_readP (α := Int) h (fun
      | none => pure (.ok 0)
      | some p => do let n ← lenLoad p; pure (.ok n))
    exact ⟨_, g1, F, e1.bind _, ((at_lenLoad p _).will).bind _, h1, rfl⟩
  case hDel k' fs =>
    cases fs with
    | nil => simp [sizeUse] at hs
    | cons f fs =>
      simp only [sizeUse, Option.some.injEq, Prod.mk.injEq] at hs
      obtain ⟨rfl, rfl⟩ := hs
      obtain ⟨g1, e1, h1⟩ := go_readP (α := Int) h (fun
        | none => pure (.ok 0)
        | some p => hDelP p (f :: fs) 0)
      have e2 : Go (hDelP p (f :: fs) 0) g1 ((fDelete p f).bind (fun _ => hDelP p fs (0 + 1))) (first (fLoad p f) g1) := by
        refine .act ?_
        have hr : (hfind F f).isSome = true := hr
        obtain ⟨x, hx⟩ := Option.isSome_iff_exists.mp hr
        have : hfind (g1.mem.heap p).fields f = some x := by rw [h1.2.2, hx]
        simp only [this]
        exact .refl _ _
      exact ⟨_, _, F, (e1.trans e2).bind _, (will_act (fun _ => will_hDelP p fs 1 (by decide)) : Will (_ : GP (Res Int)) _).bind _,
        ⟨h1.1, h1.2.1, by simpa [first, fLoad, entry, prim] using h1.2.2⟩, rfl⟩
  case hIncrBy k' f n =>
    obtain ⟨rfl, rfl⟩ := hs
    obtain ⟨g1, e1, h1⟩ := go_fetchP (α := Int64) h (fun p => do
      match ← fLoad p f with
      | none => do let _ ← setP p f (itoa n); pure (.ok n)
      | some v =>
        match Cache.hIncrScalar n v with
        | .ok m => do let _ ← setP p f (itoa n); pure (.ok m)
        | r => pure r)
    have e2 : ∃ m : Int64, Go (do
      match ← fLoad p f with
      | none => do let _ ← setP p f (itoa n); pure (.ok n)
      | some v =>
        match Cache.hIncrScalar n v with
        | .ok m => do let _ ← setP p f (itoa n); pure (.ok m)
        | r => pure r : GP (Res Int64)) g1 ((setP p f (itoa n)).bind (fun _ => .ret (.ok m))) (first (fLoad p f) g1) := by
      have hr : ∀ v, hfind F f = some v → ∃ n, v = .int64 n := hr
      cases hx : hfind F f with
      | none =>
        refine ⟨n, .act ?_⟩
        have : hfind (g1.mem.heap p).fields f = none := by rw [h1.2.2, hx]
        simp only [this]
        exact .refl _ _
      | some v =>
        obtain ⟨m, rfl⟩ := hr v hx
        refine ⟨m + n, .act ?_⟩
        have : hfind (g1.mem.heap p).fields f = some (.int64 m) := by rw [h1.2.2, hx]
        simp only [this, Cache.hIncrScalar]
        exact .refl _ _
    obtain ⟨m, e2⟩ := e2
    exact ⟨_, _, F, (e1.trans e2).bind _, ((will_setP p f _).bind _).bind _,
        ⟨h1.1, h1.2.1, by simpa [first, fLoad, entry, prim] using h1.2.2⟩, rfl⟩
  case hIncrByFloat k' f n =>
    obtain ⟨rfl, rfl⟩ := hs
    obtain ⟨g1, e1, h1⟩ := go_fetchP (α := F64) h (fun p => do
      match ← fLoad p f with
      | none => do let _ ← setP p f (formatFloat n); pure (.ok n)
      | some v =>
        match Cache.hIncrFloatScalar n v with
        | .ok m => do let _ ← setP p f (formatFloat n); pure (.ok m)
        | r => pure r)
    have e2 : ∃ m : F64, Go (do
      match ← fLoad p f with
      | none => do let _ ← setP p f (formatFloat n); pure (.ok n)
      | some v =>
        match Cache.hIncrFloatScalar n v with
        | .ok m => do let _ ← setP p f (formatFloat n); pure (.ok m)
        | r => pure r : GP (Res F64)) g1 ((setP p f (formatFloat n)).bind (fun _ => .ret (.ok m))) (first (fLoad p f) g1) := by
      have hr : ∀ v, hfind F f = some v → ∃ n, v = .int64 n := hr
      cases hx : hfind F f with
      | none =>
        refine ⟨n, .act ?_⟩
        have : hfind (g1.mem.heap p).fields f = none := by rw [h1.2.2, hx]
        simp only [this]
        exact .refl _ _
      | some v =>
        obtain ⟨m, rfl⟩ := hr v hx
        refine ⟨(F64.ofInt m.toInt).add n, .act ?_⟩
        have : hfind (g1.mem.heap p).fields f = some (.int64 m) := by rw [h1.2.2, hx]
        simp only [this, Cache.hIncrFloatScalar]
        exact .refl _ _
    obtain ⟨m, e2⟩ := e2
    exact ⟨_, _, F, (e1.trans e2).bind _, ((will_setP p f _).bind _).bind _,
        ⟨h1.1, h1.2.1, by simpa [first, fLoad, entry, prim] using h1.2.2⟩, rfl⟩

/-- Two `HSetNX` of the same field of the same hash: only one of them gets to the size. -/
def SameNX (a b : Call) : Prop := ∃ k f v v', a = .hSetNX k f v ∧ b = .hSetNX k f v'

/-- A hash in which one call, and then the other, finds what it needs. -/
theorem room {x y : Cls} (hn : ∀ f, ¬ (x = .nx f ∧ y = .nx f)) : ∃ F : List (Bytes × Scalar), (F.map (·.1)).Nodup ∧
    ((Ready x F ∧ ∀ F', After x F F' → Ready y F') ∨ (Ready y F ∧ ∀ F', After y F F' → Ready x F')) := by
  have emp : ∀ c : Cls, (∀ f, c ≠ .del f) → Ready c [] := by
    intro c h
    cases c with
    | del f => exact absurd rfl (h f)
    | _ => simp [Ready, hfind]
  -- one of the two comes to the size always
  have easy : ∀ x y : Cls, (∀ F, Ready y F) → ∃ F : List (Bytes × Scalar), (F.map (·.1)).Nodup ∧ Ready x F ∧ ∀ F', After x F F' → Ready y F' := by
    intro x y hy
    cases x with
    | del f => exact ⟨[(f, .int64 0)], by simp, by simp [Ready, hfind], fun F' _ => hy F'⟩
    | _ => exact ⟨[], by simp, emp _ (by simp), fun F' _ => hy F'⟩
  have nxdel : ∀ f f' : Bytes, ∃ F : List (Bytes × Scalar), (F.map (·.1)).Nodup ∧ Ready (.nx f) F ∧ ∀ F', After (.nx f) F F' → Ready (.del f') F' := by
    intro f f'
    by_cases e : f' = f
    · subst e
      exact ⟨[], by simp, by simp [Ready, hfind], fun F' h => h.1⟩
    · refine ⟨[(f', .int64 0)], by simp, by simp [Ready, hfind, e], fun F' h => ?_⟩
      show (hfind F' f').isSome = true
      rw [h.2 f' e]
      simp [hfind]
  have incrdel : ∀ f f' : Bytes, ∃ F : List (Bytes × Scalar), (F.map (·.1)).Nodup ∧ Ready (.incr f) F ∧ ∀ F', After (.incr f) F F' → Ready (.del f') F' := by
    intro f f'
    refine ⟨[(f', .int64 0)], by simp, ?_, ?_⟩
    · intro v h
      simp only [hfind] at h
      split at h
      · cases h; exact ⟨_, rfl⟩
      · cases h
    · rintro F' rfl
      simp [Ready, hfind]
  cases y with
  | put f' => obtain ⟨F, h1, h2⟩ := easy x (.put f') (fun _ => trivial); exact ⟨F, h1, .inl h2⟩
  | look => obtain ⟨F, h1, h2⟩ := easy x .look (fun _ => trivial); exact ⟨F, h1, .inl h2⟩
  | nx f' =>
    cases x with
    | put f => obtain ⟨F, h1, h2⟩ := easy (.nx f') (.put f) (fun _ => trivial); exact ⟨F, h1, .inr h2⟩
    | look => obtain ⟨F, h1, h2⟩ := easy (.nx f') .look (fun _ => trivial); exact ⟨F, h1, .inr h2⟩
    | nx f =>
      refine ⟨[], by simp, .inl ⟨rfl, fun F' h => ?_⟩⟩
      show hfind F' f' = none
      rw [h.2 f' (fun e => hn f ⟨rfl, by rw [e]⟩)]
      rfl
    | incr f => exact ⟨[], by simp, .inl ⟨emp _ (by simp), fun F' h => by cases h; rfl⟩⟩
    | del f => obtain ⟨F, h1, h2⟩ := nxdel f' f; exact ⟨F, h1, .inr h2⟩
  | incr f' =>
    cases x with
    | put f => obtain ⟨F, h1, h2⟩ := easy (.incr f') (.put f) (fun _ => trivial); exact ⟨F, h1, .inr h2⟩
    | look => obtain ⟨F, h1, h2⟩ := easy (.incr f') .look (fun _ => trivial); exact ⟨F, h1, .inr h2⟩
    | nx f => exact ⟨[], by simp, .inr ⟨emp _ (by simp), fun F' h => by cases h; rfl⟩⟩
    | incr f => exact ⟨[], by simp, .inr ⟨emp _ (by simp), fun F' h => by cases h; exact emp _ (by simp)⟩⟩
    | del f => obtain ⟨F, h1, h2⟩ := incrdel f' f; exact ⟨F, h1, .inr h2⟩
  | del f' =>
    cases x with
    | put f => obtain ⟨F, h1, h2⟩ := easy (.del f') (.put f) (fun _ => trivial); exact ⟨F, h1, .inr h2⟩
    | look => obtain ⟨F, h1, h2⟩ := easy (.del f') .look (fun _ => trivial); exact ⟨F, h1, .inr h2⟩
    | nx f => obtain ⟨F, h1, h2⟩ := nxdel f f'; exact ⟨F, h1, .inl h2⟩
    | incr f => obtain ⟨F, h1, h2⟩ := incrdel f f'; exact ⟨F, h1, .inl h2⟩
    | del f =>
      by_cases e : f' = f
      · subst e
        exact ⟨[(f', .int64 0)], by simp, .inl ⟨by simp [Ready, hfind], fun F' h => by cases h; simp [Ready, hfind]⟩⟩
      · refine ⟨[(f, .int64 0), (f', .int64 0)], by simp [Ne.symm e], .inl ⟨by simp [Ready, hfind], fun F' h => ?_⟩⟩
        cases h
        simp [Ready, hfind, Ne.symm e]

/-- A cache with the hash `k` of the fields `F`, and nothing else. -/
def oneHash (k : Bytes) (F : List (Bytes × Scalar)) : Mem :=
  { data := fun k' => if k' = k then some (.ref 0) else none, exp := fun _ => none,
    heap := fun q => if q = 0 then ⟨F, F.length⟩ else HashEntry.empty, next := 1, now := 0 }

theorem oneHash_wf {k : Bytes} {F : List (Bytes × Scalar)} (h : (F.map (·.1)).Nodup) : (oneHash k F).WF := by
  refine ⟨?_, ?_, ?_⟩
  · intro k' p hp
    simp only [oneHash] at hp ⊢
    split at hp <;> simp at hp
    omega
  · intro k' k'' p h1 h2
    simp only [oneHash] at h1 h2
    split at h1
    · split at h2
      · rename_i a b; rw [a, b]
      · cases h2
    · cases h1
  · intro p
    simp only [oneHash]
    split
    · exact h
    · simp [Full.Distinct, HashEntry.empty]

theorem sizeUse_bare {op : Call} {k : Bytes} {w : Bool} (h : sizeUse op = some (k, w)) : bare op = true := by
  cases op <;> first | rfl | simp [sizeUse] at h

theorem cls_nx {op : Call} {f : Bytes} (h : cls op = .nx f) : ∃ k v, op = .hSetNX k f v := by
  cases op <;> simp only [cls, reduceCtorEq, Cls.nx.injEq] at h
  case hSetNX k f' v => exact ⟨k, v, by rw [h]⟩
  case hDel k fs => cases fs <;> simp [cls] at h
  case hMSet k fv => cases fv <;> simp [cls] at h

theorem race_size {a b : Call} {k : Bytes} {x y : Bool} (ha : sizeUse a = some (k, x)) (hb : sizeUse b = some (k, y))
    (hw : x = true ∨ y = true) (hn : ¬ SameNX a b) : ∃ v : Mem, v.WF ∧ HasRace (start v (pair a b)) := by
  obtain ⟨F, hF, h⟩ := room (x := cls a) (y := cls b) (by
    rintro f ⟨h1, h2⟩
    obtain ⟨k1, v1, rfl⟩ := cls_nx h1
    obtain ⟨k2, v2, rfl⟩ := cls_nx h2
    simp only [sizeUse, Option.some.injEq, Prod.mk.injEq] at ha hb
    obtain ⟨rfl, _⟩ := ha
    obtain ⟨rfl, _⟩ := hb
    exact hn ⟨_, f, v1, v2, rfl, rfl⟩)
  refine ⟨oneHash k F, oneHash_wf hF, ?_⟩
  obtain ⟨w, hs⟩ := steps_begun (a := a) (b := b) (.inl ⟨sizeUse_bare ha, sizeUse_bare hb⟩) (oneHash k F)
  have h0 : Has k 0 F ⟨oneHash k F, []⟩ := ⟨by simp [oneHash], rfl, by simp [oneHash]⟩
  rcases h with ⟨r1, r2⟩ | ⟨r1, r2⟩
  · obtain ⟨p1, g1, F1, e1, w1, h1, a1⟩ := commit ha h0 r1
    obtain ⟨q1, g2, F2, e2, w2, h2, _⟩ := commit hb h1 (r2 F1 a1)
    obtain ⟨p2, g3, e3, t3⟩ := w1 g2
    obtain ⟨q2, g4, e4, t4⟩ := w2 g3
    exact race_begun ((((hs.trans (begun_left e1)).trans (begun_right e2)).trans (begun_left e3)).trans (begun_right e4)) t3 t4 ⟨rfl, hw⟩
  · obtain ⟨p1, g1, F1, e1, w1, h1, a1⟩ := commit hb h0 r1
    obtain ⟨q1, g2, F2, e2, w2, h2, _⟩ := commit ha h1 (r2 F1 a1)
    obtain ⟨p2, g3, e3, t3⟩ := w1 g2
    obtain ⟨q2, g4, e4, t4⟩ := w2 g3
    exact race_begun ((((hs.trans (begun_right e1)).trans (begun_left e2)).trans (begun_right e3)).trans (begun_left e4)) t4 t3 ⟨rfl, hw⟩

/-- Every two calls that clash race, but for two `HSetNX` of one field. -/
theorem race_of_clash {a b : Call} (h : Clash a b) (hn : ¬ SameNX a b) : ∃ v : Mem, v.WF ∧ HasRace (start v (pair a b)) := by
  rcases h with h | h | ⟨k, x, y, ha, hb, hw⟩
  · exact ⟨Mem.empty 0, Full.Mem.empty_wf 0, race_flush (.inl h) _⟩
  · exact ⟨Mem.empty 0, Full.Mem.empty_wf 0, race_flush (.inr h) _⟩
  · exact race_size ha hb hw hn

end Verif.Conc.Race

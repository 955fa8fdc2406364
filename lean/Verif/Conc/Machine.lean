import Verif.Base
/-!
# Goroutines, sync.RWMutex and atomic steps

A call is a program of atomic steps on the shared state: each `sync.Map` method and each clock
read is one step (Go guarantees that the `sync.Map` methods are atomic).  Threads are indexed by
`Nat`, so there are arbitrarily many goroutines; the scheduler may pick any enabled step.

The mutex: a writer excludes everybody, readers exclude writers (sync.RWMutex).  Go's rule that
a waiting writer blocks new readers only removes schedules.
-/
namespace Verif.Conc

/-- A program of atomic steps on shared state `S` that returns an `α`. -/
inductive Prog (S α : Type) where
  | ret (a : α)
  | act (u : S → S) (k : S → Prog S α)

namespace Prog
variable {S α β : Type}

def bind : Prog S α → (α → Prog S β) → Prog S β
  | .ret a, f => f a
  | .act u k, f => .act u (fun s => (k s).bind f)

instance : Monad (Prog S) where
  pure := .ret
  bind := bind

@[simp] theorem pure_eq (a : α) : (pure a : Prog S α) = .ret a := rfl
@[simp] theorem ret_bind (a : α) (f : α → Prog S β) : (Prog.ret a : Prog S α) >>= f = f a := rfl
@[simp] theorem act_bind (u : S → S) (k : S → Prog S α) (f : α → Prog S β) :
    (Prog.act u k) >>= f = .act u (fun s => k s >>= f) := rfl

theorem assoc {γ : Type} (p : Prog S α) (f : α → Prog S β) (g : β → Prog S γ) :
    (p >>= f) >>= g = p >>= fun a => f a >>= g := by
  induction p with
  | ret a => rfl
  | act u k ih => simp only [act_bind]; congr 1; funext s; exact ih s

/-- One atomic step with a result. -/
def atomic (f : S → S × α) : Prog S α := .act (fun s => (f s).1) (fun s => .ret (f s).2)

@[simp] theorem atomic_bind (f : S → S × α) (g : α → Prog S β) :
    atomic f >>= g = .act (fun s => (f s).1) (fun s => g (f s).2) := rfl

end Prog

/-- How a call uses the cache's RWMutex. `unsupported` calls are never started. -/
inductive Mode where
  | write | read | unlocked | unsupported
deriving DecidableEq

variable {S Op Out : Type}

/-- A goroutine: the calls it still has to make and the one in progress. -/
structure Thread (S Op Out : Type) where
  todo : List Op
  cur : Option (Op × Prog S Out)

/-- `log` records every call that returned, in the order of the returns. -/
structure Config (S Op Out : Type) where
  sh : S
  writer : Option Nat
  readers : List Nat
  thr : Nat → Thread S Op Out
  log : List (Nat × Op × Out)

/-- What the machine is parameterised with. -/
structure Spec (S Op Out : Type) where
  prog : Op → Prog S Out
  mode : Op → Mode
  /-- environment steps: the clock moves on -/
  tick : S → S → Prop

/-- Function update on threads. -/
def setThr (f : Nat → Thread S Op Out) (i : Nat) (t : Thread S Op Out) : Nat → Thread S Op Out :=
  fun j => if j = i then t else f j

@[simp] theorem setThr_same (f : Nat → Thread S Op Out) (i : Nat) (t : Thread S Op Out) :
    setThr f i t i = t := by simp [setThr]

theorem setThr_ne (f : Nat → Thread S Op Out) {i j : Nat} (t : Thread S Op Out) (h : j ≠ i) :
    setThr f i t j = f j := by simp [setThr, h]

/-- Mutex state after `i` returns from a call of mode `m`. -/
def unlockW (m : Mode) (w : Option Nat) : Option Nat := if m = .write then none else w
def unlockR (m : Mode) (i : Nat) (r : List Nat) : List Nat := if m = .read then r.erase i else r

/-- Scheduler steps.  `ov = false` restricts to schedules where no two readers overlap. -/
inductive Step (P : Spec S Op Out) (ov : Bool) : Config S Op Out → Config S Op Out → Prop
  | tick (g : Config S Op Out) (s' : S) (h : P.tick g.sh s') : Step P ov g { g with sh := s' }
  | startW (g : Config S Op Out) (i : Nat) (op : Op) (rest : List Op)
      (ht : g.thr i = ⟨op :: rest, none⟩) (hm : P.mode op = .write)
      (hw : g.writer = none) (hr : g.readers = []) :
      Step P ov g { g with writer := some i, thr := setThr g.thr i ⟨rest, some (op, P.prog op)⟩ }
  | startR (g : Config S Op Out) (i : Nat) (op : Op) (rest : List Op)
      (ht : g.thr i = ⟨op :: rest, none⟩) (hm : P.mode op = .read)
      (hw : g.writer = none) (hr : ov = true ∨ g.readers = []) :
      Step P ov g { g with readers := i :: g.readers, thr := setThr g.thr i ⟨rest, some (op, P.prog op)⟩ }
  | startN (g : Config S Op Out) (i : Nat) (op : Op) (rest : List Op)
      (ht : g.thr i = ⟨op :: rest, none⟩) (hm : P.mode op = .unlocked) :
      Step P ov g { g with thr := setThr g.thr i ⟨rest, some (op, P.prog op)⟩ }
  | act (g : Config S Op Out) (i : Nat) (op : Op) (todo : List Op) (u : S → S) (k : S → Prog S Out)
      (ht : g.thr i = ⟨todo, some (op, .act u k)⟩) :
      Step P ov g { g with sh := u g.sh, thr := setThr g.thr i ⟨todo, some (op, k g.sh)⟩ }
  | fin (g : Config S Op Out) (i : Nat) (op : Op) (todo : List Op) (o : Out)
      (ht : g.thr i = ⟨todo, some (op, .ret o)⟩) :
      Step P ov g { g with
        writer := unlockW (P.mode op) g.writer
        readers := unlockR (P.mode op) i g.readers
        thr := setThr g.thr i ⟨todo, none⟩
        log := g.log ++ [(i, op, o)] }

/-- Any number of steps. -/
inductive Steps (P : Spec S Op Out) (ov : Bool) (g : Config S Op Out) : Config S Op Out → Prop
  | refl : Steps P ov g g
  | snoc {g1 g2} : Steps P ov g g1 → Step P ov g1 g2 → Steps P ov g g2

theorem Steps.trans {P : Spec S Op Out} {ov : Bool} {a b c : Config S Op Out}
    (h1 : Steps P ov a b) (h2 : Steps P ov b c) : Steps P ov a c := by
  induction h2 with
  | refl => exact h1
  | snoc _ s ih => exact .snoc ih s

/-- The start: nobody runs, thread `i` has to make the calls `calls i`. -/
def initial (s : S) (calls : Nat → List Op) : Config S Op Out :=
  { sh := s, writer := none, readers := [], thr := fun i => ⟨calls i, none⟩, log := [] }

/-! ## A scheduler that can be run (for explicit schedules) -/

/-- One scheduling decision. -/
inductive Ev (S : Type) where
  | tick (s' : S → S)
  | start (i : Nat)
  | act (i : Nat)
  | fin (i : Nat)

/-- Perform one decision; `none` if it is not enabled. -/
def perform (P : Spec S Op Out) (g : Config S Op Out) : Ev S → Option (Config S Op Out)
  | .tick f => some { g with sh := f g.sh }
  | .start i =>
    match g.thr i with
    | ⟨op :: rest, none⟩ =>
      let thr := setThr g.thr i ⟨rest, some (op, P.prog op)⟩
      match P.mode op with
      | .write => if g.writer = none ∧ g.readers = [] then some { g with writer := some i, thr := thr } else none
      | .read => if g.writer = none then some { g with readers := i :: g.readers, thr := thr } else none
      | .unlocked => some { g with thr := thr }
      | .unsupported => none
    | _ => none
  | .act i =>
    match g.thr i with
    | ⟨todo, some (op, .act u k)⟩ => some { g with sh := u g.sh, thr := setThr g.thr i ⟨todo, some (op, k g.sh)⟩ }
    | _ => none
  | .fin i =>
    match g.thr i with
    | ⟨todo, some (op, .ret o)⟩ =>
      some { g with
        writer := unlockW (P.mode op) g.writer
        readers := unlockR (P.mode op) i g.readers
        thr := setThr g.thr i ⟨todo, none⟩
        log := g.log ++ [(i, op, o)] }
    | _ => none

def sched (P : Spec S Op Out) (g : Config S Op Out) : List (Ev S) → Option (Config S Op Out)
  | [] => some g
  | e :: es => (perform P g e).bind (fun g' => sched P g' es)

/-- A clock decision of the schedule is allowed by the environment. -/
def Ev.ok (P : Spec S Op Out) : Ev S → Prop
  | .tick f => ∀ s, P.tick s (f s)
  | _ => True

theorem perform_step {P : Spec S Op Out} {g g' : Config S Op Out} {e : Ev S} (ho : e.ok P)
    (h : perform P g e = some g') : Step P true g g' := by
  cases e with
  | tick f => simp [perform] at h; subst h; exact .tick g _ (ho _)
  | start i =>
    simp only [perform] at h
    split at h
    · rename_i op rest ht
      split at h
      · rename_i hm
        split at h
        · rename_i hc; simp at h; subst h; exact .startW g i op rest ht hm hc.1 hc.2
        · simp at h
      · rename_i hm
        split at h
        · rename_i hc; simp at h; subst h; exact .startR g i op rest ht hm hc (.inl rfl)
        · simp at h
      · rename_i hm; simp at h; subst h; exact .startN g i op rest ht hm
      · simp at h
    · simp at h
  | act i =>
    simp only [perform] at h
    split at h
    · rename_i ht; simp at h; subst h; exact .act g i _ _ _ _ ht
    · simp at h
  | fin i =>
    simp only [perform] at h
    split at h
    · rename_i ht; simp at h; subst h; exact .fin g i _ _ _ ht
    · simp at h

theorem sched_steps {P : Spec S Op Out} {g g' : Config S Op Out} {es : List (Ev S)}
    (ho : ∀ e ∈ es, e.ok P) (h : sched P g es = some g') : Steps P true g g' := by
  induction es generalizing g with
  | nil => simp [sched] at h; subst h; exact .refl
  | cons e es ih =>
    simp only [sched] at h
    cases hp : perform P g e with
    | none => simp [hp] at h
    | some g1 =>
      simp [hp] at h
      exact (Steps.snoc .refl (perform_step (ho e (by simp)) hp)).trans (ih (fun e he => ho e (by simp [he])) h)

/-- No clock decision. -/
def Ev.noTick : Ev S → Bool
  | .tick _ => false
  | _ => true

theorem sched_steps_noTick {P : Spec S Op Out} {g g' : Config S Op Out} {es : List (Ev S)}
    (ho : es.all Ev.noTick = true) (h : sched P g es = some g') : Steps P true g g' := by
  refine sched_steps (fun e he => ?_) h
  have := List.all_eq_true.mp ho e he
  cases e <;> first | trivial | cases this

/-! ## A simple rely/guarantee rule -/

/-- From any state satisfying `I`, whatever the others do while keeping `I`, the program keeps `I`
and its result satisfies `post`. -/
def Keeps (I : S → Prop) {α : Type} (post : α → Prop) : Prog S α → Prop
  | .ret a => post a
  | .act u k => ∀ s, I s → I (u s) ∧ Keeps I post (k s)

/-- If every call keeps `I` and establishes its postcondition, then along every schedule `I` holds
and every logged result satisfies its postcondition. -/
theorem keeps_sound {P : Spec S Op Out} {ov : Bool} {I : S → Prop} {ok : Op → Prop} {post : Op → Out → Prop}
    (hp : ∀ op, ok op → Keeps I (post op) (P.prog op)) (ht : ∀ s s', P.tick s s' → I s → I s')
    {s : S} (hs : I s) {calls : Nat → List Op} (hc : ∀ i, ∀ op ∈ calls i, ok op)
    {g : Config S Op Out} (h : Steps P ov (initial s calls) g) :
    I g.sh ∧ (∀ e ∈ g.log, post e.2.1 e.2.2) ∧
    (∀ i op p, (g.thr i).cur = some (op, p) → Keeps I (post op) p) ∧
    (∀ i, ∀ op ∈ (g.thr i).todo, ok op) := by
  induction h with
  | refl => exact ⟨hs, by simp [initial], by simp [initial], by simpa [initial] using hc⟩
  | snoc _ st ih =>
    obtain ⟨h1, h2, h3, h4⟩ := ih
    have start : ∀ (g : Config S Op Out) (i : Nat) (op : Op) (rest : List Op),
        g.thr i = ⟨op :: rest, none⟩ →
        (∀ i op p, (g.thr i).cur = some (op, p) → Keeps I (post op) p) →
        (∀ i, ∀ op ∈ (g.thr i).todo, ok op) →
        (∀ j op' p, (setThr g.thr i ⟨rest, some (op, P.prog op)⟩ j).cur = some (op', p) → Keeps I (post op') p) ∧
        (∀ j, ∀ op' ∈ (setThr g.thr i ⟨rest, some (op, P.prog op)⟩ j).todo, ok op') := by
      intro g i op rest hti h3 h4
      have hok := h4 i
      rw [hti] at hok
      constructor
      · intro j op' p hj
        by_cases e : j = i
        · subst e; simp at hj; obtain ⟨rfl, rfl⟩ := hj; exact hp _ (hok _ (by simp))
        · rw [setThr_ne _ _ e] at hj; exact h3 j op' p hj
      · intro j op' hj
        by_cases e : j = i
        · subst e; simp at hj; exact hok _ (by simp [hj])
        · rw [setThr_ne _ _ e] at hj; exact h4 j op' hj
    cases st with
    | tick s' h => exact ⟨ht _ _ h h1, h2, h3, h4⟩
    | startW i op rest hti hm hw hr => exact ⟨h1, h2, start _ i op rest hti h3 h4⟩
    | startR i op rest hti hm hw hr => exact ⟨h1, h2, start _ i op rest hti h3 h4⟩
    | startN i op rest hti hm => exact ⟨h1, h2, start _ i op rest hti h3 h4⟩
    | act i op todo u k hti =>
      have hk := h3 i op _ (by rw [hti])
      have := hk _ h1
      refine ⟨this.1, h2, ?_, ?_⟩
      · intro j op' p hj
        by_cases e : j = i
        · subst e; simp at hj; obtain ⟨rfl, rfl⟩ := hj; exact this.2
        · simp only [setThr_ne _ _ e] at hj; exact h3 j op' p hj
      · intro j op' hj
        by_cases e : j = i
        · subst e; simp at hj; exact h4 j op' (by rw [hti]; exact hj)
        · simp only [setThr_ne _ _ e] at hj; exact h4 j op' hj
    | fin i op todo o hti =>
      have hk : post op o := h3 i op (.ret o) (by rw [hti])
      refine ⟨h1, ?_, ?_, ?_⟩
      · intro e he
        simp at he
        rcases he with he | rfl
        · exact h2 e he
        · exact hk
      · intro j op' p hj
        by_cases e : j = i
        · subst e; simp at hj
        · simp only [setThr_ne _ _ e] at hj; exact h3 j op' p hj
      · intro j op' hj
        by_cases e : j = i
        · subst e; simp at hj; exact h4 j op' (by rw [hti]; exact hj)
        · simp only [setThr_ne _ _ e] at hj; exact h4 j op' hj

end Verif.Conc

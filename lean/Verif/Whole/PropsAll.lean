import Verif.Whole.Props
import Verif.Repl.PropsAll
/-!
# C110 for all methods: whatever is called, whatever the master passes on

`Props` is about goroutines that set and read strings.  Here they call any methods, and the master may pass on what it likes.
-/
namespace Verif.Whole
open Verif.Resp Verif.Client

/-- The assignments that reach the replica: those of the snapshot and those among what the master passed on. -/
def arriving (snap : List Repl.Tagged) (pass : Many.Event → List Msg) (log : List Many.Event) : List (Bytes × Bytes) :=
  Repl.assignments 0 snap ++ (log.flatMap pass).filterMap Repl.assignment

section
variable {bad : Bytes → F64} {o : Opt} {cap : Nat} {P : Cut → Msg → Prop} {cf : Repl.Conf} {pass : Many.Event → List Msg}
variable {n : Nat} {srv : Server} {t : Int} {calls : Nat → List Req} {snap : List Repl.Tagged} {w w' : State}

theorem taken_step {x y : State} (h : Step bad o cap P cf pass x y) : x.rep.taken <+: y.rep.taken := by
  cases h with
  | @remote a s es _ _ _ =>
    show _ <+: (x.pass pass es).taken
    unfold State.pass
    split <;> exact List.prefix_refl _
  | replica h => exact Repl.taken_mono (.tail .refl h)
  | cut => exact List.prefix_refl _
  | cutEarly => exact List.prefix_refl _

theorem taken_steps (h : Steps bad o cap P cf pass w w') : w.rep.taken <+: w'.rep.taken := by
  induction h with
  | refl => exact List.prefix_refl _
  | tail _ hs ih => exact ih.trans (taken_step hs)

theorem steps_trans {x y z : State} (h : Steps bad o cap P cf pass x y) (h' : Steps bad o cap P cf pass y z) : Steps bad o cap P cf pass x z := by
  induction h' with
  | refl => exact h
  | tail _ hs ih => exact ih.tail hs

theorem get_view (h : Steps bad o cap P (Repl.conf 0) pass (.init n srv t calls (some Cache.new) snap) w) (k : Bytes) (u : Int) :
    get w u k = Repl.view (Repl.assignments 0 w.rep.taken) k := by
  obtain ⟨_, p, _, h3, _⟩ := split h
  have hi := Repl.inv_steps (Repl.inv_init _ _ _ _ _) h3
  obtain ⟨c, a, b⟩ := Repl.applied_view 0 w.rep.taken
  simp only [get, Repl.Client.get, hi.cache.trans a]
  exact b k u

theorem taken_arriving (h : Steps bad o cap P (Repl.conf 0) pass (.init n srv t calls (some Cache.new) snap) w) :
    Repl.assignments 0 w.rep.taken <+: arriving snap pass w.sys.log := by
  obtain ⟨_, p, ⟨q, h2⟩, h3, _⟩ := split h
  have hi := Repl.inv_steps (Repl.inv_init _ _ _ _ _) h3
  have : Repl.assignments 0 w.rep.taken <+: Repl.assignments 0 (snap ++ Repl.forwarded p) :=
    Repl.assignments_prefix ⟨w.rep.msgs ++ w.rep.pending, by rw [← hi.fifo, List.append_assoc]⟩
  refine this.trans ?_
  rw [Repl.assignments_append, Repl.assignments_forwarded, arriving, ← h2, List.filterMap_append, ← List.append_assoc]
  exact List.prefix_append _ _

/-- C110, exactly what `Get` shows, for all methods, all schedules, all ways in which the master passes on, all ways in which replies
arrive, connections lost at any time: at every moment the last values of a first part of the assignments that reach the replica, in
the canonical text; at a later moment those of a first part that is no shorter; and of all of them when the replica has caught up.
Nothing else that was done at the master is ever visible. -/
theorem C110_exact (h : Steps bad o cap P (Repl.conf 0) pass (.init n srv t calls (some Cache.new) snap) w)
    (h' : Steps bad o cap P (Repl.conf 0) pass w w') :
    ∃ kp kq, kp <+: kq ∧ kq <+: arriving snap pass w'.sys.log ∧ (∀ k u, get w u k = Repl.view kp k) ∧
      (∀ k u, get w' u k = Repl.view kq k) ∧ (CaughtUp w' → kq = arriving snap pass w'.sys.log) := by
  have h2 := steps_trans h h'
  refine ⟨_, _, Repl.assignments_prefix (taken_steps h'), taken_arriving h2, get_view h, get_view h2, ?_⟩
  rintro ⟨c0, c1, c2, c3⟩
  obtain ⟨_, p, _, h3, h4⟩ := split h2
  have hp := h4 ⟨c0, .inr ⟨_, c3⟩⟩
  subst hp
  rw [Repl.caught_up_taken h3 ⟨c1, c2, .inl c3⟩, Repl.assignments_append, Repl.assignments_forwarded, arriving]

/-- C110, nothing is made up: a value that `Get` shows was assigned to that key. -/
theorem C110_no_invention (h : Steps bad o cap P (Repl.conf 0) pass (.init n srv t calls (some Cache.new) snap) w)
    {k x : Bytes} {u : Int} (hg : get w u k = .ok x) : ∃ v, (k, v) ∈ arriving snap pass w.sys.log ∧ x = canon v := by
  rw [get_view h, Repl.view] at hg
  cases hl : Repl.lastVal k (Repl.assignments 0 w.rep.taken) with
  | none => rw [hl] at hg; cases hg
  | some v =>
    rw [hl] at hg
    simp only [GoRes.ok.injEq] at hg
    exact ⟨v, (taken_arriving h).subset (lastVal_mem hl), hg.symm⟩

theorem lastVal_none {k : Bytes} {l : List (Bytes × Bytes)} : Repl.lastVal k l = none ↔ ∀ v, (k, v) ∉ l := by
  constructor
  · intro h v hm
    induction l with
    | nil => cases hm
    | cons x l ih =>
      obtain ⟨j, y⟩ := x
      simp only [Repl.lastVal] at h
      cases hl : Repl.lastVal k l with
      | some z => rw [hl] at h; cases h
      | none =>
        rw [hl] at h
        rcases List.mem_cons.1 hm with e | hm
        · cases e; simp at h
        · exact ih hl hm
  · intro h
    cases hl : Repl.lastVal k l with
    | none => rfl
    | some v => exact absurd (lastVal_mem hl) (h v)

/-- C111, exactly, for all methods: when the replica has caught up, `Get` misses exactly the keys that no assignment reached it for. -/
theorem C111_exact (h : Steps bad o cap P (Repl.conf 0) pass (.init n srv t calls (some Cache.new) snap) w) (hc : CaughtUp w)
    (k : Bytes) (u : Int) : get w u k = .err .keyNil ↔ ∀ v, (k, v) ∉ arriving snap pass w.sys.log := by
  obtain ⟨kp, kq, _, _, _, h4, h5⟩ := C110_exact h .refl
  rw [h4, h5 hc, ← lastVal_none, Repl.view]
  cases Repl.lastVal k (arriving snap pass w.sys.log) <;> simp

/-- C112, exactly, for all methods: once the connection is lost, `Get` shows for ever a first part of the assignments that were on their way
or had arrived at that moment, whatever is called later. -/
theorem C112_exact (h : Steps bad o cap P (Repl.conf 0) pass (.init n srv t calls (some Cache.new) snap) w) (hl : ¬ Linked w)
    (h' : Steps bad o cap P (Repl.conf 0) pass w w') :
    ∃ kp kq, kp <+: kq ∧ kq <+: arriving snap pass w.sys.log ∧ (∀ k u, get w u k = Repl.view kp k) ∧ ∀ k u, get w' u k = Repl.view kq k := by
  refine ⟨_, _, Repl.assignments_prefix (taken_steps h'), ?_, get_view h, get_view (steps_trans h h')⟩
  obtain ⟨_, p, ⟨q, h2⟩, h3⟩ := lost_for_good h hl h'
  have hi := Repl.inv_steps (Repl.inv_init _ _ _ _ _) h3
  have : Repl.assignments 0 w'.rep.taken <+: Repl.assignments 0 (snap ++ Repl.forwarded p) :=
    Repl.assignments_prefix ⟨w'.rep.msgs ++ w'.rep.pending, by rw [← hi.fifo, List.append_assoc]⟩
  refine this.trans ?_
  rw [Repl.assignments_append, Repl.assignments_forwarded, arriving, ← h2, List.filterMap_append, ← List.append_assoc]
  exact List.prefix_append _ _

/-- The master passes on the assignments it carried out as assignments, and nothing else as one. -/
def Passes (pass : Many.Event → List Msg) : Prop := ∀ e, (pass e).filterMap Repl.assignment = assigned e

theorem arriving_passes (hp : Passes pass) (log : List Many.Event) : arriving snap pass log = Repl.assignments 0 snap ++ log.flatMap assigned := by
  rw [arriving]
  congr 1
  induction log with
  | nil => rfl
  | cons e log ih => rw [List.flatMap_cons, List.flatMap_cons, List.filterMap_append, ih, hp]

/-- Only `Set` sends SET. -/
theorem assigned_args {c : Nat} {u : Int} {q : Req} {m : Msg} {k v : Bytes} (h : (k, v) ∈ assigned (.run c u (args q) m)) : q = .set k v := by
  have hno : ∀ {name rest}, name.map lowerLetter ≠ b!"set" → (k, v) ∉ assigned (.run c u (name :: rest) m) := by
    intro name rest hn hm
    unfold assigned at hm
    split at hm
    · rename_i heq
      cases heq
      rw [if_neg (fun h => hn h.1)] at hm
      cases hm
    · cases hm
  cases q with
  | set j y =>
    simp only [args, assigned] at h
    split at h
    · simp only [List.mem_singleton, Prod.mk.injEq] at h
      rw [h.1, h.2]
    · cases h
  | _ => exact absurd h (hno (by decide +kernel))

/-- C110 for the other methods: a key that nobody calls `Set` for and that is no string of the snapshot is never shown, at no moment of
no run, whatever other methods wrote to it at the master. -/
theorem C110_violated_others (hp : Passes pass)
    (h : Steps bad o cap Carried (Repl.conf 0) pass (.init n srv t calls (some Cache.new) snap) w) {k : Bytes}
    (hsnap : ∀ v, (k, v) ∉ Repl.assignments 0 snap) (hno : ∀ i v, Many.Event.inv i (.set k v) ∉ w.sys.log) (u : Int) :
    get w u k = .err .keyNil := by
  rw [get_view h, Repl.view]
  cases hl : Repl.lastVal k (Repl.assignments 0 w.rep.taken) with
  | none => rfl
  | some v =>
    exfalso
    have hm := (taken_arriving h).subset (lastVal_mem hl)
    rw [arriving_passes hp] at hm
    rcases List.mem_append.1 hm with hm | hm
    · exact hsnap v hm
    · obtain ⟨e, he, hm⟩ := List.mem_flatMap.1 hm
      cases e with
      | run c u line m =>
        obtain ⟨A, B, e⟩ := List.append_of_mem he
        obtain ⟨i, q, _, k2, rfl⟩ := Many.C106_executed_was_called_partial (split h).1 e
        cases assigned_args hm
        exact hno i v (by rw [e]; simp [k2])
      | _ => cases hm

end

/-- A move makes only calls that are still to be made. -/
theorem act_todo {bad : Bytes → F64} {o : Opt} {cap : Nat} {s s' : Many.Sys} {a : Many.Act} (h : Many.act bad o cap s a = some s') :
    (∀ i, ∀ q ∈ s'.todo i, q ∈ s.todo i) ∧ ∀ i q, Many.Event.inv i q ∈ s'.log → .inv i q ∈ s.log ∨ q ∈ s.todo i := by
  have same : ∀ {p : Many.Sys} {es : List Many.Event}, p.todo = s.todo → p.log = s.log ++ es → (∀ i q, .inv i q ∉ es) →
      (∀ i, ∀ q ∈ p.todo i, q ∈ s.todo i) ∧ ∀ i q, Many.Event.inv i q ∈ p.log → .inv i q ∈ s.log ∨ q ∈ s.todo i := by
    intro p es h1 h2 h3
    refine ⟨fun i q hq => by rwa [h1] at hq, fun i q hq => ?_⟩
    rw [h2] at hq
    exact (List.mem_append.1 hq).elim .inl (fun h => absurd h (h3 i q))
  have none : ∀ {p : Many.Sys}, p.todo = s.todo → p.log = s.log →
      (∀ i, ∀ q ∈ p.todo i, q ∈ s.todo i) ∧ ∀ i q, Many.Event.inv i q ∈ p.log → .inv i q ∈ s.log ∨ q ∈ s.todo i :=
    fun h1 h2 => same (es := []) h1 (by rw [h2, List.append_nil]) (fun _ _ h => by cases h)
  cases a with
  | call i =>
    simp only [Many.act] at h
    split at h <;> cases h
    rename_i q rest ht _ _
    refine ⟨fun j r hr => ?_, fun j r hr => ?_⟩
    · by_cases e : j = i
      · subst e
        simp only [Many.set_same] at hr
        rw [ht]; exact List.mem_cons_of_mem _ hr
      · simpa only [Many.set_ne _ _ e] using hr
    · rcases List.mem_append.1 hr with h | h
      · exact .inl h
      · simp only [List.mem_singleton, Many.Event.inv.injEq] at h
        obtain ⟨rfl, rfl⟩ := h
        exact .inr (by rw [ht]; exact List.mem_cons_self)
  | get i =>
    simp only [Many.act] at h
    split at h
    · cases h
    · split at h
      · cases h
      · obtain ⟨p, _, rfl⟩ := Option.map_eq_some_iff.1 h; exact none rfl rfl
    · obtain ⟨p, _, rfl⟩ := Option.map_eq_some_iff.1 h; exact none rfl rfl
    · cases h
  | dial i reach cut =>
    simp only [Many.act] at h
    split at h
    · split at h
      · split at h
        · split at h
          · obtain ⟨p, _, rfl⟩ := Option.map_eq_some_iff.1 h; exact none rfl rfl
          · obtain ⟨p, _, rfl⟩ := Option.map_eq_some_iff.1 h; exact same rfl rfl (by simp)
        · obtain ⟨p, _, rfl⟩ := Option.map_eq_some_iff.1 h; exact same rfl rfl (by simp)
      · cases h
    · cases h
  | send i =>
    simp only [Many.act] at h
    split at h <;> cases h
    exact same rfl rfl (by simp)
  | run c cut =>
    simp only [Many.act] at h
    split at h <;> cases h
    exact same rfl rfl (by simp)
  | recv i =>
    simp only [Many.act] at h
    split at h
    · split at h <;> cases h
      exact none rfl rfl
    · cases h
  | put i =>
    simp only [Many.act] at h
    split at h
    · obtain ⟨p, _, rfl⟩ := Option.map_eq_some_iff.1 h; exact same rfl rfl (by simp)
    · cases h
  | drop c lose =>
    simp only [Many.act] at h
    split at h <;> cases h
    exact same rfl rfl (by simp)
  | tick d => simp only [Many.act, Option.some.injEq] at h; subst h; exact none rfl rfl

/-- Only the calls the goroutines were given are made. -/
theorem called_given {bad : Bytes → F64} {o : Opt} {cap : Nat} {P : Cut → Msg → Prop} {n : Nat} {srv : Server} {t : Int} {calls : Nat → List Req}
    {s : Many.Sys} (h : Many.Runs bad o cap P (Many.Sys.init n srv t calls) s) :
    (∀ i, ∀ q ∈ s.todo i, q ∈ calls i) ∧ ∀ i q, Many.Event.inv i q ∈ s.log → q ∈ calls i := by
  induction h with
  | refl => exact ⟨fun _ _ h => h, fun _ _ h => by cases h⟩
  | snoc _ _ ha ih =>
    obtain ⟨a, b⟩ := act_todo ha
    exact ⟨fun i q hq => ih.1 i q (a i q hq), fun i q hq => (b i q hq).elim (ih.2 i q) (ih.1 i q)⟩

/-! ## A master that passes on every write -/

/-- Names of requests that change nothing. -/
def reads : List Bytes := [b!"get", b!"mget", b!"strlen", b!"getrange", b!"select", b!"auth", b!"ping"]

/-- A write that was not refused is passed on as it was received. -/
def passAll : Many.Event → List Msg
  | .run c u (name :: rest) m =>
    if name.map lowerLetter = b!"set" then passed (.run c u (name :: rest) m)
    else if name.map lowerLetter ∈ reads then []
    else
      match m with
      | .error _ => []
      | _ => [command (name :: rest)]
  | _ => []

theorem passes_all : Passes passAll := by
  intro e
  have hs : ∀ e, (passed e).filterMap Repl.assignment = assigned e := by
    intro e
    unfold passed assigned
    cases e with
    | run c u line m =>
      match line with
      | [] => rfl
      | [name] => simp only; split <;> rfl
      | [name, k] => simp only; split <;> rfl
      | name :: k :: v :: rest =>
        simp only
        split
        · rename_i h
          simp [command, Repl.assignment, str, h.1]
        · rfl
    | _ => rfl
  cases e with
  | run c u line m =>
    match line with
    | [] => rfl
    | name :: rest =>
      unfold passAll
      simp only
      split
      · exact hs _
      · rename_i hn
        have ha : assigned (.run c u (name :: rest) m) = [] := by
          match rest with
          | [] => rfl
          | [_] => rfl
          | k :: v :: rest => simp [assigned, hn]
        rw [ha]
        have hc : Repl.assignment (command (name :: rest)) = none := Repl.no_assignment hn
        split
        · rfl
        · cases m <;> simp [hc]
  | _ => rfl

/-- One goroutine appends to a key. -/
def appendCalls : Nat → List Req
  | 0 => [.append b!"k" b!"v"]
  | _ => []

/-- What is seen of it. -/
def appendLog : List Many.Event :=
  [.inv 0 (.append b!"k" b!"v"), .send 0 0 (.append b!"k" b!"v"), .run 0 0 [b!"Append", b!"k", b!"v"] (.int 1), .ret 0 0 (some ⟨.int 1, none⟩)]

theorem append_runs : ∃ s, Many.Runs (fun _ => F64.zero) ⟨[], 0⟩ 1 Carried (Many.Sys.init 1 openServer 0 appendCalls) s ∧ s.log = appendLog ∧
    shown (s.srv.dbs 0) 0 b!"k" = .ok b!"v" ∧ s.todo 0 = [] := by
  have h : (Many.runAll (fun _ => F64.zero) ⟨[], 0⟩ 1 (Many.Sys.init 1 openServer 0 appendCalls) demoActs).map
      (fun s => (s.log, decide (shown (s.srv.dbs 0) 0 b!"k" = .ok b!"v"), s.todo 0)) = some (appendLog, true, []) := by
    decide +kernel
  obtain ⟨s, h1, h2⟩ := Option.map_eq_some_iff.1 h
  simp only [Prod.mk.injEq, decide_eq_true_eq] at h2
  refine ⟨s, Many.runAll_runs .refl (Many.short_allowed ?_ (by decide +kernel)) h1, h2⟩
  intro a ha
  simp only [demoActs, List.mem_cons, List.not_mem_nil, or_false] at ha
  rcases ha with rfl | rfl | rfl | rfl | rfl | rfl | rfl | rfl | rfl | rfl | rfl | rfl <;> first | rfl | trivial

/-- C110 is false for other methods even when the replica has caught up: `Append` returned without error, the master passed it on and
holds the text, the replica took everything - and no call of `Get`, now or later, finds the key. -/
theorem C110_violated_append : ∃ w : State,
    Steps (fun _ => F64.zero) ⟨[], 0⟩ 1 Carried (Repl.conf 0) passAll (.init 1 openServer 0 appendCalls (some Cache.new) []) w ∧ CaughtUp w ∧
    w.sys.log = appendLog ∧ shown (w.sys.srv.dbs 0) 0 b!"k" = .ok b!"v" ∧
    ∀ w' u, Steps (fun _ => F64.zero) ⟨[], 0⟩ 1 Carried (Repl.conf 0) passAll w w' → get w' u b!"k" = .err .keyNil := by
  obtain ⟨s, h1, h2, h3, _⟩ := append_runs
  have h4 := with_replica (cf := Repl.conf 0) (c := some Cache.new) (snap := []) (pass := passAll) h1
  rw [h2] at h4
  have h5 := (h4.tail (.replica (.loaded rfl rfl rfl))).tail (.replica (.recvSend rfl rfl (by decide +kernel) (show 0 < 10000 by decide)))
  have h6 := (h5.tail (.replica (.failed rfl rfl rfl rfl rfl))).tail (.replica (.report rfl rfl (show 0 < 1 by decide)))
  refine ⟨_, h6, ⟨rfl, rfl, rfl, rfl⟩, h2, h3, fun w' u h' => ?_⟩
  have h7 := steps_trans h6 h'
  refine C110_violated_others passes_all h7 (by intro v h; cases h) (fun i v hm => ?_) u
  have := (called_given (split h7).1).2 i _ hm
  match i with
  | 0 => simp [appendCalls] at this
  | i + 1 => simp [appendCalls] at this

end Verif.Whole

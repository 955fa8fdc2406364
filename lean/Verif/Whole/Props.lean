import Verif.Whole.Model
/-!
# C110: reading what was written
-/
namespace Verif.Whole
open Verif.Resp Verif.Client

section
variable {bad : Bytes → F64} {o : Opt} {cap : Nat} {P : Cut → Msg → Prop} {cf : Repl.Conf} {pass : Many.Event → List Msg}

/-- A move only adds to the log. -/
theorem act_log {s s' : Many.Sys} {a : Many.Act} (h : Many.act bad o cap s a = some s') : ∃ es, s'.log = s.log ++ es := by
  have none : ∀ {p : Many.Sys}, p.log = s.log → ∃ es, p.log = s.log ++ es := fun h => ⟨[], by rw [h, List.append_nil]⟩
  cases a with
  | call i =>
    simp only [Many.act] at h
    split at h <;> cases h
    exact ⟨_, rfl⟩
  | get i =>
    simp only [Many.act] at h
    split at h
    · cases h
    · split at h
      · cases h
      · obtain ⟨p, _, rfl⟩ := Option.map_eq_some_iff.1 h; exact none rfl
    · obtain ⟨p, _, rfl⟩ := Option.map_eq_some_iff.1 h; exact none rfl
    · cases h
  | dial i reach cut =>
    simp only [Many.act] at h
    split at h
    · split at h
      · split at h
        · split at h
          · obtain ⟨p, _, rfl⟩ := Option.map_eq_some_iff.1 h; exact none rfl
          · obtain ⟨p, _, rfl⟩ := Option.map_eq_some_iff.1 h; exact ⟨_, rfl⟩
        · obtain ⟨p, _, rfl⟩ := Option.map_eq_some_iff.1 h; exact ⟨_, rfl⟩
      · cases h
    · cases h
  | send i =>
    simp only [Many.act] at h
    split at h <;> cases h
    exact ⟨_, rfl⟩
  | run c cut =>
    simp only [Many.act] at h
    split at h <;> cases h
    exact ⟨_, rfl⟩
  | recv i =>
    simp only [Many.act] at h
    split at h
    · split at h <;> cases h
      exact none rfl
    · cases h
  | put i =>
    simp only [Many.act] at h
    split at h
    · obtain ⟨p, _, rfl⟩ := Option.map_eq_some_iff.1 h; exact ⟨_, rfl⟩
    · cases h
  | drop c lose =>
    simp only [Many.act] at h
    split at h <;> cases h
    exact ⟨_, rfl⟩
  | tick d => simp only [Many.act, Option.some.injEq] at h; subst h; exact none rfl

/-- The connection to the master stands. -/
def Open (s : Repl.State) : Prop := (∃ l, s.recv = .off l) ∨ ∃ l, s.recv = .reading l

theorem open_back {s t : Repl.State} (h : Repl.Step cf s t) (ho : Open t) : Open s := by
  cases h with
  | loaded _ _ h => exact .inl ⟨_, h⟩
  | recvPing _ h _ => exact .inr ⟨_, h⟩
  | recvSend _ h _ _ => exact .inr ⟨_, h⟩
  | recvErr => rcases ho with ⟨_, h⟩ | ⟨_, h⟩ <;> cases h
  | close => rcases ho with ⟨_, h⟩ | ⟨_, h⟩ <;> cases h
  | _ => exact ho

theorem feed_step {q : List Msg} {s t : Repl.State} (h : Repl.Step cf s t) (ho : Open t) : Repl.Step cf (feed q s) (feed q t) := by
  cases h with
  | skip h1 h2 h3 h4 => exact .skip h1 h2 h3 h4
  | handled h1 h2 h3 h4 h5 => exact .handled h1 h2 h3 h4 h5
  | failed h1 h2 h3 h4 h5 => exact .failed h1 h2 h3 h4 h5
  | crash h1 h2 h3 h4 h5 => exact .crash h1 h2 h3 h4 h5
  | zeroSkip h1 h2 h3 h4 h5 => exact .zeroSkip h1 h2 h3 h4 h5
  | zeroFailed h1 h2 h3 h4 h5 h6 => exact .zeroFailed h1 h2 h3 h4 h5 h6
  | report h1 h2 h3 => exact .report h1 h2 h3
  | drain h1 h2 h3 => exact .drain h1 h2 h3
  | load h1 h2 h3 => exact .load h1 h2 h3
  | loadFailed h1 h2 => exact .loadFailed h1 h2
  | loaded h1 h2 h3 => exact .loaded (s := feed q s) h1 h2 (by simp only [feed, h3]; rfl)
  | recvPing h1 h2 h3 => exact .recvPing (s := feed q s) h1 (by simp only [feed, h2]; rfl) h3
  | recvSend h1 h2 h3 h4 => exact .recvSend (s := feed q s) h1 (by simp only [feed, h2]; rfl) h3 h4
  | recvErr => rcases ho with ⟨_, h⟩ | ⟨_, h⟩ <;> cases h
  | close => rcases ho with ⟨_, h⟩ | ⟨_, h⟩ <;> cases h
  | ackFailed h1 h2 => exact .ackFailed h1 h2
  | ackReport h1 h2 h3 => exact .ackReport h1 h2 h3

/-- What arrives later could have been on its way from the beginning. -/
theorem feed_steps {c : Repl.Local} {snap : List Repl.Tagged} {good : Bool} {p q : List Msg} {s : Repl.State}
    (h : Repl.Steps cf (.init c snap good p) s) (ho : Open s) : Repl.Steps cf (.init c snap good (p ++ q)) (feed q s) := by
  generalize hi : Repl.State.init c snap good p = s0 at h
  induction h with
  | refl => subst hi; exact .refl
  | tail _ hs ih => exact (ih (open_back hs ho)).tail (feed_step hs ho)

theorem feed_closed {q : List Msg} {s : Repl.State} (ho : ¬ Open s) : feed q s = s := by
  obtain ⟨msgs, closed, errs, hand, main, recv, ack, cache, crashed, taken⟩ := s
  cases recv with
  | off l => exact absurd (.inl ⟨l, rfl⟩) ho
  | reading l => exact absurd (.inr ⟨l, rfl⟩) ho
  | _ => rfl

theorem unfeed_step {x : List Msg} {s t : Repl.State} (h : Repl.Step cf s t) {r : Repl.RPC} (hr : t.recv = feedR x r)
    (ho : (∃ l, r = .off l) ∨ ∃ l, r = .reading l) :
    ∃ r', s.recv = feedR x r' ∧ ((∃ l, r' = .off l) ∨ ∃ l, r' = .reading l) ∧ Repl.Step cf { s with recv := r' } { t with recv := r } := by
  cases h with
  | skip h1 h2 h3 h4 => exact ⟨r, hr, ho, .skip (s := { s with recv := r }) h1 h2 h3 h4⟩
  | handled h1 h2 h3 h4 h5 => exact ⟨r, hr, ho, .handled (s := { s with recv := r }) h1 h2 h3 h4 h5⟩
  | failed h1 h2 h3 h4 h5 => exact ⟨r, hr, ho, .failed (s := { s with recv := r }) h1 h2 h3 h4 h5⟩
  | crash h1 h2 h3 h4 h5 => exact ⟨r, hr, ho, .crash (s := { s with recv := r }) h1 h2 h3 h4 h5⟩
  | zeroSkip h1 h2 h3 h4 h5 => exact ⟨r, hr, ho, .zeroSkip (s := { s with recv := r }) h1 h2 h3 h4 h5⟩
  | zeroFailed h1 h2 h3 h4 h5 h6 => exact ⟨r, hr, ho, .zeroFailed (s := { s with recv := r }) h1 h2 h3 h4 h5 h6⟩
  | report h1 h2 h3 => exact ⟨r, hr, ho, .report (s := { s with recv := r }) h1 h2 h3⟩
  | drain h1 h2 h3 => exact ⟨r, hr, ho, .drain (s := { s with recv := r }) h1 h2 h3⟩
  | load h1 h2 h3 => exact ⟨r, hr, ho, .load (s := { s with recv := r }) h1 h2 h3⟩
  | loadFailed h1 h2 => exact ⟨r, hr, ho, .loadFailed (s := { s with recv := r }) h1 h2⟩
  | @loaded stream h1 h2 h3 =>
    rcases ho with ⟨l, rfl⟩ | ⟨l, rfl⟩
    · cases hr
    · cases hr
      exact ⟨.off l, h3, .inl ⟨_, rfl⟩, .loaded (s := { s with recv := .off l }) h1 h2 rfl⟩
  | @recvPing m rest h1 h2 h3 =>
    rcases ho with ⟨l, rfl⟩ | ⟨l, rfl⟩
    · cases hr
    · cases hr
      exact ⟨.reading (m :: l), h2, .inr ⟨_, rfl⟩, .recvPing (s := { s with recv := .reading (m :: l) }) h1 rfl h3⟩
  | @recvSend m rest h1 h2 h3 h4 =>
    rcases ho with ⟨l, rfl⟩ | ⟨l, rfl⟩
    · cases hr
    · cases hr
      exact ⟨.reading (m :: l), h2, .inr ⟨_, rfl⟩, .recvSend (s := { s with recv := .reading (m :: l) }) h1 rfl h3 h4⟩
  | recvErr => rcases ho with ⟨l, rfl⟩ | ⟨l, rfl⟩ <;> cases hr
  | close => rcases ho with ⟨l, rfl⟩ | ⟨l, rfl⟩ <;> cases hr
  | ackFailed h1 h2 => exact ⟨r, hr, ho, .ackFailed (s := { s with recv := r }) h1 h2⟩
  | ackReport h1 h2 h3 => exact ⟨r, hr, ho, .ackReport (s := { s with recv := r }) h1 h2 h3⟩

/-- What has not yet been received might never have been sent. -/
theorem unfeed_steps {c : Repl.Local} {snap : List Repl.Tagged} {good : Bool} {p x : List Msg} {s : Repl.State}
    (h : Repl.Steps cf (.init c snap good p) s) {r : Repl.RPC} (hr : s.recv = feedR x r) (ho : (∃ l, r = .off l) ∨ ∃ l, r = .reading l) :
    ∃ p', p = p' ++ x ∧ Repl.Steps cf (.init c snap good p') { s with recv := r } := by
  generalize hi : Repl.State.init c snap good p = s0 at h
  induction h generalizing r with
  | refl =>
    subst hi
    rcases ho with ⟨l, rfl⟩ | ⟨l, rfl⟩
    · cases hr; exact ⟨l, rfl, .refl⟩
    · cases hr
  | tail _ hs ih =>
    obtain ⟨r', a, b, d⟩ := unfeed_step hs hr ho
    obtain ⟨p', e, f⟩ := ih a b
    exact ⟨p', e, f.tail d⟩

/-- The master reaches the replica. -/
def Linked (w : State) : Prop := w.link = true ∧ Open w.rep

theorem linked_back {x y : State} (h : Step bad o cap P cf pass x y) (hl : Linked y) : Linked x := by
  cases h with
  | @remote a s es ha hact he =>
    obtain ⟨h1, h2⟩ := hl
    refine ⟨h1, ?_⟩
    simp only [State.pass, show x.link = true from h1, if_true] at h2
    by_cases ho : Open x.rep
    · exact ho
    · rwa [feed_closed ho] at h2
  | replica hr => exact ⟨hl.1, open_back hr hl.2⟩
  | cut => cases hl.1
  | cutEarly => cases hl.1

/-- Without a connection nothing is passed on. -/
theorem pass_unlinked {w : State} (h : ¬ Linked w) (es : List Many.Event) : w.pass pass es = w.rep := by
  unfold State.pass
  split
  · rename_i hl
    exact feed_closed (fun ho => h ⟨hl, ho⟩)
  · rfl

/-- Every run of the whole is a run of the remote side and one of the replica, which is sent what the
master carried out, or the first part of it if the connection failed. -/
theorem split {n : Nat} {srv : Server} {t : Int} {calls : Nat → List Req} {c : Repl.Local} {snap : List Repl.Tagged} {w : State}
    (h : Steps bad o cap P cf pass (.init n srv t calls c snap) w) :
    Many.Runs bad o cap P (Many.Sys.init n srv t calls) w.sys ∧
    ∃ p, p <+: w.sys.log.flatMap pass ∧ Repl.Steps cf (.init c snap true p) w.rep ∧ (Linked w → p = w.sys.log.flatMap pass) := by
  generalize hi : State.init n srv t calls c snap = w0 at h
  induction h with
  | refl => subst hi; exact ⟨.refl, [], List.prefix_refl _, .refl, fun _ => rfl⟩
  | @tail x y _ hs ih =>
    obtain ⟨h1, p, h2, h3, h4⟩ := ih
    cases hs with
    | @remote a s es ha hact he =>
      refine ⟨.snoc h1 ha hact, ?_⟩
      simp only [he, List.flatMap_append]
      by_cases ho : Linked x
      · refine ⟨p ++ es.flatMap pass, by rw [h4 ho]; exact List.prefix_refl _, ?_, fun _ => by rw [h4 ho]⟩
        simp only [State.pass, ho.1, if_true]
        exact feed_steps h3 ho.2
      · simp only [pass_unlinked ho]
        exact ⟨p, h2.trans (List.prefix_append _ _), h3, fun h => absurd ⟨h.1, h.2⟩ ho⟩
    | @replica r hr =>
      exact ⟨h1, p, h2, h3.tail hr, fun ho => h4 ⟨ho.1, open_back hr ho.2⟩⟩
    | @cut l l' hl hp =>
      obtain ⟨q, rfl⟩ := hp
      obtain ⟨p', rfl, h5⟩ := unfeed_steps (r := .reading l') h3 hl (.inr ⟨_, rfl⟩)
      exact ⟨h1, p', (List.prefix_append _ _).trans h2, h5, fun h => by cases h.1⟩
    | @cutEarly l l' hl hp =>
      obtain ⟨q, rfl⟩ := hp
      obtain ⟨p', rfl, h5⟩ := unfeed_steps (r := .off l') h3 hl (.inl ⟨_, rfl⟩)
      exact ⟨h1, p', (List.prefix_append _ _).trans h2, h5, fun h => by cases h.1⟩

/-- Only assignments to and look-ups of strings. -/
def SetOrGet (q : Req) : Prop := (∃ k v, q = .set k v) ∨ ∃ k, q = .get k

theorem stream_of {L : List Many.Event} (h : ∀ c u line m, Many.Event.run c u line m ∈ L → ∃ q, SetOrGet q ∧ line = args q) :
    Repl.StreamOf (L.flatMap passed) (L.flatMap assigned) := by
  induction L with
  | nil => exact .nil
  | cons e L ih =>
    have ih := ih (fun c u line m hm => h c u line m (List.mem_cons_of_mem _ hm))
    simp only [List.flatMap_cons]
    cases e with
    | run c u line m =>
      obtain ⟨q, ⟨k, v, rfl⟩ | ⟨k, rfl⟩, rfl⟩ := h c u line m List.mem_cons_self
      · simp only [passed, assigned, args]
        split
        · exact .set ⟨b!"set", [], ⟨115, 101, 116, rfl, by simp⟩, rfl⟩ ih
        · exact ih
      · have : ¬ ((b!"get").map lowerLetter = b!"set" ∧ m = .simple b!"OK") := fun h => absurd h.1 (by decide +kernel)
        simp only [passed, assigned, args, if_neg this]
        exact ih
    | _ => exact ih

/-- The text at a key of the master, or none. -/
def shown (st : Ref.Store) (t : Int) (k : Bytes) : Res Bytes := Ref.text st t k (.err .keyNil)

/-- A value or none, as an answer. -/
def answer : Option Bytes → Res Bytes
  | some v => .ok v
  | none => .err .keyNil

theorem lastVal_append (k : Bytes) (a b : List (Bytes × Bytes)) :
    Repl.lastVal k (a ++ b) = (Repl.lastVal k b).or (Repl.lastVal k a) := by
  induction a with
  | nil => cases h : Repl.lastVal k b <;> simp [Repl.lastVal, h]
  | cons x a ih =>
    obtain ⟨j, v⟩ := x
    simp only [List.cons_append, Repl.lastVal, ih]
    cases Repl.lastVal k b <;> simp

/-- The store of the master after the requests of a log. -/
theorem served_store {srv : Server} {t w : Int} {L : List Many.Event} {sv : Server} {ls : Nat → Login} (hdb : o.database.toInt ≤ 0)
    {kvs : List (Bytes × Bytes)} (h0 : ∀ k u, shown (srv.dbs 0) u k = answer (Repl.lastVal k kvs))
    (hS : Many.Served srv (fun _ => wanted o) t L sv ls w)
    (h : ∀ c u line m, Many.Event.run c u line m ∈ L → ∃ q, SetOrGet q ∧ line = args q) :
    (∀ c, (ls c).db = 0) ∧ ∀ k u, shown (sv.dbs 0) u k = answer (Repl.lastVal k (kvs ++ L.flatMap assigned)) := by
  induction hS with
  | nil =>
    refine ⟨fun c => ?_, by simpa using h0⟩
    simp only [wanted]
    rw [if_neg (by omega)]
  | @run L s' ls' t' c u line hs hu ih =>
    obtain ⟨i1, i2⟩ := ih (fun c u line m hm => h c u line m (List.mem_append_left _ hm))
    obtain ⟨q, hq, rfl⟩ := h _ _ _ _ (List.mem_append_right _ (List.mem_singleton.2 rfl))
    have hl : (serve s' (ls' c) u (args q)).2.1 = ls' c := Many.login_kept _ _ _ _ (by
      rintro n rfl
      rcases hq with ⟨_, _, h⟩ | ⟨_, h⟩ <;> cases h)
    refine ⟨fun d => ?_, fun k u' => ?_⟩
    · rw [hl]
      by_cases e : d = c
      · subst e; rw [Many.set_same]; exact i1 d
      · rw [Many.set_ne _ _ e]; exact i1 d
    · rw [List.flatMap_append, ← List.append_assoc, lastVal_append]
      rcases hq with ⟨k', v, rfl⟩ | ⟨k', rfl⟩
      · simp only [List.flatMap_cons, List.flatMap_nil, List.append_nil, args, assigned, serve]
        rw [if_neg (by decide +kernel)]
        by_cases ha : s'.password.isSome ∧ (ls' c).authed = false
        · rw [if_pos ha]
          rw [if_neg (fun h => by cases h.2)]
          exact i2 k u'
        · rw [if_neg ha, if_neg (by decide +kernel)]
          have hc : callNamed ((b!"set").map lowerLetter) [k', v] = some (.set k' v) := by
            rw [show (b!"set").map lowerLetter = b!"set" by decide +kernel]; rfl
          simp only [hc, i1 c, if_true]
          rw [if_pos ⟨by decide +kernel, rfl⟩]
          simp only [Ref.exec, shown, Ref.text, Ref.view, Ref.live, Ref.put, upd, Repl.lastVal]
          by_cases hk : k = k'
          · subst hk; simp [answer, Option.filter]
          · have := i2 k u'
            simp only [shown, Ref.text, Ref.view, Ref.live] at this
            simp [hk, Ne.symm hk, this]
      · have : ¬ ((b!"get").map lowerLetter = b!"set" ∧ (serve s' (ls' c) u (args (.get k'))).2.2 = .simple b!"OK") :=
          fun h => absurd h.1 (by decide +kernel)
        simp only [List.flatMap_cons, List.flatMap_nil, List.append_nil, args] at this ⊢
        simp only [assigned, Repl.lastVal, Option.none_or]
        rw [← i2 k u']
        congr 1
        simp only [serve]
        rw [if_neg (by decide +kernel)]
        split
        · rfl
        · rw [if_neg (by decide +kernel)]
          have hc : callNamed ((b!"get").map lowerLetter) [k'] = some (.get k') := by
            rw [show (b!"get").map lowerLetter = b!"get" by decide +kernel]; rfl
          simp only [hc, i1 c, if_true, Ref.exec]
  | skip e hs he ih =>
    obtain ⟨i1, i2⟩ := ih (fun c u line m hm => h c u line m (List.mem_append_left _ hm))
    refine ⟨i1, fun k u => ?_⟩
    rw [i2, List.flatMap_append]
    have : [e].flatMap assigned = [] := by
      cases e with
      | run c u line m => exact absurd rfl (he _ _ _ _)
      | _ => rfl
    rw [this, List.append_nil]

variable {n : Nat} {srv : Server} {t : Int} {calls : Nat → List Req} {snap : List Repl.Tagged} {kvs : List (Bytes × Bytes)} {w : State}

theorem lines {s : Many.Sys} (h : Many.Runs bad o cap Carried (Many.Sys.init n srv t calls) s) (hq : ∀ i q, .inv i q ∈ s.log → SetOrGet q) :
    ∀ c u line m, Many.Event.run c u line m ∈ s.log → ∃ q, SetOrGet q ∧ line = args q := by
  intro c u line m hm
  obtain ⟨A, B, e⟩ := List.append_of_mem hm
  obtain ⟨i, q, _, k2, rfl⟩ := Many.C106_executed_was_called_partial h e
  exact ⟨q, hq i q (by rw [e]; simp [k2]), rfl⟩

theorem answer_map (x : Option Bytes) : (answer x).map canon = match x with | some v => .ok (canon v) | none => .err .keyNil := by
  cases x <;> rfl

/-- C110, as far as it holds: goroutines of this client and others set and read strings in database 0
of the master, while the replica receives, in any schedule, with connections lost at any time.
Whenever the replica has caught up, `Get` shows for every key exactly what the master holds, up to
the rewriting of numbers.  The snapshot is that of the master at the beginning.  Missing: moments
before it has caught up (`C110_violated`); the cache `New` makes is not usable (C78); other
commands and databases, deadlines; replies the client cannot read as they arrive (C91). -/
theorem C110_converges_partial (hdb : o.database.toInt ≤ 0) (hsnap : Repl.SetsFor 0 snap kvs)
    (hsrv : ∀ k u, shown (srv.dbs 0) u k = answer (Repl.lastVal k kvs))
    (h : Steps bad o cap Carried (Repl.conf 0) passed (.init n srv t calls (some Cache.new) snap) w)
    (hq : ∀ i q, .inv i q ∈ w.sys.log → SetOrGet q) (hc : CaughtUp w) (k : Bytes) (u : Int) :
    get w u k = (shown (w.sys.srv.dbs 0) u k).map canon := by
  obtain ⟨h1, p, _, h3, h4⟩ := split h
  obtain ⟨c0, c1, c2, c3⟩ := hc
  have hp := h4 ⟨c0, .inr ⟨_, c3⟩⟩
  subst hp
  have hl := lines h1 hq
  obtain ⟨ls, v, hS, _⟩ := Many.C106_sequential_partial h1
  rw [(served_store hdb hsrv hS hl).2, answer_map]
  have ha : Repl.SetsFor 0 (snap ++ Repl.forwarded (w.sys.log.flatMap passed)) (kvs ++ w.sys.log.flatMap assigned) :=
    Repl.setsFor_append hsnap (Repl.setsFor_stream (stream_of hl))
  have hi := Repl.inv_steps (Repl.inv_init (Repl.conf 0) (some Cache.new) snap true _) h3
  have hpend : w.rep.pending = [] := by
    simp only [Repl.State.pending, c2, c3]; rfl
  have htk : w.rep.taken = snap ++ Repl.forwarded (w.sys.log.flatMap passed) := by
    rw [← hi.fifo, c1, hpend]; simp
  simp only [get, Repl.Client.get]
  rw [hi.cache, htk, show (Repl.conf 0).db = 0 from rfl, Repl.applied_sets ha]
  simp only
  rw [Repl.get_after_sets Cache.new _ k u (by intro d hd; cases hd)]
  cases Repl.lastVal k (kvs ++ w.sys.log.flatMap assigned) <;> rfl

/-- C110 at every moment: `Get` shows what the master held after some first part of the assignments it
carried out, up to the rewriting of numbers. -/
theorem C110_prefix_partial (hsnap : Repl.SetsFor 0 snap kvs)
    (h : Steps bad o cap Carried (Repl.conf 0) passed (.init n srv t calls (some Cache.new) snap) w)
    (hq : ∀ i q, .inv i q ∈ w.sys.log → SetOrGet q) :
    ∃ kp, kp <+: kvs ++ w.sys.log.flatMap assigned ∧ ∀ k u, get w u k = (answer (Repl.lastVal k kp)).map canon := by
  obtain ⟨h1, p, ⟨q, h2⟩, h3, h4⟩ := split h
  have hl := lines h1 hq
  have ha : Repl.SetsFor 0 (snap ++ Repl.forwarded (w.sys.log.flatMap passed)) (kvs ++ w.sys.log.flatMap assigned) :=
    Repl.setsFor_append hsnap (Repl.setsFor_stream (stream_of hl))
  rw [← h2] at ha
  simp only [Repl.forwarded, List.filter_append, List.map_append, ← List.append_assoc] at ha
  obtain ⟨kq, p1, p2⟩ := Repl.setsFor_prefix ha (List.prefix_append _ _)
  obtain ⟨kp, c, a, _, b, d⟩ := Repl.replica_prefix (cf := Repl.conf 0) p2 h3
  refine ⟨kp, a.trans p1, fun k u => ?_⟩
  simp only [get, Repl.Client.get, b, answer_map]
  exact d k u

theorem lastVal_mem {k y : Bytes} {l : List (Bytes × Bytes)} (h : Repl.lastVal k l = some y) : (k, y) ∈ l := by
  induction l with
  | nil => cases h
  | cons z l ih =>
    obtain ⟨j, u⟩ := z
    simp only [Repl.lastVal] at h
    cases hl : Repl.lastVal k l with
    | some w => rw [hl] at h; cases h; exact List.mem_cons_of_mem _ (ih hl)
    | none =>
      rw [hl] at h
      by_cases e : j = k
      · simp only [e, if_true, Option.some.injEq] at h; rw [e, h]; exact List.mem_cons_self
      · simp [e] at h

theorem lastVal_only {k v : Bytes} {l : List (Bytes × Bytes)} (hm : (k, v) ∈ l) (ho : ∀ v', (k, v') ∈ l → v' = v) : Repl.lastVal k l = some v := by
  induction l with
  | nil => cases hm
  | cons x l ih =>
    obtain ⟨j, u⟩ := x
    simp only [Repl.lastVal]
    cases hl : Repl.lastVal k l with
    | some y =>
      rcases List.mem_cons.1 hm with e | hm
      · rw [ho y (List.mem_cons_of_mem _ (lastVal_mem hl))]
      · rw [ih hm (fun v' h => ho v' (List.mem_cons_of_mem _ h))] at hl
        exact hl.symm
    | none =>
      rcases List.mem_cons.1 hm with e | hm
      · cases e; simp
      · rw [ih hm (fun v' h => ho v' (List.mem_cons_of_mem _ h))] at hl
        cases hl

/-- C110, a client reads its own writes once the replica has caught up: if a goroutine's `Set` of `v`
returned without error, and nobody has called `Set` with another value for that key, `Get` shows `v`
(rewritten if it is a number).  Missing: as in `C110_converges_partial`. -/
theorem C110_own_write_partial (hdb : o.database.toInt ≤ 0) (hsnap : Repl.SetsFor 0 snap kvs)
    (hsrv : ∀ k u, shown (srv.dbs 0) u k = answer (Repl.lastVal k kvs))
    (h : Steps bad o cap Carried (Repl.conf 0) passed (.init n srv t calls (some Cache.new) snap) w)
    (hq : ∀ i q, .inv i q ∈ w.sys.log → SetOrGet q) (hc : CaughtUp w)
    {pre post : List Many.Event} {i c : Nat} {k v : Bytes} {x : Client.Val} (hl : w.sys.log = pre ++ .ret i c (some ⟨x, none⟩) :: post)
    (hmine : ∃ X, pre.filter (Many.byThread i) = X ++ [.inv i (.set k v), .send i c (.set k v)])
    (honly : ∀ j v', .inv j (.set k v') ∈ w.sys.log → v' = v) (u : Int) : get w u k = .ok (canon v) := by
  obtain ⟨h1, _⟩ := split h
  have hL := lines h1 hq
  rw [C110_converges_partial hdb hsnap hsrv h hq hc]
  obtain ⟨ls, w', hS, _⟩ := Many.C106_sequential_partial h1
  rw [(served_store hdb hsrv hS hL).2, lastVal_append]
  obtain ⟨X, hX⟩ := hmine
  obtain ⟨q, ⟨Y, hY⟩, hcase⟩ := Many.C106_own_reply_partial h1 hl
  have hqe : q = .set k v := by
    rw [hX] at hY
    have := List.append_inj_right' hY (by simp)
    simp at this
    exact this.symm
  subst hqe
  have hok : ∀ m, some (⟨x, none⟩ : Client.Out Client.Val) = result bad (.set k v) (.ok m) → m = .simple b!"OK" := by
    intro m hm
    simp only [result, Client.exec] at hm
    cases m with
    | simple s =>
      by_cases e : s = b!"OK"
      · rw [e]
      · simp [parseOK, e] at hm
    | _ => simp [parseOK] at hm
  have hrun : ∃ u, Many.Event.run c u (args (.set k v)) (.simple b!"OK") ∈ w.sys.log := by
    rcases hcase with ⟨X, u, m, e, ho⟩ | ⟨X, u, m, e, ho⟩ | ⟨_, ho, _⟩
    · have hm : Many.Event.run c u (args (.set k v)) m ∈ pre := (List.mem_filter.1 (by rw [e]; simp)).1
      rw [hok m ho] at hm
      exact ⟨u, by rw [hl]; simp [hm]⟩
    · have hm : Many.Event.run c u (args (.set k v)) m ∈ pre := (List.mem_filter.1 (by rw [e]; simp)).1
      rw [hok m ho] at hm
      exact ⟨u, by rw [hl]; simp [hm]⟩
    · simp [result, Client.exec] at ho
  have hmem : (k, v) ∈ w.sys.log.flatMap assigned := by
    obtain ⟨u, hu⟩ := hrun
    refine List.mem_flatMap.2 ⟨_, hu, ?_⟩
    simp only [args, assigned]
    rw [if_pos ⟨by decide +kernel, trivial⟩]; simp
  have honly' : ∀ v', (k, v') ∈ w.sys.log.flatMap assigned → v' = v := by
    intro v' hv'
    obtain ⟨e, he, hm⟩ := List.mem_flatMap.1 hv'
    cases e with
    | run c u line m =>
      obtain ⟨A, B, e⟩ := List.append_of_mem he
      obtain ⟨i, q, _, k2, rfl⟩ := Many.C106_executed_was_called_partial h1 e
      have hin : Many.Event.inv i q ∈ w.sys.log := by rw [e]; simp [k2]
      rcases hq i q hin with ⟨a, b, rfl⟩ | ⟨a, rfl⟩
      · simp only [args, assigned] at hm
        split at hm
        · simp at hm
          obtain ⟨rfl, rfl⟩ := hm
          exact honly i _ hin
        · cases hm
      · simp [args, assigned] at hm
    | _ => cases hm
  rw [lastVal_only hmem honly']
  rfl

/-- C110, progress: as long as the connection to the master stands, the replica can catch up without
any further move of the remote side. -/
theorem C110_can_catch_up_partial (hsnap : Repl.SetsFor 0 snap kvs)
    (h : Steps bad o cap Carried (Repl.conf 0) passed (.init n srv t calls (some Cache.new) snap) w)
    (hq : ∀ i q, .inv i q ∈ w.sys.log → SetOrGet q) (ho : Linked w) :
    ∃ r, Steps bad o cap Carried (Repl.conf 0) passed w { w with rep := r } ∧ CaughtUp { w with rep := r } := by
  obtain ⟨h1, p, _, h3, h4⟩ := split h
  have hp := h4 ho
  subst hp
  have hl := lines h1 hq
  have ha : Repl.SetsFor 0 (snap ++ Repl.forwarded (w.sys.log.flatMap passed)) (kvs ++ w.sys.log.flatMap assigned) :=
    Repl.setsFor_append hsnap (Repl.setsFor_stream (stream_of hl))
  obtain ⟨r, g1, ⟨g2, g3, g5⟩, g4⟩ := Repl.C79_can_catch_up_partial (Repl.conf 0) (by decide) Cache.new snap _ (Repl.setsFor_good ha) w.rep h3
    (by rcases ho.2 with ⟨_, e⟩ | ⟨_, e⟩ <;> rw [e] <;> exact ⟨by simp, by simp⟩)
  refine ⟨r, ?_, ho.1, g2, g3, g4⟩
  clear g2 g3 g4 g5
  induction g1 with
  | refl => exact .refl
  | tail _ hs ih => exact ih.tail (.replica hs)

theorem feed_feed (p q : List Msg) (r : Repl.State) : feed q (feed p r) = feed (p ++ q) r := by
  obtain ⟨msgs, closed, errs, hand, main, recv, ack, cache, crashed, taken⟩ := r
  cases recv <;> simp [feed, feedR]

/-- Every run of the remote side is part of a run of the whole. -/
theorem with_replica {s : Many.Sys} {c : Repl.Local} (h : Many.Runs bad o cap P (Many.Sys.init n srv t calls) s) :
    Steps bad o cap P cf pass (.init n srv t calls c snap) ⟨s, feed (s.log.flatMap pass) (.init c snap true []), true⟩ := by
  induction h with
  | refl => exact .refl
  | snoc _ ha hact ih =>
    obtain ⟨es, he⟩ := act_log hact
    have := ih.tail (.remote ha hact he)
    simp only [State.pass, if_true] at this
    rwa [feed_feed, ← List.flatMap_append, ← he] at this

end

/-! ## Concrete runs -/

deriving instance DecidableEq for Req
deriving instance DecidableEq for Many.Event

/-- One goroutine sets one key. -/
def demoCalls : Nat → List Req
  | 0 => [.set b!"k" b!"v"]
  | _ => []

def demoActs : List Many.Act :=
  [.call 0, .get 0, .get 0, .dial 0 true whole, .get 0, .get 0, .get 0, .get 0, .send 0, .run 0 whole, .recv 0, .put 0]

/-- What is seen of it: the call, the request, its execution, the return without error. -/
def demoLog : List Many.Event :=
  [.inv 0 (.set b!"k" b!"v"), .send 0 0 (.set b!"k" b!"v"), .run 0 0 [b!"set", b!"k", b!"v"] (.simple b!"OK"), .ret 0 0 (some ⟨.text [], none⟩)]

theorem demo_runs : ∃ s, Many.Runs (fun _ => F64.zero) ⟨[], 0⟩ 1 Carried (Many.Sys.init 1 openServer 0 demoCalls) s ∧ s.log = demoLog := by
  have h : (Many.runAll (fun _ => F64.zero) ⟨[], 0⟩ 1 (Many.Sys.init 1 openServer 0 demoCalls) demoActs).map (fun s => s.log) = some demoLog := by
    decide +kernel
  obtain ⟨s, h1, h2⟩ := Option.map_eq_some_iff.1 h
  refine ⟨s, Many.runAll_runs .refl (Many.short_allowed ?_ (by decide +kernel)) h1, h2⟩
  intro a ha
  simp only [demoActs, List.mem_cons, List.not_mem_nil, or_false] at ha
  rcases ha with rfl | rfl | rfl | rfl | rfl | rfl | rfl | rfl | rfl | rfl | rfl | rfl <;> first | rfl | trivial

/-- The replica after `Load`: the assignment is still on its way. -/
def behind : Repl.State :=
  { Repl.State.init (some Cache.new) [] true [] with
    main := .returned, recv := .reading [command [b!"set", b!"k", b!"v"]], ack := .idle }

/-- The replica after that. -/
def caught : Repl.State :=
  { behind with recv := .reading [], taken := [(0, command [b!"set", b!"k", b!"v"])], cache := some (Cache.new.set b!"k" b!"v").1 }

theorem demo_behind : ∃ s, Steps (fun _ => F64.zero) ⟨[], 0⟩ 1 Carried (Repl.conf 0) passed (.init 1 openServer 0 demoCalls (some Cache.new) []) ⟨s, behind, true⟩ ∧
    s.log = demoLog := by
  obtain ⟨s, h1, h2⟩ := demo_runs
  refine ⟨s, (with_replica (cf := Repl.conf 0) (c := some Cache.new) (snap := []) h1).tail (.replica ?_), h2⟩
  rw [h2]
  exact .loaded rfl rfl rfl

/-- C110 in full is false: right after `Set` returned without error, with nobody else about, `Get` says
that the key does not exist. -/
theorem C110_violated : ¬ ∀ (w : State) (k v : Bytes),
    Steps (fun _ => F64.zero) ⟨[], 0⟩ 1 Carried (Repl.conf 0) passed (.init 1 openServer 0 demoCalls (some Cache.new) []) w →
    w.rep.main = .returned → (∃ i c x pre, w.sys.log = pre ++ [.ret i c (some ⟨x, none⟩)] ∧
      pre.filter (Many.byThread i) = [.inv i (.set k v), .send i c (.set k v)]) →
    ∀ u, get w u k = .ok (canon v) := by
  intro h
  obtain ⟨s, h1, h2⟩ := demo_behind
  have := h _ b!"k" b!"v" h1 rfl ⟨0, 0, .text [], demoLog.dropLast, by rw [h2]; decide +kernel, by decide +kernel⟩ 0
  cases this

/-- The hypotheses of the theorems are met: the replica takes the assignment and has caught up. -/
example : ∃ s, Steps (fun _ => F64.zero) ⟨[], 0⟩ 1 Carried (Repl.conf 0) passed (.init 1 openServer 0 demoCalls (some Cache.new) []) ⟨s, caught, true⟩ ∧
    s.log = demoLog ∧ CaughtUp ⟨s, caught, true⟩ ∧ (∀ i q, .inv i q ∈ s.log → SetOrGet q) ∧ Repl.SetsFor 0 [] [] ∧
    (∀ k u, shown (openServer.dbs 0) u k = answer (Repl.lastVal k [])) := by
  obtain ⟨s, h1, h2⟩ := demo_behind
  refine ⟨s, (h1.tail (.replica (.recvSend rfl rfl (by decide +kernel) (show 0 < 10000 by decide)))).tail (.replica ?_), h2, ⟨rfl, rfl, rfl, rfl⟩, ?_, .nil, fun _ _ => rfl⟩
  · exact .handled rfl rfl rfl rfl rfl
  · intro i q hm
    rw [h2] at hm
    simp [demoLog] at hm
    exact .inl ⟨_, _, hm.2⟩

/-! ## C111 -/

/-- C111, as far as it holds: when the replica has caught up, a key that `Get` does not find is one the
master does not have.  Missing: `Get` does not ask the master (`C111_violated`). -/
theorem C111_caught_up_partial {bad : Bytes → F64} {o : Opt} {cap n : Nat} {srv : Server} {t : Int} {calls : Nat → List Req}
    {snap : List Repl.Tagged} {kvs : List (Bytes × Bytes)} {w : State} (hdb : o.database.toInt ≤ 0) (hsnap : Repl.SetsFor 0 snap kvs)
    (hsrv : ∀ k u, shown (srv.dbs 0) u k = answer (Repl.lastVal k kvs))
    (h : Steps bad o cap Carried (Repl.conf 0) passed (.init n srv t calls (some Cache.new) snap) w)
    (hq : ∀ i q, .inv i q ∈ w.sys.log → SetOrGet q) (hc : CaughtUp w) (k : Bytes) (u : Int) :
    get w u k = .err .keyNil ↔ shown (w.sys.srv.dbs 0) u k = .err .keyNil := by
  rw [C110_converges_partial hdb hsnap hsrv h hq hc]
  cases shown (w.sys.srv.dbs 0) u k <;> simp [GoRes.map, GoRes.bind]

/-- C111 in full is false: the master holds `v`, `Get` says that the key does not exist. -/
theorem C111_violated : ¬ ∀ (w : State) (k v : Bytes),
    Steps (fun _ => F64.zero) ⟨[], 0⟩ 1 Carried (Repl.conf 0) passed (.init 1 openServer 0 demoCalls (some Cache.new) []) w →
    w.rep.main = .returned → ∀ u, shown (w.sys.srv.dbs 0) u k = .ok v → ∃ v', get w u k = .ok v' := by
  intro h
  obtain ⟨s, h1, h2⟩ := demo_behind
  have hr := (split h1).1
  obtain ⟨ls, x, hS, _⟩ := Many.C106_sequential_partial hr
  have hs := (served_store (kvs := []) (o := ⟨[], 0⟩) (by decide) (fun _ _ => rfl) hS (lines hr (by
    intro i q hm
    rw [show (State.mk s behind true).sys.log = demoLog from h2] at hm
    simp [demoLog] at hm
    exact .inl ⟨_, _, hm.2⟩))).2 b!"k" 0
  rw [show (State.mk s behind true).sys.log = demoLog from h2] at hs
  obtain ⟨v', hv⟩ := h _ b!"k" b!"v" h1 rfl 0 (hs.trans (by decide +kernel))
  cases hv

/-! ## C112 -/

section
variable {bad : Bytes → F64} {o : Opt} {cap : Nat} {P : Cut → Msg → Prop} {cf : Repl.Conf} {pass : Many.Event → List Msg}
variable {n : Nat} {srv : Server} {t : Int} {calls : Nat → List Req} {snap : List Repl.Tagged} {kvs : List (Bytes × Bytes)} {w w' : State}

/-- A lost connection is never made again, and the replica is sent nothing more. -/
theorem lost_for_good {c : Repl.Local} (h : Steps bad o cap P cf pass (.init n srv t calls c snap) w) (hl : ¬ Linked w) (h' : Steps bad o cap P cf pass w w') :
    ¬ Linked w' ∧ ∃ p, p <+: w.sys.log.flatMap pass ∧ Repl.Steps cf (.init c snap true p) w'.rep := by
  induction h' with
  | refl =>
    obtain ⟨_, p, h2, h3, _⟩ := split h
    exact ⟨hl, p, h2, h3⟩
  | @tail x y _ hs ih =>
    obtain ⟨h1, p, h2, h3⟩ := ih
    refine ⟨fun hy => h1 (linked_back hs hy), ?_⟩
    cases hs with
    | @remote a s es ha hact he => simp only [pass_unlinked h1]; exact ⟨p, h2, h3⟩
    | replica hr => exact ⟨p, h2, h3.tail hr⟩
    | @cut l l' hl' hp =>
      obtain ⟨q, rfl⟩ := hp
      obtain ⟨p', rfl, h5⟩ := unfeed_steps (r := .reading l') h3 hl' (.inr ⟨_, rfl⟩)
      exact ⟨p', (List.prefix_append _ _).trans h2, h5⟩
    | @cutEarly l l' hl' hp =>
      obtain ⟨q, rfl⟩ := hp
      obtain ⟨p', rfl, h5⟩ := unfeed_steps (r := .off l') h3 hl' (.inl ⟨_, rfl⟩)
      exact ⟨p', (List.prefix_append _ _).trans h2, h5⟩

/-- C112 is false in every case, not only in one: once the connection over which the master passes on
is lost, nothing that is set afterwards is ever shown, whatever happens later.  `Get` keeps showing
what the master held after some first part of the assignments made before the loss. -/
theorem C112_lost_for_good (hsnap : Repl.SetsFor 0 snap kvs)
    (h : Steps bad o cap Carried (Repl.conf 0) passed (.init n srv t calls (some Cache.new) snap) w)
    (hq : ∀ i q, .inv i q ∈ w.sys.log → SetOrGet q) (hl : ¬ Linked w) (h' : Steps bad o cap Carried (Repl.conf 0) passed w w') :
    ∃ kp, kp <+: kvs ++ w.sys.log.flatMap assigned ∧ ∀ k u, get w' u k = (answer (Repl.lastVal k kp)).map canon := by
  have hL := lines (split h).1 hq
  obtain ⟨_, p, ⟨q, h2⟩, h3⟩ := lost_for_good h hl h'
  have ha : Repl.SetsFor 0 (snap ++ Repl.forwarded (w.sys.log.flatMap passed)) (kvs ++ w.sys.log.flatMap assigned) :=
    Repl.setsFor_append hsnap (Repl.setsFor_stream (stream_of hL))
  rw [← h2] at ha
  simp only [Repl.forwarded, List.filter_append, List.map_append, ← List.append_assoc] at ha
  obtain ⟨kq, p1, p2⟩ := Repl.setsFor_prefix ha (List.prefix_append _ _)
  obtain ⟨kp, c, a, _, b, d⟩ := Repl.replica_prefix (cf := Repl.conf 0) p2 h3
  refine ⟨kp, a.trans p1, fun k u => ?_⟩
  simp only [get, Repl.Client.get, b, answer_map]
  exact d k u

/-- The connection is lost, and what had arrived was taken. -/
def Settled (w : State) : Prop :=
  ¬ Linked w ∧ w.rep.msgs = [] ∧ w.rep.main = .returned ∧ (w.rep.recv = .reading [] ∨ w.rep.recv = .closing ∨ w.rep.recv = .done)

theorem settled_step {x y : State} (h : Step bad o cap P cf pass x y) (hx : Settled x) : Settled y ∧ y.rep.cache = x.rep.cache := by
  obtain ⟨h1, h2, h3, h4⟩ := hx
  have h0 : ¬ Linked y := fun hy => h1 (linked_back h hy)
  refine ⟨⟨h0, ?_⟩, ?_⟩ <;> cases h with
  | @remote a s es ha hact he => first | exact congrArg Repl.State.cache (pass_unlinked h1 es) | (simp only [pass_unlinked h1]; exact ⟨h2, h3, h4⟩)
  | @replica r hr =>
    cases hr with
    | skip _ _ e | handled _ _ e | failed _ _ e | crash _ _ e => cases h2.symm.trans e
    | zeroSkip | report | drain | ackFailed | ackReport => first | exact ⟨h2, h3, h4⟩ | rfl
    | zeroFailed _ _ _ _ _ e => first | exact ⟨h2, h3, h4⟩ | (simp only [Repl.handle, Prod.mk.injEq] at e; exact e.2.symm)
    | load _ e | loadFailed _ e | loaded _ e => cases h3.symm.trans e
    | recvPing _ e | recvSend _ e => rcases h4 with h4 | h4 | h4 <;> cases h4.symm.trans e
    | recvErr => first | exact ⟨h2, h3, .inr (.inl rfl)⟩ | rfl
    | close => first | exact ⟨h2, h3, .inr (.inr rfl)⟩ | rfl
  | cut e hp =>
    rcases h4 with h4 | h4 | h4 <;> cases h4.symm.trans e
    first | rfl | (rw [List.prefix_nil] at hp; subst hp; exact ⟨h2, h3, .inl rfl⟩)
  | cutEarly e _ => rcases h4 with h4 | h4 | h4 <;> cases h4.symm.trans e

/-- When the connection is lost and what had arrived was taken, no call of `Get` will ever give another
answer, except that a deadline may pass. -/
theorem C112_settled (hs : Settled w) (h : Steps bad o cap P cf pass w w') : ∀ k u, get w' u k = get w u k := by
  have : Settled w' ∧ w'.rep.cache = w.rep.cache := by
    induction h with
    | refl => exact ⟨hs, rfl⟩
    | tail _ st ih =>
      obtain ⟨a, b⟩ := settled_step st ih.1
      exact ⟨a, b.trans ih.2⟩
  intro k u
  simp only [get, this.2]

end

/-- The connection is lost before the assignment has arrived. -/
def missed : Repl.State := { behind with recv := .reading [] }

theorem demo_missed : ∃ s, Steps (fun _ => F64.zero) ⟨[], 0⟩ 1 Carried (Repl.conf 0) passed (.init 1 openServer 0 demoCalls (some Cache.new) []) ⟨s, missed, false⟩ ∧
    s.log = demoLog ∧ Settled ⟨s, missed, false⟩ := by
  obtain ⟨s, h1, h2⟩ := demo_behind
  exact ⟨s, h1.tail (.cut (w := ⟨s, behind, true⟩) rfl (List.nil_prefix)), h2, (fun h => by cases h.1), rfl, rfl, .inl rfl⟩

/-- C112 in full is false: a connection is lost, and from then on, however long one waits, `Get` says
that a key does not exist which the master holds. -/
theorem C112_violated : ∃ w : State,
    Steps (fun _ => F64.zero) ⟨[], 0⟩ 1 Carried (Repl.conf 0) passed (.init 1 openServer 0 demoCalls (some Cache.new) []) w ∧
    shown (w.sys.srv.dbs 0) 0 b!"k" = .ok b!"v" ∧
    ∀ w' u, Steps (fun _ => F64.zero) ⟨[], 0⟩ 1 Carried (Repl.conf 0) passed w w' → get w' u b!"k" = .err .keyNil := by
  obtain ⟨s, h1, h2, h3⟩ := demo_missed
  refine ⟨_, h1, ?_, fun w' u h => (C112_settled h3 h b!"k" u).trans rfl⟩
  have hr := (split h1).1
  obtain ⟨ls, x, hS, _⟩ := Many.C106_sequential_partial hr
  have hs := (served_store (kvs := []) (o := ⟨[], 0⟩) (by decide) (fun _ _ => rfl) hS (lines hr (by
    intro i q hm
    rw [show (State.mk s missed false).sys.log = demoLog from h2] at hm
    simp [demoLog] at hm
    exact .inl ⟨_, _, hm.2⟩))).2 b!"k" 0
  rw [show (State.mk s missed false).sys.log = demoLog from h2] at hs
  exact hs.trans (by decide +kernel)

end Verif.Whole

import Verif.Repl.PropsExact
/-!
# C77 exactly: when the handler can block itself
-/
namespace Verif.Repl

open Verif.Resp

/-- What can reach the handler: the messages of the snapshot and, if it loads, the commands behind it. -/
def offered (snap : List Tagged) (good : Bool) (stream : List Msg) : List Tagged :=
  snap ++ (if good then forwarded stream else [])

/-! ## Only if -/

/-- What holds in every reachable state, about the errors reported and the messages taken. -/
structure Past (db : Int64) (c0 : Local) (snap : List Tagged) (good : Bool) (stream : List Msg) (s : State) : Prop where
  usable : s.cache.isSome = c0.isSome
  room : s.msgs.length ≤ 10000
  loading : ∀ rest g, s.main = .loading rest g → g = good
  returned : s.main = .returned → good = true ∧ snap.length ≤ s.taken.length + 10000
  quiet : s.main ≠ .returned → s.ack = .off ∧ s.closed = false ∧ s.recv = .off stream ∧
    ∃ l : List Tagged, l.Sublist s.taken ∧ (∀ x ∈ l, Refuses db c0 x) ∧ s.errs + (if s.hand = .report then 1 else 0) ≤ l.length
  alive : s.crashed = false → ∀ x ∈ s.taken, ¬ Panics db c0 x
  crashed : s.crashed = true → s.hand = .loop
  report : s.hand = .report → (∃ a x, s.taken = a ++ [x] ∧ Refuses db c0 x) ∨ (db = 0 ∧ s.closed = true ∧ s.msgs = [])

theorem past_init (db : Int64) (c0 : Local) (snap : List Tagged) (good : Bool) (stream : List Msg) :
    Past db c0 snap good stream (.init c0 snap good stream) where
  usable := rfl
  room := by simp [State.init]
  loading := by intro rest g h; cases h; rfl
  returned := by intro h; cases h
  quiet := fun _ => ⟨rfl, rfl, rfl, [], List.Sublist.refl _, by simp, by simp [State.init]⟩
  alive := by simp [State.init]
  crashed := by simp [State.init]
  report := by simp [State.init]

theorem past_step {db : Int64} {c0 : Local} {snap : List Tagged} {good : Bool} {stream : List Msg} {s t : State}
    (hi : Inv (conf db) c0 (snap ++ forwarded stream) s) (hp : Past db c0 snap good stream s) (h : Step (conf db) s t) :
    Past db c0 snap good stream t := by
  have hk : ∀ m, (handle s.cache (some m)).1 = (handle c0 (some m)).1 := fun m => handle_kind hp.usable (some m)
  have hu : ∀ {m z c}, handle s.cache (some m) = (z, c) → c.isSome = c0.isSome := by
    intro m z c h
    have := handle_some s.cache (some m)
    rw [h] at this
    exact this.trans hp.usable
  cases h with
  | @skip d m q hc hh hm hd =>
    have hroom := hp.room
    rw [hm, List.length_cons] at hroom
    refine ⟨hp.usable, by simp only; omega, hp.loading, fun h => ?_, fun h => ?_, fun _ x hx => ?_, hp.crashed, fun h => ?_⟩
    · obtain ⟨a, b⟩ := hp.returned h
      exact ⟨a, by simp only [List.length_append]; omega⟩
    · obtain ⟨a, b, c, l, d1, d2, d3⟩ := hp.quiet h
      exact ⟨a, b, c, l, d1.trans (List.sublist_append_left _ _), d2, d3⟩
    · rcases List.mem_append.mp hx with hx | hx
      · exact hp.alive hc x hx
      · simp only [List.mem_singleton] at hx
        subst hx
        exact fun h => hd h.1
    · simp only at h; rw [hh] at h; cases h
  | @handled d m q c hc hh hm hd hr =>
    have hroom := hp.room
    rw [hm, List.length_cons] at hroom
    refine ⟨hu hr, by simp only; omega, hp.loading, fun h => ?_, fun h => ?_, fun _ x hx => ?_, hp.crashed, fun h => ?_⟩
    · obtain ⟨a, b⟩ := hp.returned h
      exact ⟨a, by simp only [List.length_append]; omega⟩
    · obtain ⟨a, b, c, l, d1, d2, d3⟩ := hp.quiet h
      exact ⟨a, b, c, l, d1.trans (List.sublist_append_left _ _), d2, d3⟩
    · rcases List.mem_append.mp hx with hx | hx
      · exact hp.alive hc x hx
      · simp only [List.mem_singleton] at hx
        subst hx
        intro h
        have := h.2
        rw [← hk, hr] at this
        cases this
    · simp only at h; rw [hh] at h; cases h
  | @failed d m q c e hc hh hm hd hr =>
    have hroom := hp.room
    rw [hm, List.length_cons] at hroom
    have hx : Refuses db c0 (d, m) := ⟨hd, e, by rw [← hk, hr]⟩
    refine ⟨hu hr, by simp only; omega, hp.loading, fun h => ?_, fun h => ?_, fun _ x hx => ?_, fun h => ?_, fun h => .inl ⟨_, _, rfl, hx⟩⟩
    · obtain ⟨a, b⟩ := hp.returned h
      exact ⟨a, by simp only [List.length_append]; omega⟩
    · obtain ⟨a, b, c, l, d1, d2, d3⟩ := hp.quiet h
      refine ⟨a, b, c, l ++ [(d, m)], d1.append (List.Sublist.refl _), ?_, ?_⟩
      · intro x hx'
        rcases List.mem_append.mp hx' with hx' | hx'
        · exact d2 x hx'
        · simp only [List.mem_singleton] at hx'
          subst hx'
          exact hx
      · rw [hh] at d3
        simpa using d3
    · rcases List.mem_append.mp hx with hx | hx
      · exact hp.alive hc x hx
      · simp only [List.mem_singleton] at hx
        subst hx
        intro h
        have := h.2
        rw [← hk, hr] at this
        cases this
    · simp only at h; rw [hc] at h; cases h
  | @crash d m q c hc hh hm hd hr =>
    have hroom := hp.room
    rw [hm, List.length_cons] at hroom
    refine ⟨hu hr, by simp only; omega, hp.loading, fun h => ?_, fun h => ?_, fun h => ?_, fun h => hh, fun h => ?_⟩
    · obtain ⟨a, b⟩ := hp.returned h
      exact ⟨a, by simp only [List.length_append]; omega⟩
    · obtain ⟨a, b, c, l, d1, d2, d3⟩ := hp.quiet h
      exact ⟨a, b, c, l, d1.trans (List.sublist_append_left _ _), d2, d3⟩
    · cases h
    · simp only at h; rw [hh] at h; cases h
  | zeroSkip => exact hp
  | @zeroFailed c e hc hh hm hcl hd hr =>
    simp only [handle, Prod.mk.injEq] at hr
    refine ⟨by rw [← hr.2]; exact hp.usable, hp.room, hp.loading, hp.returned, fun h => ?_, hp.alive, fun h => ?_, fun _ => .inr ⟨hd.symm, hcl, hm⟩⟩
    · have := (hp.quiet h).2.1
      rw [hcl] at this
      cases this
    · simp only at h; rw [hc] at h; cases h
  | report hc hh hl =>
    refine ⟨hp.usable, hp.room, hp.loading, hp.returned, fun h => ?_, hp.alive, fun h => rfl, fun h => (by cases h)⟩
    obtain ⟨a, b, c, l, d1, d2, d3⟩ := hp.quiet h
    refine ⟨a, b, c, l, d1, d2, ?_⟩
    rw [hh] at d3
    simpa using d3
  | drain hc hh hn =>
    refine ⟨hp.usable, hp.room, hp.loading, hp.returned, fun h => ?_, hp.alive, hp.crashed, hp.report⟩
    obtain ⟨a, b, c, l, d1, d2, d3⟩ := hp.quiet h
    refine ⟨a, b, c, l, d1, d2, ?_⟩
    rw [hn] at d3
    simp only
    omega
  | @load x rest g hc hm hl =>
    refine ⟨hp.usable, ?_, fun r g' h => ?_, fun h => (by cases h), fun _ => ?_, hp.alive, hp.crashed, fun h => ?_⟩
    · simp only [conf] at hl
      simp only [List.length_append, List.length_singleton]
      omega
    · cases h
      exact hp.loading _ _ hm
    · exact hp.quiet (by rw [hm]; simp)
    · rcases hp.report h with h | h
      · exact .inl h
      · have := (hp.quiet (by rw [hm]; simp)).2.1
        rw [h.2.1] at this
        cases this
  | loadFailed hc hm =>
    exact ⟨hp.usable, hp.room, fun _ _ h => (by cases h), fun h => (by cases h), fun _ => hp.quiet (by rw [hm]; simp), hp.alive, hp.crashed, hp.report⟩
  | @loaded st hc hm hr =>
    refine ⟨hp.usable, hp.room, fun _ _ h => (by cases h), fun _ => ⟨(hp.loading _ _ hm).symm, ?_⟩, fun h => absurd rfl h, hp.alive, hp.crashed, hp.report⟩
    have h1 := hi.fifo
    have h2 := (hp.quiet (by rw [hm]; simp)).2.2.1
    simp only [State.pending, hm, h2, List.nil_append] at h1
    have h1 := congrArg List.length (List.append_cancel_right h1)
    have := hp.room
    simp only [List.length_append] at h1
    simp only
    omega
  | recvPing hc hr =>
    have no : s.main = .returned := by
      apply Classical.byContradiction
      intro h
      have := (hp.quiet h).2.2.1
      rw [hr] at this
      cases this
    exact ⟨hp.usable, hp.room, hp.loading, hp.returned, fun h => absurd no h, hp.alive, hp.crashed, hp.report⟩
  | recvSend hc hr hb hl =>
    have no : s.main = .returned := by
      apply Classical.byContradiction
      intro h
      have := (hp.quiet h).2.2.1
      rw [hr] at this
      cases this
    refine ⟨hp.usable, ?_, hp.loading, hp.returned, fun h => absurd no h, hp.alive, hp.crashed, fun h => ?_⟩
    · simp only [conf] at hl
      simp only [List.length_append, List.length_singleton]
      omega
    · rcases hp.report h with h | h
      · exact .inl h
      · have := hi.notClosed h.2.1
        rw [hr] at this
        cases this
  | recvErr hc hr hl =>
    have no : s.main = .returned := by
      apply Classical.byContradiction
      intro h
      have := (hp.quiet h).2.2.1
      rw [hr] at this
      cases this
    exact ⟨hp.usable, hp.room, hp.loading, hp.returned, fun h => absurd no h, hp.alive, hp.crashed, hp.report⟩
  | close hc hr =>
    have no : s.main = .returned := by
      apply Classical.byContradiction
      intro h
      have := (hp.quiet h).2.2.1
      rw [hr] at this
      cases this
    exact ⟨hp.usable, hp.room, hp.loading, hp.returned, fun h => absurd no h, hp.alive, hp.crashed,
      fun h => (hp.report h).imp id fun h => ⟨h.1, rfl, h.2.2⟩⟩
  | ackFailed hc ha =>
    have no : s.main = .returned := by
      apply Classical.byContradiction
      intro h
      have := (hp.quiet h).1
      rw [ha] at this
      cases this
    exact ⟨hp.usable, hp.room, hp.loading, hp.returned, fun h => absurd no h, hp.alive, hp.crashed, hp.report⟩
  | ackReport hc ha =>
    have no : s.main = .returned := by
      apply Classical.byContradiction
      intro h
      have := (hp.quiet h).1
      rw [ha] at this
      cases this
    exact ⟨hp.usable, hp.room, hp.loading, hp.returned, fun h => absurd no h, hp.alive, hp.crashed, hp.report⟩

theorem past_steps {db : Int64} {c0 : Local} {snap : List Tagged} {good : Bool} {stream : List Msg} {s t : State}
    (hi : Inv (conf db) c0 (snap ++ forwarded stream) s) (hp : Past db c0 snap good stream s) (h : Steps (conf db) s t) :
    Past db c0 snap good stream t := by
  induction h with
  | refl => exact hp
  | tail hs hst ih => exact past_step (inv_steps hi hs) ih hst

/-- What can reach the handler begins with what it took. -/
theorem taken_offered {db : Int64} {c0 : Local} {snap : List Tagged} {good : Bool} {stream : List Msg} {s : State}
    (hi : Inv (conf db) c0 (snap ++ forwarded stream) s) (hp : Past db c0 snap good stream s) :
    s.taken <+: offered snap good stream := by
  have h := hi.fifo
  by_cases hm : s.main = .returned
  · rw [offered, (hp.returned hm).1, if_pos rfl, ← h, List.append_assoc]
    exact List.prefix_append _ _
  · have hr := (hp.quiet hm).2.2.1
    simp only [State.pending, hr] at h
    rw [← List.append_assoc] at h
    have h := List.append_cancel_right h
    rw [offered, ← h, List.append_assoc, List.append_assoc]
    exact List.prefix_append _ _

/-! ## If -/

/-- A state between two messages, or with one message on its way. -/
structure At (c0 : Local) (snap : List Tagged) (good : Bool) (stream : List Msg) (q : List Tagged) (e : Nat) (h : HPC)
    (tk todo : List Tagged) (s : State) : Prop where
  msgs : s.msgs = q
  closed : s.closed = false
  errs : s.errs = e
  hand : s.hand = h
  crashed : s.crashed = false
  usable : s.cache.isSome = c0.isSome
  taken : s.taken = tk
  place : (∃ rest, s.main = .loading rest good ∧ s.recv = .off stream ∧ s.ack = .off ∧ tk ++ q ++ rest = snap ∧
      todo = rest ++ (if good then forwarded stream else [])) ∨
    (∃ st, good = true ∧ s.main = .returned ∧ s.recv = .reading st ∧ s.ack = .idle ∧ todo = forwarded st)

section
variable {db : Int64} {c0 : Local} {snap : List Tagged} {good : Bool} {stream : List Msg}

theorem Steps.one {cf : Conf} {s t : State} (h : Step cf s t) : Steps cf s t := Steps.refl.tail h

/-- Once `New` has returned. -/
theorem at_return {e : Nat} {h : HPC} {q tk todo : List Tagged} {s : State} (ha : At c0 snap good stream q e h tk todo s) (hg : good = true)
    (hl : ∀ rest, s.main = .loading rest good → q.length + rest.length ≤ 10000) :
    ∃ s' q', Steps (conf db) s s' ∧ At c0 snap good stream q' e h tk (todo.drop (q'.length - q.length)) s' ∧ s'.main = .returned ∧
      (∀ rest, s.main = .loading rest good → q' = q ++ rest) ∧ (s.main = .returned → q' = q) := by
  rcases ha.place with ⟨rest, p1, p2, p3, p4, p5⟩ | ⟨st, p0, p1, p2, p3, p4⟩
  · subst hg
    have hl := hl rest p1
    have key : ∀ (rest q todo : List Tagged) (s : State), At c0 snap true stream q e h tk todo s → s.main = .loading rest true →
        s.recv = .off stream → s.ack = .off → q.length + rest.length ≤ 10000 → todo = rest ++ forwarded stream →
        ∃ s', Steps (conf db) s s' ∧ At c0 snap true stream (q ++ rest) e h tk (forwarded stream) s' ∧ s'.main = .returned := by
      intro rest
      induction rest with
      | nil =>
        intro q todo s ha hm hr hk hl ht
        refine ⟨_, .one (.loaded ha.crashed hm hr), ?_, rfl⟩
        rw [List.append_nil]
        exact ⟨ha.msgs, ha.closed, ha.errs, ha.hand, ha.crashed, ha.usable, ha.taken, .inr ⟨stream, rfl, rfl, rfl, rfl, rfl⟩⟩
      | cons x rest ih =>
        intro q todo s ha hm hr hk hl ht
        simp only [List.length_cons] at hl
        have h1 : Step (conf db) s { s with msgs := s.msgs ++ [x], main := .loading rest true } :=
          .load ha.crashed hm (by rw [ha.msgs]; simp only [conf]; omega)
        have h4 : tk ++ q ++ (x :: rest) = snap := by
          rcases ha.place with ⟨r, a1, _, _, a4, _⟩ | ⟨_, _, a1, _⟩
          · rw [hm] at a1; cases a1; exact a4
          · rw [hm] at a1; cases a1
        obtain ⟨s', g1, g2, g3⟩ := ih (q ++ [x]) (rest ++ forwarded stream) { s with msgs := s.msgs ++ [x], main := .loading rest true }
          ⟨by rw [ha.msgs], ha.closed, ha.errs, ha.hand, ha.crashed, ha.usable, ha.taken,
            .inl ⟨rest, rfl, hr, hk, by rw [← h4]; simp, rfl⟩⟩ rfl hr hk (by simp; omega) rfl
        refine ⟨s', (Steps.one h1).trans g1, by simpa using g2, g3⟩
    obtain ⟨s', g1, g2, g3⟩ := key rest q todo s ha p1 p2 p3 hl p5
    refine ⟨s', q ++ rest, g1, ?_, g3, ?_, fun h => (by rw [p1] at h; cases h)⟩
    · have : todo.drop ((q ++ rest).length - q.length) = forwarded stream := by
        rw [p5, List.length_append, Nat.add_sub_cancel_left, if_pos rfl, List.drop_left]
      rw [this]; exact g2
    · intro r hr; rw [p1] at hr; cases hr; rfl
  · exact ⟨s, q, .refl, by simpa using ha, p1, fun r hr => (by rw [p1] at hr; cases hr), fun _ => rfl⟩

/-- The next message gets on its way. -/
theorem at_send {e : Nat} {h : HPC} {tk todo : List Tagged} {x : Tagged} {s : State} (ha : At c0 snap good stream [] e h tk (x :: todo) s) :
    ∃ s', Steps (conf db) s s' ∧ At c0 snap good stream [x] e h tk todo s' := by
  have ret : ∀ (st : List Msg) (s : State), At c0 snap good stream [] e h tk (x :: todo) s → s.main = .returned → s.recv = .reading st →
      s.ack = .idle → good = true → forwarded st = x :: todo → ∃ s', Steps (conf db) s s' ∧ At c0 snap good stream [x] e h tk todo s' := by
    intro st
    induction st with
    | nil => intro s _ _ _ _ _ hf; simp [forwarded] at hf
    | cons m st ih =>
      intro s ha hm hr hk hg hf
      cases hp : isPing m with
      | true =>
        have hf' : forwarded st = x :: todo := by simpa [forwarded, hp] using hf
        obtain ⟨s', g1, g2⟩ := ih { s with recv := .reading st }
          ⟨ha.msgs, ha.closed, ha.errs, ha.hand, ha.crashed, ha.usable, ha.taken, .inr ⟨st, hg, hm, rfl, hk, hf'.symm⟩⟩ hm rfl hk hg hf'
        exact ⟨s', (Steps.one (.recvPing ha.crashed hr hp)).trans g1, g2⟩
      | false =>
        have hf' : (0, m) :: forwarded st = x :: todo := by simpa [forwarded, hp] using hf
        injection hf' with h1 h2
        refine ⟨_, .one (.recvSend ha.crashed hr hp (by rw [ha.msgs]; simp [conf])), ?_⟩
        exact ⟨by rw [ha.msgs, ← h1]; rfl, ha.closed, ha.errs, ha.hand, ha.crashed, ha.usable, ha.taken, .inr ⟨st, hg, hm, rfl, hk, h2.symm⟩⟩
  rcases ha.place with ⟨rest, p1, p2, p3, p4, p5⟩ | ⟨st, p0, p1, p2, p3, p4⟩
  · cases rest with
    | nil =>
      cases good with
      | false => simp at p5
      | true =>
        have h1 : Step (conf db) s { s with main := .returned, recv := .reading stream, ack := .idle } := .loaded ha.crashed p1 p2
        have hf : forwarded stream = x :: todo := by simpa using p5.symm
        obtain ⟨s', g1, g2⟩ := ret stream { s with main := .returned, recv := .reading stream, ack := .idle }
          ⟨ha.msgs, ha.closed, ha.errs, ha.hand, ha.crashed, ha.usable, ha.taken, .inr ⟨stream, rfl, rfl, rfl, rfl, hf.symm⟩⟩ rfl rfl rfl rfl hf
        exact ⟨s', (Steps.one h1).trans g1, g2⟩
    | cons y rest =>
      have h5 : x = y ∧ todo = rest ++ (if good then forwarded stream else []) := by simpa using p5
      obtain ⟨rfl, h5⟩ := h5
      refine ⟨_, .one (.load ha.crashed p1 (by rw [ha.msgs]; simp [conf])), ?_⟩
      exact ⟨by rw [ha.msgs]; rfl, ha.closed, ha.errs, ha.hand, ha.crashed, ha.usable, ha.taken,
        .inl ⟨rest, rfl, p2, p3, by rw [← p4]; simp, h5⟩⟩
  · exact ret st s ha p1 p2 p3 p0 p4.symm

/-- The place does not depend on which side of the channel a message is. -/
theorem at_took {e e' : Nat} {h h' : HPC} {tk todo : List Tagged} {x : Tagged} {s s' : State} (ha : At c0 snap good stream [x] e h tk todo s)
    (h1 : s'.msgs = []) (h2 : s'.closed = s.closed) (h3 : s'.errs = e') (h4 : s'.hand = h') (h5 : s'.crashed = false)
    (h6 : s'.cache.isSome = c0.isSome) (h7 : s'.taken = tk ++ [x]) (h8 : s'.main = s.main) (h9 : s'.recv = s.recv) (h10 : s'.ack = s.ack) :
    At c0 snap good stream [] e' h' (tk ++ [x]) todo s' := by
  refine ⟨h1, h2.trans ha.closed, h3, h4, h5, h6, h7, ?_⟩
  rw [h8, h9, h10, List.append_nil]
  exact ha.place

/-- The handler takes the next message, and it is not refused. -/
theorem at_clean {e : Nat} {tk todo : List Tagged} {x : Tagged} {s : State} (ha : At c0 snap good stream [] e .loop tk (x :: todo) s)
    (hp : ¬ Panics db c0 x) (hr : ¬ Refuses db c0 x) :
    ∃ s', Steps (conf db) s s' ∧ At c0 snap good stream [] e .loop (tk ++ [x]) todo s' := by
  obtain ⟨s1, h1, ha⟩ := at_send (db := db) ha
  obtain ⟨d, m⟩ := x
  by_cases hd : d = db
  · rcases hx : handle s1.cache (some m) with ⟨z, c1⟩
    have hk := handle_kind ha.usable (some m)
    have hs := handle_some s1.cache (some m)
    rw [hx] at hk hs
    cases z with
    | ok u =>
      exact ⟨_, h1.tail (.handled ha.crashed ha.hand ha.msgs hd hx),
        at_took ha rfl rfl ha.errs ha.hand ha.crashed (hs.trans ha.usable) (by rw [ha.taken]) rfl rfl rfl⟩
    | err a => exact absurd ⟨hd, a, hk.symm⟩ hr
    | panic => exact absurd ⟨hd, hk.symm⟩ hp
  · exact ⟨_, h1.tail (.skip ha.crashed ha.hand ha.msgs hd),
      at_took ha rfl rfl ha.errs ha.hand ha.crashed ha.usable (by rw [ha.taken]) rfl rfl rfl⟩

/-- The handler takes the next message, and it is refused. -/
theorem at_refused {e : Nat} {tk todo : List Tagged} {x : Tagged} {s : State} (ha : At c0 snap good stream [] e .loop tk (x :: todo) s)
    (hr : Refuses db c0 x) : ∃ s', Steps (conf db) s s' ∧ At c0 snap good stream [] e .report (tk ++ [x]) todo s' := by
  obtain ⟨s1, h1, ha⟩ := at_send (db := db) ha
  obtain ⟨d, m⟩ := x
  obtain ⟨hd, a, hr⟩ := hr
  rcases hx : handle s1.cache (some m) with ⟨z, c1⟩
  have hk := handle_kind ha.usable (some m)
  have hs := handle_some s1.cache (some m)
  rw [hx, hr] at hk
  rw [hx] at hs
  simp only at hk
  subst hk
  exact ⟨_, h1.tail (.failed ha.crashed ha.hand ha.msgs hd hx),
    at_took ha rfl rfl ha.errs rfl ha.crashed (hs.trans ha.usable) (by rw [ha.taken]) rfl rfl rfl⟩

/-- The handler reports. -/
theorem at_report {tk todo : List Tagged} {s : State} (ha : At c0 snap good stream [] 0 .report tk todo s) :
    ∃ s', Steps (conf db) s s' ∧ At c0 snap good stream [] 1 .loop tk todo s' :=
  ⟨_, .one (.report ha.crashed ha.hand (by rw [ha.errs]; simp [conf])),
    ⟨ha.msgs, ha.closed, by rw [ha.errs], rfl, ha.crashed, ha.usable, ha.taken, ha.place⟩⟩

/-- The handler reads its own report. -/
theorem at_drain {tk todo : List Tagged} {s : State} (ha : At c0 snap good stream [] 1 .loop tk todo s) :
    ∃ s', Steps (conf db) s s' ∧ At c0 snap good stream [] 0 .loop tk todo s' :=
  ⟨_, .one (.drain (n := 0) ha.crashed ha.hand ha.errs),
    ⟨ha.msgs, ha.closed, rfl, ha.hand, ha.crashed, ha.usable, ha.taken, ha.place⟩⟩

/-- The handler takes a list of messages. -/
theorem at_run {e : Nat} (pre : List Tagged) {tk todo : List Tagged} {s : State} (ha : At c0 snap good stream [] e .loop tk (pre ++ todo) s)
    (hp : ∀ x ∈ pre, ¬ Panics db c0 x) (he : e = 0 ∨ ∀ x ∈ pre, ¬ Refuses db c0 x) :
    ∃ s', Steps (conf db) s s' ∧ At c0 snap good stream [] e .loop (tk ++ pre) todo s' := by
  induction pre generalizing tk s with
  | nil => exact ⟨s, .refl, by simpa using ha⟩
  | cons x pre ih =>
    have next : ∃ s', Steps (conf db) s s' ∧ At c0 snap good stream [] e .loop (tk ++ [x]) (pre ++ todo) s' := by
      by_cases hr : Refuses db c0 x
      · obtain rfl := he.resolve_right fun h => h x (by simp) hr
        obtain ⟨s1, h1, a1⟩ := at_refused ha hr
        obtain ⟨s2, h2, a2⟩ := at_report (db := db) a1
        obtain ⟨s3, h3, a3⟩ := at_drain (db := db) a2
        exact ⟨s3, (h1.trans h2).trans h3, a3⟩
      · exact at_clean ha (hp x (by simp)) hr
    obtain ⟨s1, h1, a1⟩ := next
    obtain ⟨s2, h2, a2⟩ := ih a1 (fun y hy => hp y (by simp [hy])) (he.imp id fun h y hy => h y (by simp [hy]))
    exact ⟨s2, h1.trans h2, by simpa using a2⟩

end

theorem at_init (c0 : Local) (snap : List Tagged) (good : Bool) (stream : List Msg) :
    At c0 snap good stream [] 0 .loop [] (offered snap good stream) (.init c0 snap good stream) :=
  ⟨rfl, rfl, rfl, rfl, rfl, rfl, rfl, .inl ⟨snap, rfl, rfl, rfl, rfl, rfl⟩⟩

/-- C77, exactly where it holds: the handler can come to wait for ever for room in the channel that
only it empties, if and only if
* a message is refused after another one was, without a panic before it; or
* a message is refused without a panic before it, the snapshot loads, and at most ten thousand
  messages of the snapshot come behind it (an error of `Ack` may then be in the channel first); or
* the client is on database 0, the snapshot loads and nothing panics: the end of the connection
  alone is enough. -/
theorem C77_exact (db : Int64) (c0 : Local) (snap : List Tagged) (good : Bool) (stream : List Msg) :
    (∃ s, Steps (conf db) (.init c0 snap good stream) s ∧ Stuck (conf db) s) ↔
      (∃ a x d, offered snap good stream = a ++ x :: d ∧ (∀ y ∈ a, ¬ Panics db c0 y) ∧ Refuses db c0 x ∧
        ((∃ y ∈ a, Refuses db c0 y) ∨ (good = true ∧ snap.length ≤ a.length + 1 + 10000))) ∨
      (good = true ∧ db = 0 ∧ ∀ y ∈ snap ++ forwarded stream, ¬ Panics db c0 y) := by
  constructor
  · rintro ⟨s, h1, h2⟩
    have hi := inv_steps (inv_init (conf db) c0 snap good stream) h1
    have hp := past_steps (inv_init (conf db) c0 snap good stream) (past_init db c0 snap good stream) h1
    have hc : s.crashed = false := by
      cases hc : s.crashed with
      | false => rfl
      | true =>
        have := hp.crashed hc
        rw [h2.hand] at this
        cases this
    rcases hp.report h2.hand with ⟨a, x, e, hx⟩ | ⟨e1, e2, e3⟩
    · left
      obtain ⟨d, hd⟩ := taken_offered hi hp
      refine ⟨a, x, d, by rw [← hd, e]; simp, fun y hy => hp.alive hc y (by rw [e]; simp [hy]), hx, ?_⟩
      by_cases hm : s.main = .returned
      · refine .inr ⟨(hp.returned hm).1, ?_⟩
        have := (hp.returned hm).2
        rw [e] at this
        simpa using this
      · obtain ⟨_, _, _, l, d1, d2, d3⟩ := hp.quiet hm
        rw [h2.hand, if_pos rfl] at d3
        have hf := h2.full
        simp only [conf] at hf
        left
        apply Classical.byContradiction
        intro hn
        rw [e] at d1
        obtain ⟨l1, l2, rfl, g1, g2⟩ := List.sublist_append_iff.mp d1
        have : l1 = [] := by
          cases l1 with
          | nil => rfl
          | cons y l1 => exact absurd ⟨y, g1.subset (by simp), d2 y (by simp)⟩ hn
        subst this
        have := g2.length_le
        simp only [List.nil_append, List.length_singleton] at d3 this
        omega
    · have hr := hi.notClosed e2
      have hm : s.main = .returned := by
        apply Classical.byContradiction
        intro hm
        have := (hp.quiet hm).2.1
        rw [e2] at this
        cases this
      refine .inr ⟨(hp.returned hm).1, e1, ?_⟩
      have := hi.fifo
      simp only [State.pending, hm, hr, e3] at this
      intro y hy
      exact hp.alive hc y (by rw [← this] at hy; simpa [forwarded] using hy)
  · rintro (⟨a, x, d, h1, h2, h3, h4⟩ | ⟨rfl, rfl, h⟩)
    · rcases h4 with ⟨y, hy, hry⟩ | ⟨rfl, hl⟩
      · obtain ⟨u, a1, a2, e⟩ : ∃ u a1 a2, a = a1 ++ u :: a2 ∧ Refuses db c0 u ∧ ∀ z ∈ a2, ¬ Refuses db c0 z := by
          obtain ⟨b1, u, b2, f1, f2, f3⟩ := first_split (List.mem_reverse.mpr hy) hry
          refine ⟨u, b2.reverse, b1.reverse, ?_, f2, fun z hz => f3 z (List.mem_reverse.mp hz)⟩
          have := congrArg List.reverse f1
          simpa using this
        obtain ⟨e, hu, hz⟩ := e
        subst e
        have a0 := at_init c0 snap good stream
        rw [h1, List.append_assoc] at a0
        obtain ⟨s1, g1, a1⟩ := at_run (db := db) a1 a0 (fun z hz => h2 z (by simp [hz])) (.inl rfl)
        obtain ⟨s2, g2, a2⟩ := at_refused a1 hu
        obtain ⟨s3, g3, a3⟩ := at_report (db := db) a2
        obtain ⟨s4, g4, a4⟩ := at_run (db := db) _ a3 (fun z hz => h2 z (by simp [hz])) (.inr hz)
        obtain ⟨s5, g5, a5⟩ := at_refused a4 h3
        exact ⟨s5, (((g1.trans g2).trans g3).trans g4).trans g5, a5.hand, by rw [a5.errs]; simp [conf]⟩
      · have a0 := at_init c0 snap true stream
        rw [h1] at a0
        obtain ⟨s1, g1, a1⟩ := at_run (db := db) a a0 h2 (.inl rfl)
        obtain ⟨s2, g2, a2⟩ := at_refused a1 h3
        obtain ⟨s3, q, g3, a3, m3, _⟩ := at_return (db := db) a2 rfl (by
          intro rest hm
          rcases a2.place with ⟨r, p1, _, _, p4, _⟩ | ⟨_, _, p1, _⟩
          · rw [hm] at p1
            cases p1
            have := congrArg List.length p4
            simp only [List.length_append, List.length_nil, List.length_singleton] at this ⊢
            omega
          · rw [hm] at p1; cases p1)
        have ha : s3.ack = .idle := by
          rcases a3.place with ⟨r, p1, _⟩ | ⟨_, _, _, _, p, _⟩
          · rw [m3] at p1; cases p1
          · exact p
        refine ⟨_, (((g1.trans g2).trans g3).tail (.ackFailed a3.crashed ha)).tail (.ackReport a3.crashed rfl ?_), ?_, ?_⟩
        · simp only; rw [a3.errs]; simp [conf]
        · exact a3.hand
        · simp [conf]
    · have a0 := at_init c0 snap true stream
      have e : offered snap true stream = (snap ++ forwarded stream) ++ [] := by simp [offered]
      rw [e] at a0
      obtain ⟨s1, g1, a1⟩ := at_run (db := 0) _ a0 h (.inl rfl)
      obtain ⟨s2, q, g2, a2, m2, hq1, hq2⟩ := at_return (db := 0) a1 rfl (by
        intro rest hm
        rcases a1.place with ⟨r, p1, _, _, _, p5⟩ | ⟨_, _, p1, _⟩
        · rw [hm] at p1
          cases p1
          have : rest = [] := (List.append_eq_nil_iff.mp p5.symm).1
          subst this
          simp
        · rw [hm] at p1; cases p1)
      obtain ⟨st, hst, hf⟩ : ∃ st, s2.recv = .reading st ∧ forwarded st = [] := by
        rcases a2.place with ⟨r, p1, _⟩ | ⟨st, _, _, p, _, p'⟩
        · rw [m2] at p1; cases p1
        · exact ⟨st, p, by simpa using p'.symm⟩
      have hq : q = [] := by
        rcases a1.place with ⟨r, p1, _, _, _, p5⟩ | ⟨_, _, p1, _⟩
        · rw [hq1 r p1, (List.append_eq_nil_iff.mp p5.symm).1]; rfl
        · exact hq2 p1
      subst hq
      have skip : ∀ (st : List Msg) (s : State), s.crashed = false → s.recv = .reading st → forwarded st = [] →
          Steps (conf 0) s { s with recv := .reading [] } := by
        intro st
        induction st with
        | nil => intro s _ h _; rw [← h]; exact .refl
        | cons m st ih =>
          intro s hc hr hf
          cases hp : isPing m with
          | true =>
            have := ih { s with recv := .reading st } hc rfl (by simpa [forwarded, hp] using hf)
            exact (Steps.one (.recvPing hc hr hp)).trans this
          | false => simp [forwarded, hp] at hf
      refine ⟨_, ((((g1.trans g2).trans (skip st s2 a2.crashed hst hf)).tail (.recvErr a2.crashed rfl ?_)).tail (.close a2.crashed rfl)).tail
        (.zeroFailed (e := .notArray) a2.crashed a2.hand a2.msgs rfl rfl rfl), rfl, ?_⟩
      · simp only; rw [a2.errs]; simp [conf]
      · simp [conf]

/-- C77: a client on another database than 0 whose snapshot has no refused message never has its
handler wait for itself, whatever the stream contains. -/
theorem C77_other_database_partial (db : Int64) (hdb : db ≠ 0) (c0 : Local) (snap : List Tagged) (good : Bool) (stream : List Msg)
    (h : ∀ x ∈ snap, ¬ Refuses db c0 x) (s : State) (hs : Steps (conf db) (.init c0 snap good stream) s) : ¬ Stuck (conf db) s := by
  intro hst
  rcases (C77_exact db c0 snap good stream).mp ⟨s, hs, hst⟩ with ⟨a, x, d, h1, _, h3, _⟩ | ⟨_, h1, _⟩
  · have hx : x ∈ offered snap good stream := by rw [h1]; simp
    rcases List.mem_append.mp hx with hx | hx
    · exact h x hx h3
    · cases good with
      | false => simp at hx
      | true =>
        simp only [if_pos, forwarded, List.mem_map] at hx
        obtain ⟨m, _, rfl⟩ := hx
        exact hdb h3.1.symm
  · exact hdb h1

/-- One string key, then two commands that nobody knows. -/
example : (∀ x ∈ [((1 : Int64), command [b!"set", b!"k", b!"v"])], ¬ Refuses 1 (some Cache.new) x) ∧
    ∃ s, Steps (conf 1) (.init (some Cache.new) [(1, command [b!"set", b!"k", b!"v"])] true [command [b!"EVAL"], command [b!"EVAL"]]) s ∧
      s.taken.length = 3 := by
  constructor
  · intro x hx
    simp only [List.mem_singleton] at hx
    subst hx
    rintro ⟨_, e, h⟩
    have h' : (handle (some Cache.new) (some (command [b!"set", b!"k", b!"v"]))).1 = .ok () := rfl
    exact absurd (h'.symm.trans h) (by simp)
  · refine ⟨_, (((((((Steps.refl.tail (.load rfl rfl (by decide))).tail (.handled rfl rfl rfl rfl rfl)).tail (.loaded rfl rfl rfl)).tail
      (.recvSend rfl rfl (by decide) (by decide))).tail (.recvSend rfl rfl (by decide) (by decide))).tail (.skip rfl rfl rfl (by decide))).tail
      (.skip rfl rfl rfl (by decide))), rfl⟩

/-- Both sides of `C77_exact`: one refused command in the snapshot is enough. -/
example : ∃ s, Steps (conf 1) (.init (some Cache.new) [(1, command [b!"sAdd", b!"a", b!"1"])] true []) s ∧ Stuck (conf 1) s :=
  (C77_exact _ _ _ _ _).mpr (.inl ⟨[], _, [], rfl, by simp, ⟨rfl, _, rfl⟩, .inr ⟨rfl, by simp⟩⟩)

end Verif.Repl

import Verif.Repl.Wire
import Verif.Repl.PropsStuck
import Verif.Repl.PropsHandle
import Verif.Resp.PropsExact
import Verif.Repl.PropsAll
/-!
# C121: whether the process survives what the master sends
-/
namespace Verif.Repl

open Verif.Resp Verif.Rdb

/-! ## Vocabulary -/

/-- A command nobody survives: an assignment without a value (without a cache, any assignment), or the command
for a list with a key. -/
def Deadly (cache : Bool) (m : Msg) : Prop :=
  ∃ a ms, m = .array (a :: ms) ∧
    (SetName (str a) ∧ (cache = false ∨ ms.length < 2) ∨ lower (str a) = b!"rpush" ∧ ms ≠ [])

/-- A bulk header announcing a length that no string can have. -/
def ImpossibleLength (bytes : Bytes) : Prop :=
  ∃ pre line post n, bytes = pre ++ b!"$" ++ line ++ post ∧ atoi line = some n ∧ (n.toInt < -1 ∨ maxAlloc < n.toInt)

/-- In some schedule the process of a client on database `db` ends by a panic: `snap` comes from the snapshot, which
loads or not, and `r` are the bytes behind it. -/
def Dies (db : Int64) (c0 : Local) (snap : List Tagged) (good : Bool) (r : Rd) : Prop :=
  ∃ ms left s, Delivers r ms left ∧ WSteps (conf db) (decide ((readMessage left).1 = .panic)) (.init c0 snap good ms) s ∧ s.crashed = true

/-! ## The bytes -/

/-- Every stream of bytes is a list of messages and a rest that is none. -/
theorem delivers_exists (r : Rd) (hw : r.WF) : ∃ ms left, Delivers r ms left := by
  have key : ∀ k, ∀ r : Rd, r.WF → r.flat.length ≤ k → ∃ ms left, Delivers r ms left := by
    intro k
    induction k with
    | zero =>
      intro r hw hl
      refine ⟨[], r, rfl, fun m hm => ?_⟩
      obtain ⟨_, pre, h1, h2⟩ := ((total_msg (2 * r.flat.length + 1)).1 r hw (Nat.le_refl _)).2.1 m hm
      have := congrArg List.length h1
      simp only [List.length_append] at this
      omega
    | succ k ih =>
      intro r hw hl
      rcases hx : readMessage r with ⟨z, r'⟩
      cases z with
      | ok m =>
        have ht := ((total_msg (2 * r.flat.length + 1)).1 r hw (Nat.le_refl _)).2.1 m (by rw [← readMessage, hx])
        rw [← readMessage, hx] at ht
        obtain ⟨hw', pre, h1, h2⟩ := ht
        have := congrArg List.length h1
        simp only [List.length_append] at this
        obtain ⟨ms, left, g1, g2⟩ := ih r' hw' (by omega)
        refine ⟨m :: ms, left, ?_, g2⟩
        simp only [List.length_cons, recvN, hx, andThen, g1]
      | err e => exact ⟨[], r, rfl, fun m hm => by rw [hx] at hm; cases hm⟩
      | panic => exact ⟨[], r, rfl, fun m hm => by rw [hx] at hm; cases hm⟩
  exact key _ r hw (Nat.le_refl _)

/-- The same stream is not two different lists of messages. -/
theorem delivers_unique {r : Rd} {ms ms' : List Msg} {left left' : Rd} (h : Delivers r ms left) (h' : Delivers r ms' left') :
    ms = ms' ∧ left = left' := by
  induction ms generalizing r ms' with
  | nil =>
    obtain ⟨h1, h2⟩ := h
    simp only [List.length_nil, recvN, Prod.mk.injEq, true_and] at h1
    subst h1
    cases ms' with
    | nil =>
      have := h'.1
      simp only [List.length_nil, recvN, Prod.mk.injEq, true_and] at this
      exact ⟨rfl, this⟩
    | cons m ms' =>
      have := h'.1
      simp only [List.length_cons, recvN] at this
      rcases hx : readMessage r with ⟨z, r'⟩
      rw [hx] at this
      cases z with
      | ok x => exact absurd (by rw [hx]) (h2 x)
      | err e => simp [andThen] at this
      | panic => simp [andThen] at this
  | cons m ms ih =>
    obtain ⟨h1, h2⟩ := h
    obtain ⟨h1', h2'⟩ := h'
    rcases hx : readMessage r with ⟨z, r'⟩
    simp only [List.length_cons, recvN, hx] at h1
    cases z with
    | err e => simp [andThen] at h1
    | panic => simp [andThen] at h1
    | ok x =>
      simp only [andThen] at h1
      cases ms' with
      | nil =>
        simp only [List.length_nil, recvN, Prod.mk.injEq, true_and] at h1'
        subst h1'
        exact absurd (by rw [hx]) (h2' x)
      | cons m' ms' =>
        simp only [List.length_cons, recvN, hx, andThen] at h1'
        rcases ha : recvN ms.length r' with ⟨za, ra⟩
        rcases hb : recvN ms'.length r' with ⟨zb, rb⟩
        rw [ha] at h1
        rw [hb] at h1'
        cases za with
        | err e => simp at h1
        | panic => simp at h1
        | ok la =>
          cases zb with
          | err e => simp at h1'
          | panic => simp at h1'
          | ok lb =>
            simp only [Prod.mk.injEq, GoRes.ok.injEq, List.cons.injEq] at h1 h1'
            obtain ⟨⟨rfl, rfl⟩, rfl⟩ := h1
            obtain ⟨⟨rfl, rfl⟩, rfl⟩ := h1'
            obtain ⟨e1, e2⟩ := ih ⟨ha, h2⟩ ⟨hb, h2'⟩
            exact ⟨by rw [e1], e2⟩

theorem delivers_rest {r : Rd} (hw : r.WF) {ms : List Msg} {left : Rd} (h : Delivers r ms left) :
    left.WF ∧ ∃ pre, r.flat = pre ++ left.flat := by
  obtain ⟨h, -⟩ := h
  induction ms generalizing r with
  | nil =>
    simp only [List.length_nil, recvN, Prod.mk.injEq, true_and] at h
    subst h
    exact ⟨hw, [], rfl⟩
  | cons m ms ih =>
    rcases hx : readMessage r with ⟨z, r'⟩
    simp only [List.length_cons, recvN, hx] at h
    cases z with
    | err e => simp [andThen] at h
    | panic => simp [andThen] at h
    | ok x =>
      simp only [andThen] at h
      have ht := ((total_msg (2 * r.flat.length + 1)).1 r hw (Nat.le_refl _)).2.1 x (by rw [← readMessage, hx])
      rw [← readMessage, hx] at ht
      obtain ⟨hw', pre, g1, _⟩ := ht
      rcases ha : recvN ms.length r' with ⟨za, ra⟩
      rw [ha] at h
      cases za with
      | err e => simp at h
      | panic => simp at h
      | ok la =>
        simp only [Prod.mk.injEq, GoRes.ok.injEq, List.cons.injEq] at h
        obtain ⟨⟨rfl, rfl⟩, rfl⟩ := h
        obtain ⟨w, p, e⟩ := ih hw' ha
        exact ⟨w, pre ++ p, by rw [g1, e]; simp⟩

/-! ## The machine -/

theorem deadly_panics {db : Int64} {c0 : Local} {x : Tagged} : Panics db c0 x ↔ x.1 = db ∧ Deadly c0.isSome x.2 := by
  obtain ⟨d, m⟩ := x
  refine and_congr_right fun _ => ?_
  simp only
  cases c0 with
  | some c =>
    rw [C74_panics_partial]
    simp only [Option.some.injEq, Deadly, Option.isSome_some, Bool.true_eq_false, false_or]
    constructor
    · rintro ⟨a, ms, h, h1 | h1⟩
      · exact ⟨a, ms, h, .inl ⟨setName_of_lower h1.1, h1.2⟩⟩
      · exact ⟨a, ms, h, .inr h1⟩
    · rintro ⟨a, ms, h, h1 | h1⟩
      · exact ⟨a, ms, h, .inl ⟨lower_setName h1.1, h1.2⟩⟩
      · exact ⟨a, ms, h, .inr h1⟩
  | none =>
    simp only [Deadly, Option.isSome_none, true_or, and_true]
    cases m with
    | array ms =>
      cases ms with
      | nil => simp [handle]
      | cons a ms =>
        simp only [handle]
        constructor
        · intro h
          refine ⟨a, ms, rfl, ?_⟩
          split at h
          · rename_i h1
            exact .inl (setName_of_lower h1)
          · split at h
            · rename_i h2
              refine .inr ⟨h2, ?_⟩
              intro he; rw [if_pos he] at h; cases h
            · split at h
              · split at h <;> cases h
              · cases h
        · rintro ⟨a', ms', he, h⟩
          simp only [Msg.array.injEq, List.cons.injEq] at he
          obtain ⟨rfl, rfl⟩ := he
          rcases h with h1 | ⟨h1, h2⟩
          · rw [if_pos (lower_setName h1)]
            split
            · rfl
            · rfl
          · rw [if_neg (by rw [h1]; decide), if_pos h1, if_neg h2]
    | _ => simp [handle]

/-- None of them passes for a heartbeat. -/
theorem deadly_sent {usable : Bool} {m : Msg} (h : Deadly usable m) : isPing m = false := by
  obtain ⟨a, ms, rfl, h⟩ := h
  obtain ⟨x, t, hs, hx⟩ : ∃ x t, str a = x :: t ∧ lowerLetter x ≠ 112 := by
    rcases h with ⟨⟨x, y, z, e, hx, _⟩, _⟩ | ⟨h, _⟩
    · exact ⟨x, _, e, by rcases hx with rfl | rfl <;> decide⟩
    · cases hs : str a with
      | nil => rw [hs] at h; exact absurd h (by decide)
      | cons x t =>
        rw [hs] at h
        simp only [lower, List.map_cons, List.cons.injEq] at h
        exact ⟨x, t, rfl, by rw [h.1]; decide⟩
  obtain ⟨u, hu⟩ : ∃ u, str (.array (a :: ms)) = x :: u := by
    cases ms with
    | nil => exact ⟨t, by simp [str, strAll, hs]⟩
    | cons y ms => exact ⟨t ++ b!" " ++ strAll (y :: ms), by simp [str, strAll, hs]⟩
  unfold isPing
  rw [hu]
  split
  · rename_i e
    injection e with e1
    subst e1
    simp [hx]
  · rfl

theorem WSteps.trans {cf : Conf} {bad : Bool} {s t u : State} (h : WSteps cf bad s t) (h' : WSteps cf bad t u) : WSteps cf bad s u := by
  induction h' with
  | refl => exact h
  | tail _ hs ih => exact ih.tail hs

/-- An execution that does not see the end of the stream. -/
theorem WSteps.lift {cf : Conf} {bad : Bool} {s t : State} (h : Steps cf s t) (h1 : t.recv ≠ .closing) (h2 : t.recv ≠ .done) :
    WSteps cf bad s t := by
  induction h with
  | refl => exact .refl
  | @tail t u hs hst ih =>
    have back : t.recv ≠ .closing ∧ t.recv ≠ .done ∧ (t.recv = .reading [] → u.recv = .reading []) := by
      cases hst with
      | skip | handled | failed | crash | zeroSkip | zeroFailed | report | drain | load | loadFailed | ackFailed | ackReport =>
        exact ⟨h1, h2, fun h => h⟩
      | loaded hc hm hr => rw [hr]; simp
      | recvPing hc hr => rw [hr]; simp
      | recvSend hc hr => rw [hr]; simp
      | recvErr => exact absurd rfl h1
      | close => exact absurd rfl h2
    exact (ih back.1 back.2.1).tail (.step hst fun _ => back.2.2)

/-- Either it is an execution of the machine without panics of the receiver, or its last step is one. -/
theorem WSteps.unlift {cf : Conf} {bad : Bool} {s t : State} (h : WSteps cf bad s t) (h0 : s.crashed = false) :
    Steps cf s t ∨ (bad = true ∧ ∃ u, Steps cf s u ∧ u.recv = .reading []) := by
  induction h with
  | refl => exact .inl .refl
  | tail hs hst ih =>
    rcases ih with ih | ih
    · cases hst with
      | step h _ => exact .inl (ih.tail h)
      | recvPanic hb hc hr => exact .inr ⟨hb, _, ih, hr⟩
    · exact .inr ih

/-- C121, exactly: what the master sends can end the process if and only if one of the messages that reach the
handler - those of the snapshot and, if it loads, the commands behind it - is a deadly one for its database, or
the snapshot loads and reading the stream behind it ends in a panic.  Which goroutine comes first does not matter
for whether it can happen. -/
theorem C121_exact (db : Int64) (c0 : Local) (snap : List Tagged) (good : Bool) (r : Rd) (ms : List Msg) (left : Rd)
    (h : Delivers r ms left) :
    Dies db c0 snap good r ↔
      (∃ x ∈ snap, x.1 = db ∧ Deadly c0.isSome x.2) ∨
      (good = true ∧ db = 0 ∧ ∃ m ∈ ms, Deadly c0.isSome m) ∨
      (good = true ∧ (readMessage left).1 = .panic) := by
  have hoff : (∃ x ∈ offered snap good ms, Panics db c0 x) ↔ (∃ x ∈ snap, x.1 = db ∧ Deadly c0.isSome x.2) ∨
      (good = true ∧ db = 0 ∧ ∃ m ∈ ms, Deadly c0.isSome m) := by
    simp only [deadly_panics, offered, List.mem_append]
    constructor
    · rintro ⟨x, hx | hx, h⟩
      · exact .inl ⟨x, hx, h⟩
      · cases good with
        | false => simp at hx
        | true =>
          simp only [if_pos, forwarded, List.mem_map, List.mem_filter, Bool.not_eq_true'] at hx
          obtain ⟨m, ⟨h1, h2⟩, rfl⟩ := hx
          exact .inr ⟨rfl, h.1.symm, m, h1, h.2⟩
    · rintro (⟨x, hx, h⟩ | ⟨rfl, rfl, m, h1, h3⟩)
      · exact ⟨x, .inl hx, h⟩
      · refine ⟨(0, m), .inr ?_, rfl, h3⟩
        simp only [if_pos, forwarded, List.mem_map, List.mem_filter, Bool.not_eq_true']
        exact ⟨m, ⟨h1, deadly_sent h3⟩, rfl⟩
  rw [← or_assoc, ← hoff]
  have hdies : Dies db c0 snap good r ↔
      ∃ s, WSteps (conf db) (decide ((readMessage left).1 = .panic)) (.init c0 snap good ms) s ∧ s.crashed = true := by
    constructor
    · rintro ⟨ms', left', s, h0, h1, h2⟩
      obtain ⟨rfl, rfl⟩ := delivers_unique h h0
      exact ⟨s, h1, h2⟩
    · rintro ⟨s, h1, h2⟩
      exact ⟨ms, left, s, h, h1, h2⟩
  rw [hdies]
  constructor
  · rintro ⟨s, h1, h2⟩
    rcases WSteps.unlift h1 rfl with h | ⟨hb, u, h, hr⟩
    · left
      have hi := inv_steps (inv_init (conf db) c0 snap good ms) h
      have hp := past_steps (inv_init (conf db) c0 snap good ms) (past_init db c0 snap good ms) h
      obtain ⟨x, hx, hx'⟩ := (early_steps (early_init db c0 snap good ms) h).crash h2
      exact ⟨x, (taken_offered hi hp).subset hx, hx'⟩
    · right
      have hp := past_steps (inv_init (conf db) c0 snap good ms) (past_init db c0 snap good ms) h
      have hm : u.main = .returned := by
        apply Classical.byContradiction
        intro hm
        have := (hp.quiet hm).2.2.1
        rw [hr] at this
        cases this
      exact ⟨(hp.returned hm).1, by simpa using hb⟩
  · intro h
    by_cases hd : ∃ x ∈ offered snap good ms, Panics db c0 x
    · obtain ⟨y, hy, hpy⟩ := hd
      obtain ⟨b1, x, b2, f1, f2, f3⟩ := first_split hy hpy
      have a0 := at_init c0 snap good ms
      rw [f1] at a0
      obtain ⟨s1, g1, a1⟩ := at_run (db := db) b1 a0 f3 (.inl rfl)
      obtain ⟨s2, g2, a2⟩ := at_send (db := db) a1
      obtain ⟨d, m⟩ := x
      rcases hx : handle s2.cache (some m) with ⟨z, c1⟩
      have hk := handle_kind a2.usable (some m)
      rw [hx, f2.2] at hk
      simp only at hk
      subst hk
      refine ⟨_, WSteps.lift ((g1.trans g2).tail (.crash a2.crashed a2.hand a2.msgs f2.1 hx)) ?_ ?_, rfl⟩ <;>
      · rcases a2.place with ⟨r, _, p, _⟩ | ⟨st, _, _, p, _⟩ <;> simp [p]
    · rcases h with h | ⟨rfl, hb⟩
      · exact absurd h hd
      have a0 := at_init c0 snap true ms
      have e : offered snap true ms = offered snap true ms ++ [] := by simp
      rw [e] at a0
      obtain ⟨s1, g1, a1⟩ := at_run (db := db) _ a0 (fun x hx hp => hd ⟨x, hx, hp⟩) (.inl rfl)
      obtain ⟨s2, q, g2, a2, m2, _, _⟩ := at_return (db := db) a1 rfl (by
        intro rest hm
        rcases a1.place with ⟨r, p1, _, _, _, p5⟩ | ⟨_, _, p1, _⟩
        · rw [hm] at p1
          cases p1
          have : rest = [] := (List.append_eq_nil_iff.mp p5.symm).1
          subst this
          simp
        · rw [hm] at p1; cases p1)
      obtain ⟨st, hst, hf⟩ : ∃ st, s2.recv = .reading st ∧ forwarded st = [] := by
        rcases a2.place with ⟨r, p1, _⟩ | ⟨st, _, _, p, _, p'⟩
        · rw [m2] at p1; cases p1
        · exact ⟨st, p, by simpa using p'.symm⟩
      have skip : ∀ (st : List Msg) (s : State), s.crashed = false → s.recv = .reading st → forwarded st = [] →
          Steps (conf db) s { s with recv := .reading [] } := by
        intro st
        induction st with
        | nil => intro s _ h _; rw [← h]; exact .refl
        | cons m st ih =>
          intro s hc hr hf
          cases hp : isPing m with
          | true =>
            have := ih { s with recv := .reading st } hc rfl (by simpa [forwarded, hp] using hf)
            exact (Steps.one (.recvPing hc hr hp)).trans this
          | false => simp [forwarded, hp] at hf
      refine ⟨_, (WSteps.lift ((g1.trans g2).trans (skip st s2 a2.crashed hst hf)) (by simp) (by simp)).tail
        (.recvPanic (by simpa using hb) a2.crashed rfl), rfl⟩

/-- C121, as far as it holds: a client with a usable cache survives every snapshot and every stream of bytes in which
there is no deadly command and no bulk header with an impossible length, whatever else they contain and wherever
they break off.  Missing: those (`C121_violated`), and the cache that `New` makes is not usable. -/
theorem C121_survives_partial (db : Int64) (c : Cache) (snap : List Tagged) (good : Bool) (r : Rd) (hw : r.WF) (ms : List Msg) (left : Rd)
    (h : Delivers r ms left) (h1 : ∀ x ∈ snap, ¬ Deadly true x.2) (h2 : ∀ m ∈ ms, ¬ Deadly true m) (h3 : ¬ ImpossibleLength r.flat) :
    ¬ Dies db (some c) snap good r := by
  intro hd
  rcases (C121_exact db (some c) snap good r ms left h).mp hd with ⟨x, hx, _, h⟩ | ⟨_, _, m, hm, h⟩ | ⟨_, hp⟩
  · exact h1 x hx h
  · exact h2 m hm h
  · obtain ⟨hw', p, e⟩ := delivers_rest hw h
    rcases C49_total_partial left hw' with ⟨m, h⟩ | ⟨e, h, _⟩ | ⟨_, pre, line, post, n, g1, g2⟩
    · rw [hp] at h; cases h
    · rw [hp] at h; cases h
    · exact h3 ⟨p ++ pre, line, post, n, by rw [e, g1]; simp, g2⟩

theorem deadly_recreate (usable : Bool) (key : Bytes) (d : Data) :
    Deadly usable (command (recreate key d)) ↔ (∃ vs, d = .list vs) ∨ (usable = false ∧ ∃ v, d = .str v) := by
  have no : ∀ (name : Bytes) (args : List Bytes), lower name ≠ b!"set" → lower name ≠ b!"rpush" → ¬ Deadly usable (command (name :: args)) := by
    rintro name args h1 h2 ⟨a, ms, he, h⟩
    simp only [command, List.map_cons, Msg.array.injEq, List.cons.injEq] at he
    obtain ⟨rfl, rfl⟩ := he
    rcases h with h | h
    · exact h1 (lower_setName h.1)
    · exact h2 h.1
  cases d with
  | str v =>
    simp only [recreate, reduceCtorEq, exists_false, false_or, Data.str.injEq, exists_eq', and_true]
    constructor
    · rintro ⟨a, ms, he, h⟩
      simp only [command, List.map_cons, List.map_nil, Msg.array.injEq, List.cons.injEq] at he
      obtain ⟨rfl, rfl⟩ := he
      rcases h with h | h
      · exact h.2.resolve_right (by simp)
      · exact absurd h.1 (by decide)
    · intro h
      exact ⟨.bulk b!"set", _, rfl, .inl ⟨setName_of_lower (by decide), .inl h⟩⟩
  | list vs =>
    simp only [recreate, Data.list.injEq, exists_eq', true_or, iff_true]
    exact ⟨.bulk b!"rPush", _, rfl, .inr ⟨by decide, by simp⟩⟩
  | set vs => simpa [recreate] using no b!"sAdd" _ (by decide) (by decide)
  | zset vs => simpa [recreate] using no b!"zAdd" _ (by decide) (by decide)
  | hash vs => simpa [recreate] using no b!"hmSet" _ (by decide) (by decide)

theorem deadly_snapshot (usable : Bool) (db : Nat) (hdb : db < 2 ^ 63) (recs : List KeyRec) (hr : ∀ r ∈ recs, r.db < 2 ^ 63) :
    (∃ x ∈ (recs.flatMap keyCmds).map tagged, x.1 = Int64.ofNat db ∧ Deadly usable x.2) ↔
      ∃ r ∈ recs, r.db = db ∧ ((∃ vs, r.data = .list vs) ∨ (usable = false ∧ ∃ v, r.data = .str v)) := by
  have hexp : ∀ k t, ¬ Deadly usable (command [b!"pExpire", k, t]) := by
    rintro k t ⟨a, ms, he, h⟩
    simp only [command, List.map_cons, Msg.array.injEq, List.cons.injEq] at he
    obtain ⟨rfl, rfl⟩ := he
    rcases h with h | h
    · exact absurd (lower_setName h.1) (by decide)
    · exact absurd h.1 (by decide)
  constructor
  · rintro ⟨x, hx, h1, h2⟩
    obtain ⟨y, hy, rfl⟩ := List.mem_map.mp hx
    obtain ⟨r, hr', hy⟩ := List.mem_flatMap.mp hy
    rcases List.mem_cons.mp hy with rfl | hy
    · exact ⟨r, hr', (Rdb.ofNat_inj (hr r hr') hdb).mp h1, (deadly_recreate usable _ _).mp h2⟩
    · cases hd : r.deadline with
      | none => rw [hd] at hy; cases hy
      | some t =>
        rw [hd] at hy
        simp only [List.mem_singleton] at hy
        subst hy
        exact absurd h2 (hexp _ _)
  · rintro ⟨r, hr', rfl, h⟩
    exact ⟨tagged (Int64.ofNat r.db, recreate r.key r.data), List.mem_map.mpr ⟨_, List.mem_flatMap.mpr ⟨r, hr', List.mem_cons_self⟩, rfl⟩,
      rfl, (deadly_recreate usable _ _).mpr h⟩

/-- C121 from the bytes of the master, for snapshots that `Load` reads: `New` returns without error, and whatever bytes
follow, a client on database `db` can be ended if and only if there is a list in that database of the snapshot, or (on
database 0) a deadly command behind the snapshot, or a bulk header with an impossible length where a message begins or
goes on - or, as the cache that `New` makes is not usable, a string in that database. -/
theorem C121_bytes_exact (ord : MapOrd) (hord : ∀ n l, (ord n l).Perm l) (hdr : Bytes) (hh : Header hdr) (items : List Item)
    (hs : ∀ i ∈ items, i.Supported) (hv : ∀ i ∈ items, i.Valid) (sum : Bytes)
    (hl : (Rdb.bytes (filePieces hdr items) ++ sum).length ≤ bufSize)
    (w : World) (hd : w.dial = true) (hp : w.pingSent = true) (hsn : w.syncSent = true) (hc : w.create = true) (hro : w.reopen = true)
    (rest : Bytes) (hw : w.input.WF) (hi : w.input.flat = greeting (Rdb.bytes (filePieces hdr items) ++ sum) ++ rest) (o : Opts)
    (db : Nat) (hdb : db < 2 ^ 63) (c0 : Local) :
    ∃ client snap r, new ord w o = (.ok (), client, snap, r) ∧ client.cache = none ∧ r.flat = rest ∧ r.WF ∧
      (∃ ms left, Delivers r ms left) ∧
      ∀ ms left, Delivers r ms left → (Dies (Int64.ofNat db) c0 snap true r ↔
        (∃ k ∈ meaning none 0 items, k.db = db ∧ ((∃ vs, k.data = .list vs) ∨ (c0 = none ∧ ∃ v, k.data = .str v))) ∨
        (db = 0 ∧ ∃ m ∈ ms, Deadly c0.isSome m) ∨
        (readMessage left).1 = .panic) := by
  obtain ⟨r, h1, h2, h2w⟩ := C85_snapshot_saved w (prepare o).addr (prepare o).rdbFile
    (by simp only [prepare]; split <;> simp_all) (by simp only [prepare]; split <;> simp_all) hd hp hsn hc _ rest
    (by simp only [bufSize] at hl; omega) hw hi
  obtain ⟨s', h3, h4⟩ := Rdb.C65_small_partial ord hord hdr hh items hs hv sum hl
  have hmr := Rdb.meaning_recs hs hv none 0 (by decide)
  refine ⟨⟨o, none⟩, s'.out.map tagged, r, ?_, rfl, h2, h2w, delivers_exists r h2w, fun ms left hdl => ?_⟩
  · have h3 : Rdb.load ord ⟨0, 0, [], 0, []⟩ ⟨[], [Rdb.bytes (filePieces hdr items) ++ sum]⟩ = (.ok (), s') := h3
    simp only [new, h1, hro, Option.getD_some, h3]
    simp
  · rw [C121_exact _ _ _ _ r ms left hdl, h4, deadly_snapshot _ db hdb _ (fun r hr => (hmr r hr).2.2)]
    have e0 : Int64.ofNat db = 0 ↔ db = 0 := Rdb.ofNat_inj hdb (by decide)
    have e1 : c0.isSome = false ↔ c0 = none := by cases c0 <;> simp
    simp only [e0, e1, true_and]

/-! ## Witnesses -/

/-- A master with an empty snapshot and these bytes behind it. -/
def emptyWorld (rest : Bytes) : World := ⟨true, true, true, true, true, ⟨[], [b!"+PONG\r\n$10\r\n" ++ (b!"REDIS0009" ++ [255]) ++ rest]⟩⟩

theorem emptyWorld_dies (ord : MapOrd) (hord : ∀ n l, (ord n l).Perm l) (rest : Bytes) (db : Nat) (hdb : db < 2 ^ 63) (c0 : Local) (o : Opts) :
    ∃ client snap r, new ord (emptyWorld rest) o = (.ok (), client, snap, r) ∧ r.flat = rest ∧ r.WF ∧ (∃ ms left, Delivers r ms left) ∧
      ∀ ms left, Delivers r ms left → (Dies (Int64.ofNat db) c0 snap true r ↔
        (db = 0 ∧ ∃ m ∈ ms, Deadly c0.isSome m) ∨ (readMessage left).1 = .panic) := by
  have e : Rdb.bytes (filePieces b!"REDIS0009" []) ++ [] = b!"REDIS0009" ++ [255] := by decide +kernel
  obtain ⟨client, snap, r, h1, _, h2, h2w, h3, h4⟩ := C121_bytes_exact ord hord b!"REDIS0009" rfl [] (by simp) (by simp) []
    (by rw [e]; decide) (emptyWorld rest) rfl rfl rfl rfl rfl rest (by simp [emptyWorld, Rd.WF])
    (by
      have e1 : greeting (b!"REDIS0009" ++ [255]) = b!"+PONG\r\n$10\r\n" ++ (b!"REDIS0009" ++ [255]) := by decide +kernel
      rw [e, e1]
      simp [emptyWorld, Rd.flat]) o db hdb c0
  refine ⟨client, snap, r, h1, h2, h2w, h3, fun ms left h => ?_⟩
  rw [h4 ms left h]
  simp [meaning]

theorem delivers_first {r : Rd} {ms : List Msg} {left : Rd} (h : Delivers r ms left) {m : Msg} (hm : (readMessage r).1 = .ok m) : m ∈ ms := by
  cases ms with
  | nil =>
    have := h.1
    simp only [List.length_nil, recvN, Prod.mk.injEq, true_and] at this
    subst this
    exact absurd hm (h.2 m)
  | cons x ms =>
    have := h.1
    rcases hx : readMessage r with ⟨z, r'⟩
    rw [hx] at hm
    simp only at hm
    subst hm
    simp only [List.length_cons, recvN, hx, andThen] at this
    rcases ha : recvN ms.length r' with ⟨za, ra⟩
    rw [ha] at this
    cases za with
    | err e => simp at this
    | panic => simp at this
    | ok la =>
      simp only [Prod.mk.injEq, GoRes.ok.injEq, List.cons.injEq] at this
      rw [this.1.1]
      exact List.mem_cons_self

theorem delivers_panic {r : Rd} {ms : List Msg} {left : Rd} (h : Delivers r ms left) (hp : (readMessage r).1 = .panic) : left = r := by
  cases ms with
  | nil =>
    have := h.1
    simp only [List.length_nil, recvN, Prod.mk.injEq, true_and] at this
    exact this.symm
  | cons x ms =>
    have := h.1
    rcases hx : readMessage r with ⟨z, r'⟩
    rw [hx] at hp
    simp only at hp
    subst hp
    simp [recvN, hx, andThen] at this

/-- C121 is false, for every option, every database and every cache: `New` returns without error for a master with an
empty snapshot that goes on with a bulk header whose length is below -1, and then the process can end, however the
rest of what the master sends looks. -/
theorem C121_violated (ord : MapOrd) (hord : ∀ n l, (ord n l).Perm l) (o : Opts) (db : Nat) (hdb : db < 2 ^ 63) (c0 : Local)
    (line post : Bytes) (n : Int64) (h10 : (10 : UInt8) ∉ line) (hl : line.length + 2 ≤ bufSize) (hn : atoi line = some n) (hneg : n.toInt < -1) :
    ∃ client snap r, new ord (emptyWorld (b!"$" ++ line ++ crlf ++ post)) o = (.ok (), client, snap, r) ∧
      Dies (Int64.ofNat db) c0 snap true r := by
  obtain ⟨client, snap, r, h1, h2, h2w, ⟨ms, left, h3⟩, h4⟩ := emptyWorld_dies ord hord (b!"$" ++ line ++ crlf ++ post) db hdb c0 o
  refine ⟨client, snap, r, h1, (h4 ms left h3).mpr (.inr ?_)⟩
  have hp := (C49_exact line post n h10 hl hn r h2w h2).mpr (.inl hneg)
  rw [delivers_panic h3 hp]
  exact hp

/-- A text of this kind. -/
example : (10 : UInt8) ∉ b!"-2" ∧ (b!"-2").length + 2 ≤ bufSize ∧ atoi b!"-2" = some (-2) ∧ (-2 : Int64).toInt < -1 := by decide +kernel

/-- C121 is false in the commands as well: a client on database 0 can be ended by a SET without arguments and by a
command for a list, with every cache; with the cache that `New` makes, by any SET. -/
theorem C121_violated_commands (ord : MapOrd) (hord : ∀ n l, (ord n l).Perm l) (args : List Bytes) (c0 : Local)
    (ha : args = [b!"SET"] ∨ args = [b!"RPUSH", b!"l", b!"x"] ∨ (args = [b!"SET", b!"k", b!"v"] ∧ c0 = none)) :
    ∃ client snap r, new ord (emptyWorld (ser (command args))) ⟨[], [], 0⟩ = (.ok (), client, snap, r) ∧
      Dies 0 c0 snap true r := by
  obtain ⟨client, snap, r, h1, h2, h2w, ⟨ms, left, h3⟩, h4⟩ := emptyWorld_dies ord hord (ser (command args)) 0 (by decide) c0 ⟨[], [], 0⟩
  have hr : r = (new ord (emptyWorld (ser (command args))) ⟨[], [], 0⟩).2.2.2 := by rw [h1]
  refine ⟨client, snap, r, h1, (h4 ms left h3).mpr (.inl ⟨rfl, command args, delivers_first h3 ?_, ?_⟩)⟩
  · rw [hr]
    rcases ha with rfl | rfl | ⟨rfl, _⟩ <;> rfl
  · rcases ha with rfl | rfl | ⟨rfl, rfl⟩
    · exact ⟨.bulk b!"SET", _, rfl, .inl ⟨setName_of_lower (by decide), .inr (by decide)⟩⟩
    · exact ⟨.bulk b!"RPUSH", _, rfl, .inr ⟨by decide, by simp⟩⟩
    · exact ⟨.bulk b!"SET", _, rfl, .inl ⟨setName_of_lower (by decide), .inl rfl⟩⟩

/-- A snapshot whose only key is a list, in the encoding masters choose for short ones. -/
def listItems : List Item := [.entry (.raw .b6 b!"l") sampleList]
def listFile : Bytes := Rdb.bytes (filePieces b!"REDIS0009" listItems)
def listWorld : World := ⟨true, true, true, true, true, ⟨[], [greeting listFile]⟩⟩

theorem sampleList_ok : sampleList.Supported ∧ sampleList.Valid :=
  ⟨⟨.inl rfl, by simp [ZShort, sampleZip]⟩,
    ⟨by simp [sampleZip], by simp only [StrEnc.Valid, LenEnc.limit]; decide, rfl, by simp [ZlValid, PrevField, ZVal.Valid, sampleZip]⟩⟩

/-- A list in the snapshot is enough to end the client, with every cache. -/
theorem C121_violated_list (ord : MapOrd) (hord : ∀ n l, (ord n l).Perm l) (o : Opts) (c0 : Local) :
    ∃ client snap r, new ord listWorld o = (.ok (), client, snap, r) ∧ Dies 0 c0 snap true r := by
  obtain ⟨client, snap, r, h1, _, h2, _, ⟨ms, left, h3⟩, h4⟩ := C121_bytes_exact ord hord b!"REDIS0009" rfl listItems
    (by
      intro i hi
      simp only [listItems, List.mem_singleton] at hi
      subst hi
      exact ⟨.inl rfl, by simp [StrEnc.value], sampleList_ok.1⟩)
    (by
      intro i hi
      simp only [listItems, List.mem_singleton] at hi
      subst hi
      exact ⟨by simp [StrEnc.Valid, LenEnc.limit], sampleList_ok.2⟩) []
    (by decide +kernel) listWorld rfl rfl rfl rfl rfl [] (by simp [listWorld, Rd.WF])
    (by simp [listWorld, listFile, Rd.flat]) o 0 (by decide) c0
  exact ⟨client, snap, r, h1, (h4 ms left h3).mpr (.inl ⟨_, List.mem_cons_self, rfl, .inl ⟨_, rfl⟩⟩)⟩

theorem not_deadly {m : Msg} (h : (handle (some Cache.new) (some m)).1 ≠ .panic) : ¬ Deadly true m := fun hd =>
  h ((deadly_panics (db := 0) (c0 := some Cache.new) (x := (0, m))).mpr ⟨rfl, hd⟩).2

/-- A PING, a command nobody knows, an assignment, and half a message. -/
def quietBytes : Bytes := b!"*1\r\n$4\r\nPING\r\n*1\r\n$4\r\nEVAL\r\n*3\r\n$3\r\nSET\r\n$1\r\nk\r\n$1\r\nv\r\n*1\r\n$"

/-- They meet `C121_exact`, and the client survives them, with a set in the snapshot. -/
example : ∃ ms left, Delivers ⟨quietBytes, []⟩ ms left ∧ ms.length = 3 ∧
    ¬ Dies 0 (some Cache.new) [(0, command [b!"sAdd", b!"s", b!"x"])] true ⟨quietBytes, []⟩ := by
  have e : (readMessage ⟨b!"*1\r\n$", []⟩).1 = .err .eof := by decide +kernel
  have hd : Delivers ⟨quietBytes, []⟩ [command [b!"PING"], command [b!"EVAL"], command [b!"SET", b!"k", b!"v"]] ⟨b!"*1\r\n$", []⟩ :=
    ⟨rfl, fun m hm => by rw [e] at hm; cases hm⟩
  refine ⟨_, _, hd, rfl, ?_⟩
  rw [C121_exact 0 (some Cache.new) _ true _ _ _ hd]
  rintro (⟨x, hx, _, h⟩ | ⟨_, _, m, hm, h⟩ | ⟨_, h⟩)
  · simp only [List.mem_singleton] at hx
    subst hx
    exact not_deadly (by decide +kernel) h
  · simp only [List.mem_cons, List.not_mem_nil, or_false] at hm
    rcases hm with rfl | rfl | rfl
    · exact not_deadly (by decide +kernel) h
    · exact not_deadly (by decide +kernel) h
    · exact not_deadly (by decide +kernel) h
  · rw [e] at h; cases h

/-- Bytes that meet the premises of `C121_survives_partial`: none of them is a dollar sign. -/
example : ¬ ImpossibleLength b!"*3\r\n+SET\r\n+k\r\n+v\r\n:5\r\n" ∧ ¬ Deadly true (.array [.simple b!"SET", .simple b!"k", .simple b!"v"]) := by
  refine ⟨?_, not_deadly (by decide +kernel)⟩
  rintro ⟨pre, line, post, n, h, _⟩
  have : (36 : UInt8) ∈ b!"*3\r\n+SET\r\n+k\r\n+v\r\n:5\r\n" := by rw [h]; simp
  exact absurd this (by decide)

end Verif.Repl

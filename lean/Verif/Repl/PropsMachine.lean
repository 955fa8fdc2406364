import Verif.Repl.Props
/-!
# C76, C77: all schedules of the goroutines
-/
namespace Verif.Repl

open Verif.Resp

/-- What the receiver forwards, as the handler sees it. -/
def forwarded (stream : List Msg) : List Tagged := (stream.filter fun m => !isPing m).map fun m => (0, m)

/-- The texts that begin with "ping" in small letters, capitals or both, where the letter `İ` (the two
bytes C4 B0) also counts as an i. -/
def Pingish (t : Bytes) : Prop :=
  ∃ p i n g rest, t = p ++ i ++ n ++ g ++ rest ∧ p ∈ [b!"p", b!"P"] ∧ i ∈ [b!"i", b!"I", [0xC4, 0xB0]] ∧ n ∈ [b!"n", b!"N"] ∧ g ∈ [b!"g", b!"G"]

theorem lowerLetter_is (x c d : UInt8) (hc : 97 ≤ c.toNat ∧ c.toNat ≤ 122) (hd : d.toNat + 32 = c.toNat) :
    lowerLetter x = c ↔ x = c ∨ x = d := by
  have hx := x.toNat_lt
  unfold lowerLetter
  simp only [← UInt8.toNat_inj]
  split <;> rename_i h <;> simp at h
  · rw [UInt8.toNat_add]
    have : (32 : UInt8).toNat = 32 := rfl
    omega
  · omega

/-- C75: which messages of the master are taken for a heartbeat and dropped: those whose text begins
with ping, whatever follows. -/
theorem C75_heartbeat (m : Msg) : isPing m = true ↔ Pingish (str m) := by
  have lp := fun x => lowerLetter_is x 112 80 (by decide) (by decide)
  have li := fun x => lowerLetter_is x 105 73 (by decide) (by decide)
  have ln := fun x => lowerLetter_is x 110 78 (by decide) (by decide)
  have lg := fun x => lowerLetter_is x 103 71 (by decide) (by decide)
  have bp : b!"p" = [112] := rfl
  have bP : b!"P" = [80] := rfl
  have bi : b!"i" = [105] := rfl
  have bI : b!"I" = [73] := rfl
  have bn : b!"n" = [110] := rfl
  have bN : b!"N" = [78] := rfl
  have bg : b!"g" = [103] := rfl
  have bG : b!"G" = [71] := rfl
  unfold isPing Pingish
  generalize str m = t
  constructor
  · intro h
    match t, h with
    | p :: i :: n :: g :: rest, h =>
      simp only [Bool.and_eq_true, Bool.or_eq_true, decide_eq_true_eq, lp, li, ln, lg] at h
      obtain ⟨hp, ⟨⟨hi, hn⟩, hg⟩ | ⟨⟨⟨hi, hn⟩, hg⟩, hx⟩⟩ := h
      · exact ⟨[p], [i], [n], [g], rest, rfl, by rcases hp with rfl | rfl <;> simp [bp, bP], by rcases hi with rfl | rfl <;> simp [bi, bI],
          by rcases hn with rfl | rfl <;> simp [bn, bN], by rcases hg with rfl | rfl <;> simp [bg, bG]⟩
      · cases rest with
        | nil => simp at hx
        | cons x rest =>
          simp only [decide_eq_true_eq, lg] at hx
          exact ⟨[p], [i, n], [g], [x], rest, rfl, by rcases hp with rfl | rfl <;> simp [bp, bP], by subst hi hn; simp,
            by rcases hg with rfl | rfl <;> simp [bn, bN], by rcases hx with rfl | rfl <;> simp [bg, bG]⟩
  · rintro ⟨p, i, n, g, rest, rfl, hp, hi, hn, hg⟩
    simp only [bp, bP, bi, bI, bn, bN, bg, bG, List.mem_cons, List.not_mem_nil, or_false] at hp hi hn hg
    rcases hp with rfl | rfl <;> rcases hi with rfl | rfl | rfl <;> rcases hn with rfl | rfl <;> rcases hg with rfl | rfl <;> rfl

example : Pingish b!"PING\r\n" ∧ ¬ Pingish b!"pink" :=
  ⟨⟨b!"P", b!"I", b!"N", b!"G", b!"\r\n", rfl, by decide, by decide, by decide, by decide⟩, by
    rw [show b!"pink" = str (.bulk b!"pink") from rfl, ← C75_heartbeat]; decide⟩

theorem Steps.trans {cf : Conf} {s t u : State} (h : Steps cf s t) (h' : Steps cf t u) : Steps cf s u := by
  induction h' with
  | refl => exact h
  | tail _ hst ih => exact ih.tail hst

/-- What will still be sent. -/
def State.pending (s : State) : List Tagged :=
  (match s.main with
   | .loading rest _ => rest
   | _ => []) ++
  forwarded (match s.recv with
   | .off stream => stream
   | .reading rest => rest
   | _ => [])

/-- Handling the messages of one database, ignoring the others and all errors. -/
def applied (db : Int64) (c : Local) (l : List Tagged) : Local :=
  ((l.filter fun x => decide (x.1 = db)).map Prod.snd).foldl (fun c m => (handle c (some m)).2) c

theorem applied_snoc (db : Int64) (c : Local) (l : List Tagged) (x : Tagged) :
    applied db c (l ++ [x]) = if x.1 = db then (handle (applied db c l) (some x.2)).2 else applied db c l := by
  by_cases h : x.1 = db
  · simp [applied, List.filter_append, h]
  · simp [applied, List.filter_append, h]

/-- What holds in every reachable state: nothing is lost, doubled or reordered, and the cache is the
result of what was taken. -/
structure Inv (cf : Conf) (c0 : Local) (all : List Tagged) (s : State) : Prop where
  fifo : s.taken ++ s.msgs ++ s.pending = all
  cache : s.cache = applied cf.db c0 s.taken
  started : ∀ rest good, s.main = .loading rest good → ∃ stream, s.recv = .off stream
  notClosed : s.closed = true → s.recv = .done

theorem inv_init (cf : Conf) (c0 : Local) (snap : List Tagged) (good : Bool) (stream : List Msg) :
    Inv cf c0 (snap ++ forwarded stream) (.init c0 snap good stream) :=
  ⟨by simp [State.init, State.pending], rfl, by intro r g _; exact ⟨_, rfl⟩, by simp [State.init]⟩

theorem inv_step {cf : Conf} {c0 : Local} {all : List Tagged} {s t : State} (hi : Inv cf c0 all s) (h : Step cf s t) :
    Inv cf c0 all t := by
  obtain ⟨h1, h2, h3, h4⟩ := hi
  cases h with
  | skip hc hh hm hd =>
    refine ⟨?_, ?_, h3, h4⟩
    · rw [← h1, hm]; simp [State.pending]
    · simp only [applied_snoc, if_neg hd, h2]
  | handled hc hh hm hd hr =>
    refine ⟨?_, ?_, h3, h4⟩
    · rw [← h1, hm]; simp [State.pending]
    · simp only [applied_snoc, if_pos hd, ← h2, hr]
  | failed hc hh hm hd hr =>
    refine ⟨?_, ?_, h3, h4⟩
    · rw [← h1, hm]; simp [State.pending]
    · simp only [applied_snoc, if_pos hd, ← h2, hr]
  | crash hc hh hm hd hr =>
    refine ⟨?_, ?_, h3, h4⟩
    · rw [← h1, hm]; simp [State.pending]
    · simp only [applied_snoc, if_pos hd, ← h2, hr]
  | zeroSkip => exact ⟨h1, h2, h3, h4⟩
  | zeroFailed hc hh hm hcl hd hr =>
    simp only [handle, Prod.mk.injEq] at hr
    exact ⟨h1, by simp only; rw [← hr.2]; exact h2, h3, h4⟩
  | report => exact ⟨h1, h2, h3, h4⟩
  | drain => exact ⟨h1, h2, h3, h4⟩
  | load hc hm hl =>
    refine ⟨?_, h2, ?_, h4⟩
    · rw [← h1]; simp [State.pending, hm]
    · intro r g _; exact h3 _ _ hm
  | loadFailed hc hm =>
    refine ⟨?_, h2, ?_, h4⟩
    · rw [← h1]; simp [State.pending, hm]
    · intro r g he; cases he
  | loaded hc hm hr =>
    refine ⟨?_, h2, ?_, ?_⟩
    · rw [← h1]; simp [State.pending, hm, hr]
    · intro r g he; cases he
    · intro hcl; have := h4 hcl; rw [hr] at this; cases this
  | recvPing hc hr hp =>
    refine ⟨?_, h2, ?_, ?_⟩
    · rw [← h1]; simp [State.pending, hr, forwarded, hp]
    · intro r g he; obtain ⟨x, hx⟩ := h3 _ _ he; rw [hr] at hx; cases hx
    · intro hcl; have := h4 hcl; rw [hr] at this; cases this
  | recvSend hc hr hp hl =>
    have hm : ∀ rest good, s.main ≠ .loading rest good := by
      intro rest good he; obtain ⟨x, hx⟩ := h3 _ _ he; rw [hr] at hx; cases hx
    refine ⟨?_, h2, ?_, ?_⟩
    · rw [← h1]
      cases hmm : s.main with
      | loading rest good => exact absurd hmm (hm rest good)
      | returned => simp [State.pending, hr, forwarded, hp, hmm]
      | failed => simp [State.pending, hr, forwarded, hp, hmm]
    · intro r g he; exact absurd he (hm r g)
    · intro hcl; have := h4 hcl; rw [hr] at this; cases this
  | recvErr hc hr hl =>
    refine ⟨?_, h2, ?_, ?_⟩
    · rw [← h1]; simp [State.pending, hr]
    · intro r g he; obtain ⟨x, hx⟩ := h3 _ _ he; rw [hr] at hx; cases hx
    · intro hcl; have := h4 hcl; rw [hr] at this; cases this
  | close hc hr =>
    refine ⟨?_, h2, ?_, ?_⟩
    · rw [← h1]; simp [State.pending, hr]
    · intro r g he; obtain ⟨x, hx⟩ := h3 _ _ he; rw [hr] at hx; cases hx
    · intro _; rfl
  | ackFailed => exact ⟨h1, h2, h3, h4⟩
  | ackReport => exact ⟨h1, h2, h3, h4⟩

theorem inv_steps {cf : Conf} {c0 : Local} {all : List Tagged} {s t : State} (hi : Inv cf c0 all s) (h : Steps cf s t) :
    Inv cf c0 all t := by
  induction h with
  | refl => exact hi
  | tail _ hs ih => exact inv_step ih hs

/-! ## C76 -/

/-- C76, full statement refuted: the master assigns a key in database 1, and the client, which is
configured for database 0, stores it. -/
theorem C76_violated : ¬ ∀ (stream : List Msg) (s : State), (∀ p ∈ belongs 0 stream, p.1 ≠ 0) →
    Steps (conf 0) (.init (some Cache.new) [] true stream) s → ∀ c, s.cache = some c → ∀ k, (c.get 0 k).2 = .err .keyNil := by
  intro h
  have h1 : handle (some Cache.new) (some (command [b!"SELECT", b!"1"])) =
      (.err (.unknown (ser (command [b!"SELECT", b!"1"]))), some Cache.new) := by
    have a1 : ¬ lower b!"SELECT" = b!"set" := by decide
    have a2 : ¬ lower b!"SELECT" = b!"rpush" := by decide
    have a3 : ¬ lower b!"SELECT" = b!"hmset" := by decide
    simp [handle, command, str, a1, a2, a3]
  have h2 : handle (some Cache.new) (some (command [b!"set", b!"k", b!"v"])) = (.ok (), some (Cache.new.set b!"k" b!"v").1) := rfl
  have hb : belongs 0 [command [b!"SELECT", b!"1"], command [b!"set", b!"k", b!"v"]] = [(1, command [b!"set", b!"k", b!"v"])] := by
    decide +kernel
  have := h [command [b!"SELECT", b!"1"], command [b!"set", b!"k", b!"v"]] _ (by rw [hb]; simp)
    ((((((Steps.refl.tail (.loaded rfl rfl rfl)).tail (.recvSend rfl rfl (by decide) (by decide))).tail
      (.recvSend rfl rfl (by decide) (by decide))).tail (.failed rfl rfl rfl rfl h1)).tail (.report rfl rfl (by decide))).tail
      (.handled rfl rfl rfl rfl h2))
    _ rfl b!"k"
  revert this
  decide +kernel

/-- C76, as far as it holds: in every schedule the cache is what handling the messages tagged with
the configured database makes of it; the messages taken are the first ones of what the snapshot and the
stream contain, in that order.  Missing: the receiver tags everything in the stream with database
0 (`C76_violated`). -/
theorem C76_tagged_partial (cf : Conf) (c0 : Local) (snap : List Tagged) (good : Bool) (stream : List Msg) (s : State)
    (h : Steps cf (.init c0 snap good stream) s) :
    s.taken <+: snap ++ forwarded stream ∧
    s.cache = ((s.taken.filter fun x => decide (x.1 = cf.db)).map Prod.snd).foldl (fun c m => (handle c (some m)).2) c0 := by
  have hi := inv_steps (inv_init cf c0 snap good stream) h
  exact ⟨⟨s.msgs ++ s.pending, by rw [← hi.fifo, List.append_assoc]⟩, hi.cache⟩

/-- C76 for snapshots: as long as every message of the snapshot belongs to another database and the
stream has not begun, the cache is untouched. -/
theorem C76_snapshot_partial (cf : Conf) (c0 : Local) (snap : List Tagged) (good : Bool) (s : State)
    (hs : ∀ x ∈ snap, x.1 ≠ cf.db) (h : Steps cf (.init c0 snap good []) s) : s.cache = c0 := by
  obtain ⟨h1, h2⟩ := C76_tagged_partial cf c0 snap good [] s h
  rw [h2]
  have : s.taken.filter (fun x => decide (x.1 = cf.db)) = [] := by
    rw [List.filter_eq_nil_iff]
    intro x hx
    have := h1.subset hx
    simp only [forwarded, List.filter_nil, List.map_nil, List.append_nil] at this
    simpa using hs x this
  rw [this]; rfl

/-- A message of database 3 is taken and nothing happens. -/
example : ∃ s, Steps (conf 0) (.init (some Cache.new) [(3, command [b!"set", b!"k", b!"v"])] true []) s ∧ s.taken.length = 1 :=
  ⟨_, (Steps.refl.tail (.load rfl rfl (by decide))).tail (.skip rfl rfl rfl (by decide)), rfl⟩

/-! ## C77 -/

/-- The handler waits for room in a channel that only the handler empties. -/
structure Stuck (cf : Conf) (s : State) : Prop where
  hand : s.hand = .report
  full : cf.capE ≤ s.errs

theorem stuck_step {cf : Conf} {s t : State} (hs : Stuck cf s) (h : Step cf s t) : Stuck cf t ∧ t.taken = s.taken ∧ t.cache = s.cache := by
  obtain ⟨h1, h2⟩ := hs
  cases h with
  | skip _ hh | handled _ hh | failed _ hh | crash _ hh | zeroSkip _ hh | zeroFailed _ hh | drain _ hh => rw [h1] at hh; cases hh
  | report _ _ hl => omega
  | recvErr _ _ hl => omega
  | ackReport _ _ hl => omega
  | load | loadFailed | loaded | recvPing | recvSend | close | ackFailed => exact ⟨⟨h1, h2⟩, rfl, rfl⟩

/-- Once stuck, the handler takes nothing any more. -/
theorem stuck_forever {cf : Conf} {s t : State} (hs : Stuck cf s) (h : Steps cf s t) : Stuck cf t ∧ t.taken = s.taken ∧ t.cache = s.cache := by
  induction h with
  | refl => exact ⟨hs, rfl, rfl⟩
  | tail _ hst ih =>
    obtain ⟨a, b, c⟩ := stuck_step ih.1 hst
    exact ⟨a, b.trans ih.2.1, c.trans ih.2.2⟩

/-- C77 is false: after two commands that the handler does not know it may wait for itself.  Whatever happens afterwards, it takes nothing any more, and the cache
never changes again, though messages for it are waiting. -/
theorem C77_violated (c : Cache) (m1 m2 m3 : Msg) (e1 e2 : HErr) (h1 : handle (some c) (some m1) = (.err e1, some c))
    (h2 : handle (some c) (some m2) = (.err e2, some c)) (p1 : isPing m1 = false) (p2 : isPing m2 = false) (p3 : isPing m3 = false) :
    ∃ s, Steps (conf 0) (.init (some c) [] true [m1, m2, m3]) s ∧ s.msgs = [(0, m3)] ∧
      ∀ t, Steps (conf 0) s t → t.taken = s.taken ∧ t.cache = some c := by
  refine ⟨⟨[(0, m3)], false, 1, .report, .returned, .reading [], .idle, some c, false, [(0, m1), (0, m2)]⟩,
    ((((((Steps.refl.tail (.loaded rfl rfl rfl)).tail (.recvSend rfl rfl p1 (by simp [State.init, conf]))).tail
      (.recvSend rfl rfl p2 (by simp [State.init, conf]))).tail (.recvSend rfl rfl p3 (by simp [State.init, conf]))).tail
      (.failed rfl rfl rfl rfl h1)).tail (.report rfl rfl (by simp [State.init, conf]))).tail (.failed rfl rfl rfl rfl h2), rfl, ?_⟩
  intro t ht
  obtain ⟨_, a, b⟩ := stuck_forever ⟨rfl, Nat.le_refl _⟩ ht
  exact ⟨a, b⟩

/-- Such commands: an ordinary stream is full of them. -/
example : ∃ s, Steps (conf 0) (.init (some Cache.new) [] true
      [command [b!"DEL", b!"a"], command [b!"DEL", b!"b"], command [b!"SET", b!"c", b!"1"]]) s ∧
    s.msgs = [(0, command [b!"SET", b!"c", b!"1"])] ∧ ∀ t, Steps (conf 0) s t → t.taken = s.taken ∧ t.cache = some Cache.new :=
  C77_violated Cache.new _ _ _ _ _ rfl rfl (by decide) (by decide) (by decide)

/-- C77 also fails with a single such command, if an acknowledgement could not be sent, or the connection
was lost, and the handler has not yet looked at that error. -/
theorem C77_one_command_violated (c : Cache) (m : Msg) (e : HErr) (h : handle (some c) (some m) = (.err e, some c)) (p : isPing m = false)
    (rest : List Msg) :
    (∃ s, Steps (conf 0) (.init (some c) [] true (m :: rest)) s ∧ s.recv = .reading rest ∧
      ∀ t, Steps (conf 0) s t → t.taken = s.taken ∧ t.cache = some c) ∧
    (∃ s, Steps (conf 0) (.init (some c) [] true [m]) s ∧ s.ack = .idle ∧ s.closed = true ∧
      ∀ t, Steps (conf 0) s t → t.taken = s.taken ∧ t.cache = some c) := by
  constructor
  · refine ⟨⟨[], false, 1, .report, .returned, .reading rest, .idle, some c, false, [(0, m)]⟩,
      ((((Steps.refl.tail (.loaded rfl rfl rfl)).tail (.recvSend rfl rfl p (by simp [State.init, conf]))).tail
        (.ackFailed rfl rfl)).tail (.ackReport rfl rfl (by simp [State.init, conf]))).tail (.failed rfl rfl rfl rfl h), rfl, ?_⟩
    intro t ht
    obtain ⟨_, a, b⟩ := stuck_forever ⟨rfl, Nat.le_refl _⟩ ht
    exact ⟨a, b⟩
  · refine ⟨⟨[], true, 1, .report, .returned, .done, .idle, some c, false, [(0, m)]⟩,
      ((((Steps.refl.tail (.loaded rfl rfl rfl)).tail (.recvSend rfl rfl p (by simp [State.init, conf]))).tail
        (.recvErr rfl rfl (by simp [State.init, conf]))).tail (.close rfl rfl)).tail (.failed rfl rfl rfl rfl h), rfl, rfl, ?_⟩
    intro t ht
    obtain ⟨_, a, b⟩ := stuck_forever ⟨rfl, Nat.le_refl _⟩ ht
    exact ⟨a, b⟩

/-- With the command `EVAL`. -/
example : ∃ s, Steps (conf 0) (.init (some Cache.new) [] true [command [b!"EVAL", b!"x"], command [b!"SET", b!"c", b!"1"]]) s ∧
    s.recv = .reading [command [b!"SET", b!"c", b!"1"]] ∧ ∀ t, Steps (conf 0) s t → t.taken = s.taken ∧ t.cache = some Cache.new :=
  (C77_one_command_violated Cache.new _ _ rfl (by decide) _).1

/-- The errors that arise in a step: the handler refuses a message, an acknowledgement cannot be sent, the
connection to the master is lost. -/
def newErrors (s t : State) : Nat :=
  (if s.hand = .loop ∧ t.hand = .report then 1 else 0) + (if s.ack = .idle ∧ t.ack = .report then 1 else 0) +
    (match s.recv, t.recv with | .reading _, .closing => 1 | _, _ => 0)

/-- Any number of steps in which `n` errors arise. -/
inductive Counted (cf : Conf) : State → Nat → State → Prop
  | refl {s} : Counted cf s 0 s
  | tail {s t u n} : Counted cf s n t → Step cf t u → Counted cf s (n + newErrors t u) u

/-- The errors in the channel and at its door. -/
def State.around (s : State) : Nat :=
  s.errs + (if s.hand = .report then 1 else 0) + (if s.ack = .report then 1 else 0)

theorem around_step {cf : Conf} {s t : State} (h : Step cf s t) : t.around ≤ s.around + newErrors s t := by
  cases h with
  | drain _ hh he => simp only [State.around, hh, he]; simp; omega
  | failed _ hh => simp [State.around, newErrors, hh]; omega
  | zeroFailed _ hh => simp [State.around, newErrors, hh]; omega
  | report _ hh => simp [State.around, newErrors, hh]
  | ackFailed _ hh => simp [State.around, newErrors, hh]; omega
  | ackReport _ hh => simp [State.around, newErrors, hh]; omega
  | recvErr _ hr => simp [State.around, newErrors, hr]; omega
  | loaded _ _ _ => simp only [State.around]; simp; omega
  | _ => simp only [State.around]; omega

theorem around_counted {cf : Conf} {s t : State} {n : Nat} (h : Counted cf s n t) : t.around ≤ s.around + n := by
  induction h with
  | refl => omega
  | tail _ hst ih => have := around_step hst; omega

/-- C77 with errors, as far as it holds: until a second error arises (a refused message, an acknowledgement
that cannot be sent, the loss of the connection), in any schedule, no goroutine ever waits for room in the
channel of the errors, so the handler is never stuck.  `C77_violated`, `C77_one_command_violated` and
`C77_violated_closed` show that two errors of any kind are enough. -/
theorem C77_first_error_partial (db : Int64) (c0 : Local) (snap : List Tagged) (good : Bool) (stream : List Msg) (n : Nat) (s : State)
    (h : Counted (conf db) (.init c0 snap good stream) n s) (hn : n ≤ 1) :
    ¬ Stuck (conf db) s ∧ (s.hand = .report ∨ s.ack = .report → s.errs = 0) := by
  have hb := around_counted h
  simp only [State.around, State.init] at hb
  constructor
  · rintro ⟨h1, h2⟩
    simp [h1, conf] at hb h2
    omega
  · rintro (h1 | h1) <;> simp [h1] at hb <;> omega

/-- Not vacuous: the handler has refused a command and is about to report it. -/
example : ∃ s, Counted (conf 0) (.init (some Cache.new) [] true [command [b!"EVAL", b!"x"]]) 1 s ∧ s.hand = .report := by
  refine ⟨_, ((Counted.refl.tail (.loaded rfl rfl rfl)).tail (.recvSend rfl rfl (by decide) (by decide))).tail
    (.failed rfl rfl rfl rfl rfl), rfl⟩

/-- The messages of the configured database that the handler can work with in every state. -/
def Good (db : Int64) (l : List Tagged) : Prop :=
  ∀ x ∈ l, x.1 = db → ∀ c : Cache, ∃ c' : Cache, handle (some c) (some x.2) = (.ok (), some c')

structure Live (cf : Conf) (s : State) : Prop where
  alive : s.crashed = false
  usable : ∃ c, s.cache = some c
  loop : s.closed = false ∨ cf.db ≠ 0 → s.hand = .loop

theorem live_step {cf : Conf} {c0 : Local} {all : List Tagged} (hg : Good cf.db all) {s t : State} (hi : Inv cf c0 all s)
    (hl : Live cf s) (h : Step cf s t) : Live cf t := by
  obtain ⟨h1, ⟨c, h2⟩, h3⟩ := hl
  have hmem : ∀ x q, s.msgs = x :: q → x ∈ all := by
    intro x q hx; rw [← hi.fifo, hx]; simp
  cases h with
  | skip => exact ⟨h1, ⟨c, h2⟩, h3⟩
  | handled hc hh hm hd hr =>
    obtain ⟨c', hc'⟩ := hg _ (hmem _ _ hm) hd c
    rw [h2, hc'] at hr
    cases hr
    exact ⟨h1, ⟨c', rfl⟩, h3⟩
  | failed hc hh hm hd hr =>
    obtain ⟨c', hc'⟩ := hg _ (hmem _ _ hm) hd c
    rw [h2, hc'] at hr
    cases hr
  | crash hc hh hm hd hr =>
    obtain ⟨c', hc'⟩ := hg _ (hmem _ _ hm) hd c
    rw [h2, hc'] at hr
    cases hr
  | zeroSkip => exact ⟨h1, ⟨c, h2⟩, h3⟩
  | zeroFailed hc hh hm hcl hd hr =>
    simp only [handle, Prod.mk.injEq] at hr
    refine ⟨h1, ⟨c, hr.2 ▸ h2⟩, ?_⟩
    rintro (h | h)
    · rw [hcl] at h; cases h
    · exact absurd hd.symm h
  | report hc hh hr => exact ⟨h1, ⟨c, h2⟩, fun _ => rfl⟩
  | close hc hr => 
    refine ⟨h1, ⟨c, h2⟩, ?_⟩
    rintro (h | h)
    · cases h
    · exact h3 (.inr h)
  | drain | load | loadFailed | loaded | recvPing | recvSend | recvErr | ackFailed | ackReport => exact ⟨h1, ⟨c, h2⟩, h3⟩

theorem live_steps {cf : Conf} {c0 : Local} {all : List Tagged} (hg : Good cf.db all) {s t : State} (hi : Inv cf c0 all s)
    (hl : Live cf s) (h : Steps cf s t) : Live cf t := by
  induction h with
  | refl => exact hl
  | tail hs hst ih => exact live_step hg (inv_steps hi hs) ih hst

/-- C77, as far as it holds: with a usable cache, and as long as the snapshot and the stream contain
only commands that the handler can work with, it never waits for anything but messages while the
connection lasts, whatever the receiver, the acknowledger and `New` do: the next message in the
channel can be taken at any moment, and the process never crashes. -/
theorem C77_supported_partial (cf : Conf) (c0 : Cache) (snap : List Tagged) (good : Bool) (stream : List Msg)
    (hg : Good cf.db (snap ++ forwarded stream)) (s : State) (h : Steps cf (.init (some c0) snap good stream) s)
    (ho : s.closed = false) :
    s.crashed = false ∧ s.hand = .loop ∧
      ∀ x q, s.msgs = x :: q → ∃ t, Step cf s t ∧ t.msgs = q ∧ t.taken = s.taken ++ [x] := by
  have hi := inv_init cf (some c0) snap good stream
  have hl := live_steps hg hi ⟨rfl, ⟨c0, rfl⟩, fun _ => rfl⟩ h
  have hi := inv_steps hi h
  refine ⟨hl.alive, hl.loop (.inl ho), ?_⟩
  rintro ⟨d, m⟩ q hq
  by_cases hd : d = cf.db
  · obtain ⟨c, hc⟩ := hl.usable
    obtain ⟨c', hc'⟩ := hg (d, m) (by rw [← hi.fifo, hq]; simp) hd c
    exact ⟨_, .handled hl.alive (hl.loop (.inl ho)) hq hd (by rw [hc]; exact hc'), rfl, rfl⟩
  · exact ⟨_, .skip hl.alive (hl.loop (.inl ho)) hq hd, rfl, rfl⟩

/-- Assignments are such commands. -/
theorem good_set (db : Int64) (m : Msg) (k v : Bytes) (h : IsSet m k v) : Good db [(db, m)] := by
  intro x hx _ c
  simp only [List.mem_cons, List.not_mem_nil, or_false] at hx
  subst hx
  exact ⟨_, handle_set h c⟩

/-- C77, the end of the connection: the handler gets stuck without any message, only because the
channel was closed and the error of the receiver and its own meet. -/
theorem C77_violated_closed (c : Local) : ∃ s, Steps (conf 0) (.init c [] true []) s ∧ Stuck (conf 0) s := by
  refine ⟨⟨[], true, 1, .report, .returned, .done, .idle, c, false, []⟩, ?_, rfl, Nat.le_refl _⟩
  exact (((Steps.refl.tail (.loaded rfl rfl rfl)).tail (.recvErr rfl rfl (by simp [State.init, conf]))).tail (.close rfl rfl)).tail
    (.zeroFailed rfl rfl rfl rfl rfl rfl)

end Verif.Repl

import Verif.Client.PropsPool
/-!
# The connection pool, with the ordinary variables each step touches

Source: redis/pool.go, as `Client/Pool`, but each caller is a goroutine inside `ExecCommand` or `Exec`
(redis/pool.go:99-122), or inside `Close`.

`create`, `Put` and `Close` have a value receiver (redis/pool.go:62, 76, 83): calling one of them through
the `*Pool` of the client copies the whole `Pool`, `size` and the mutex included.  `defer pool.Put(conn)`
(redis/pool.go:101, 115) makes that copy at the `defer` statement, right after `Get` and without the
lock.  The fields `capacity`, `connC`, `addr` and the handlers are written only while the client is
set up (redis/redis.go:32-62), so reading them is no race and they are not listed.

`erase` forgets the copies: what is left is the machine of `Client/Pool` (`erase_step`).
-/
namespace Verif.Pool.Race
open Verif.Pool (Conn PC)

/-- The two fields of `Pool` that change while it is used (redis/pool.go:13, 18). -/
inductive Loc where
  | size
  | mutex
deriving DecidableEq, Repr

/-- An ordinary read, an ordinary write, or an atomic update by `sync.Mutex`. -/
inductive Kind where
  | read
  | write
  | sync
deriving DecidableEq, Repr

structure Access where
  loc : Loc
  kind : Kind
deriving DecidableEq, Repr

/-- Two accesses that must be ordered by something: the same variable, not both reads and not both
atomic. -/
def Access.clash (a b : Access) : Prop :=
  a.loc = b.loc ∧ ¬ (a.kind = .read ∧ b.kind = .read) ∧ ¬ (a.kind = .sync ∧ b.kind = .sync)

instance (a b : Access) : Decidable (a.clash b) := inferInstanceAs (Decidable (_ ∧ _))

/-- Copying a `Pool` reads all of it. -/
def copyAll : List Access := [⟨.size, .read⟩, ⟨.mutex, .read⟩]

/-- Where a goroutine is. -/
inductive RPC where
  | idle                          -- outside, or about to enter the first `select` of `Get`
  | wantLock                      -- at `pool.l.Lock()`
  | locked                        -- before `pool.size < pool.capacity`
  | creating                      -- before the call `pool.create()`
  | created (c : Conn)            -- before `pool.size++`
  | counted (c : Conn)            -- before `pool.connC <- conn`
  | unlocking                     -- before `pool.l.Unlock()`
  | waiting                       -- at the second `select` of `Get`
  | returned (c : Option Conn)    -- `Get` returned a connection or an error; before `defer pool.Put(conn)`
  | running (c : Option Conn)     -- after it; the body of `ExecCommand` or `Exec`
  | closing                       -- inside the loop of `Close`
deriving DecidableEq, Repr

/-- The pool and its callers; the components are those of `Pool.State`. -/
structure State where
  chan : List Conn
  size : Nat
  lock : Bool
  opened : Nat
  leaked : List Conn
  closed : List Conn
  broken : Bool
  closeErrs : Nat
  thr : List RPC
deriving DecidableEq, Repr

/-- A fresh pool with `n` callers. -/
def State.init (n : Nat) : State := ⟨[], 0, false, 0, [], [], false, 0, List.replicate n .idle⟩

/-- Move of caller `i`. -/
def State.at (s : State) (i : Nat) (p : RPC) : State := { s with thr := s.thr.set i p }

/-- One step of caller `i` and what it touches (redis/pool.go:36-122); `cl` says whether callers may
also call `Close`. -/
inductive Step (cap : Nat) (cl : Bool) : State → Nat → List Access → State → Prop
  /-- lines 38-39 -/
  | getFast {s : State} {i : Nat} {c cs} : s.thr[i]? = some .idle → s.chan = c :: cs →
      Step cap cl s i [] { s.at i (.returned (some c)) with chan := cs }
  /-- line 40 -/
  | getSlow {s : State} {i : Nat} : s.thr[i]? = some .idle → s.chan = [] → Step cap cl s i [] (s.at i .wantLock)
  /-- line 42, the mutex is free -/
  | lock {s : State} {i : Nat} : s.thr[i]? = some .wantLock → s.lock = false →
      Step cap cl s i [⟨.mutex, .sync⟩] { s.at i .locked with lock := true }
  /-- line 42, it is taken: the goroutine notes in the mutex that it waits -/
  | lockWait {s : State} {i : Nat} : s.thr[i]? = some .wantLock → s.lock = true → Step cap cl s i [⟨.mutex, .sync⟩] s
  /-- line 43, there is room -/
  | room {s : State} {i : Nat} : s.thr[i]? = some .locked → s.size < cap →
      Step cap cl s i [⟨.size, .read⟩] (s.at i .creating)
  /-- line 43, there is not -/
  | noRoom {s : State} {i : Nat} : s.thr[i]? = some .locked → cap ≤ s.size →
      Step cap cl s i [⟨.size, .read⟩] (s.at i .unlocking)
  /-- line 44, `create` succeeds -/
  | dialOk {s : State} {i : Nat} : s.thr[i]? = some .creating →
      Step cap cl s i copyAll { s.at i (.created s.opened) with opened := s.opened + 1 }
  /-- lines 44-46, the dial fails -/
  | dialFail {s : State} {i : Nat} : s.thr[i]? = some .creating →
      Step cap cl s i copyAll { s.at i (.returned none) with broken := true }
  /-- lines 44-46, an open handler fails -/
  | openFail {s : State} {i : Nat} : s.thr[i]? = some .creating →
      Step cap cl s i copyAll { s.at i (.returned none) with broken := true, opened := s.opened + 1, leaked := s.opened :: s.leaked }
  /-- line 48 -/
  | count {s : State} {i : Nat} {c} : s.thr[i]? = some (.created c) →
      Step cap cl s i [⟨.size, .read⟩, ⟨.size, .write⟩] { s.at i (.counted c) with size := s.size + 1 }
  /-- line 49 -/
  | push {s : State} {i : Nat} {c} : s.thr[i]? = some (.counted c) → s.chan.length < cap →
      Step cap cl s i [] { s.at i .unlocking with chan := s.chan ++ [c] }
  /-- line 51 -/
  | unlock {s : State} {i : Nat} : s.thr[i]? = some .unlocking →
      Step cap cl s i [⟨.mutex, .sync⟩] { s.at i .waiting with lock := false }
  /-- lines 57-58 -/
  | recv {s : State} {i : Nat} {c cs} : s.thr[i]? = some .waiting → s.chan = c :: cs →
      Step cap cl s i [] { s.at i (.returned (some c)) with chan := cs }
  /-- lines 55-56 -/
  | timeout {s : State} {i : Nat} : s.thr[i]? = some .waiting → Step cap cl s i [] (s.at i (.returned none))
  /-- lines 101, 115: `defer pool.Put(conn)` copies the pool -/
  | defer {s : State} {i : Nat} {o} : s.thr[i]? = some (.returned o) → Step cap cl s i copyAll (s.at i (.running o))
  /-- lines 76-80 for nil -/
  | putNil {s : State} {i : Nat} : s.thr[i]? = some (.running none) → Step cap cl s i [] (s.at i .idle)
  /-- lines 76-80 -/
  | put {s : State} {i : Nat} {c} : s.thr[i]? = some (.running (some c)) → s.chan.length < cap →
      Step cap cl s i [] { s.at i .idle with chan := s.chan ++ [c] }
  /-- line 83: calling `Close` copies the pool -/
  | closeStart {s : State} {i : Nat} : cl = true → s.thr[i]? = some .idle → Step cap cl s i copyAll (s.at i .closing)
  /-- lines 84-94, no error -/
  | closeOne {s : State} {i : Nat} {c cs} : s.thr[i]? = some .closing → s.chan = c :: cs →
      Step cap cl s i [] { s with chan := cs, closed := c :: s.closed }
  /-- lines 86-92 -/
  | closeErr {s : State} {i : Nat} {c cs} : s.thr[i]? = some .closing → s.chan = c :: cs →
      Step cap cl s i [] { s.at i .idle with chan := cs, closed := c :: s.closed, closeErrs := s.closeErrs + 1 }

/-- Any number of steps. -/
inductive Steps (cap : Nat) (cl : Bool) : State → State → Prop
  | refl {s} : Steps cap cl s s
  | tail {s t u i a} : Steps cap cl s t → Step cap cl t i a u → Steps cap cl s u

/-- From `s` on a schedule exists in which two goroutines touch `x` one right after the other,
conflictingly. -/
def RaceOn (cap : Nat) (cl : Bool) (s : State) (x : Loc) : Prop :=
  ∃ t u v i j as bs, Steps cap cl s t ∧ Step cap cl t i as u ∧ Step cap cl u j bs v ∧ i ≠ j ∧
    ∃ a ∈ as, ∃ b ∈ bs, a.loc = x ∧ a.clash b

/-- A data race on any field. -/
def HasRace (cap : Nat) (cl : Bool) (s : State) : Prop := ∃ x, RaceOn cap cl s x

/-! ## Forgetting the copies -/

def RPC.erase : RPC → PC
  | .idle => .idle
  | .wantLock => .wantLock
  | .locked => .locked
  | .creating => .locked
  | .created c => .created c
  | .counted c => .counted c
  | .unlocking => .unlocking
  | .waiting => .waiting
  | .returned none => .idle
  | .returned (some c) => .holding c
  | .running none => .idle
  | .running (some c) => .holding c
  | .closing => .closing

def State.erase (s : State) : Pool.State :=
  ⟨s.chan, s.size, s.lock, s.opened, s.leaked, s.closed, s.broken, s.closeErrs, s.thr.map RPC.erase⟩

theorem thr_erase {s : State} {i : Nat} {p : RPC} (h : s.thr[i]? = some p) : s.erase.thr[i]? = some p.erase := by
  simp [State.erase, h]

theorem erase_at (s : State) (i : Nat) (p : RPC) : (s.at i p).erase = s.erase.at i p.erase := by
  simp [State.erase, State.at, Pool.State.at, List.map_set]

theorem at_self {s : State} {i : Nat} {p q : RPC} (h : s.thr[i]? = some p) (e : p.erase = q.erase) :
    (s.at i q).erase = s.erase := by
  rw [erase_at, ← e]
  have hs : s.erase.thr.set i p.erase = s.erase.thr := by
    apply List.ext_getElem?
    intro k
    by_cases hk : i = k
    · subst hk
      have ht := thr_erase h
      obtain ⟨hl, _⟩ := List.getElem?_eq_some_iff.mp ht
      rw [ht, List.getElem?_set_self hl]
    · rw [List.getElem?_set_ne hk]
  unfold Pool.State.at
  rw [hs]

theorem set_cases {l : List RPC} {i k : Nat} {q p : RPC} (h : (l.set i q)[k]? = some p) :
    (k = i ∧ p = q) ∨ (k ≠ i ∧ l[k]? = some p) := by
  by_cases hk : i = k
  · subst hk
    left
    have hl : i < l.length := by
      have := (List.getElem?_eq_some_iff.mp h).1
      simpa using this
    rw [List.getElem?_set_self hl] at h
    exact ⟨rfl, (Option.some.inj h).symm⟩
  · right
    rw [List.getElem?_set_ne hk] at h
    exact ⟨fun e => hk e.symm, h⟩

/-- Past the point where the pool has opened a connection or a dial has failed. -/
def RPC.late : RPC → Prop
  | .counted _ | .unlocking | .waiting | .returned _ | .running _ => True
  | _ => False

/-- In the critical section. -/
def RPC.crit : RPC → Prop
  | .locked | .creating | .created _ | .counted _ | .unlocking => True
  | _ => False

/-- What every reachable state satisfies. -/
structure RInv (cap : Nat) (s : State) : Prop where
  base : Pool.Inv cap s.erase
  room : ∀ i : Nat, s.thr[i]? = some .creating → s.size < cap
  late : ∀ (i : Nat) (p : RPC), s.thr[i]? = some p → p.late → 1 ≤ s.size ∨ s.broken = true

theorem crit_weight {p : RPC} (h : p.crit) : Pool.freshW p.erase + Pool.critW p.erase = 1 := by
  cases p <;> simp [RPC.crit] at h <;> rfl

/-- Two goroutines are never in the critical section together, and none is after a failed dial. -/
theorem crit_one {cap : Nat} {s : State} (h : Pool.Inv cap s.erase) {i : Nat} {p : RPC} (hi : s.thr[i]? = some p)
    (hp : p.crit) : s.broken = false ∧ ∀ j q, s.thr[j]? = some q → q.crit → j = i := by
  have hm := h.mutex
  have hL : Pool.bit s.erase.lock ≤ 1 := by unfold Pool.bit; split <;> omega
  have w1 := Pool.wsum_ge Pool.freshW (thr_erase hi)
  have w2 := Pool.wsum_ge Pool.critW (thr_erase hi)
  have w3 := crit_weight hp
  constructor
  · cases hb : s.broken with
    | false => rfl
    | true =>
      have : Pool.bit s.erase.broken = 1 := by simp [State.erase, hb, Pool.bit]
      omega
  · intro j q hj hq
    refine Classical.byContradiction fun hne => ?_
    have v1 := Pool.wsum_pair Pool.freshW hne (thr_erase hj) (thr_erase hi)
    have v2 := Pool.wsum_pair Pool.critW hne (thr_erase hj) (thr_erase hi)
    have v3 := crit_weight hq
    omega

theorem rinv_init (cap n : Nat) : RInv cap (State.init n) where
  base := by
    have : (State.init n).erase = Pool.State.init n := by simp [State.init, State.erase, Pool.State.init, RPC.erase]
    rw [this]; exact Pool.inv_init cap n
  room := by
    intro i h
    simp [State.init, List.getElem?_replicate] at h
  late := by
    intro i p h hp
    simp [State.init, List.getElem?_replicate] at h
    obtain ⟨_, rfl⟩ := h
    simp [RPC.late] at hp

/-- Without the copies, a step is a step of the pool machine or no step. -/
theorem erase_step {cap : Nat} {cl : Bool} {s t : State} {i : Nat} {a : List Access} (h : RInv cap s)
    (st : Step cap cl s i a t) : Pool.Step cap s.erase t.erase ∨ t.erase = s.erase := by
  cases st with
  | getFast h1 h2 =>
    have := Pool.Step.getFast (cap := cap) (s := s.erase) (thr_erase h1) h2
    exact .inl (by simpa [State.erase, State.at, Pool.State.at, List.map_set, RPC.erase] using this)
  | getSlow h1 h2 => have := Pool.Step.getSlow (cap := cap) (s := s.erase) (thr_erase h1) h2; rw [erase_at]; exact .inl this
  | lock h1 h2 =>
    have := Pool.Step.lock (cap := cap) (s := s.erase) (thr_erase h1) h2
    exact .inl (by simpa [State.erase, State.at, Pool.State.at, List.map_set, RPC.erase] using this)
  | lockWait h1 h2 => exact .inr rfl
  | room h1 h2 => exact .inr (at_self h1 rfl)
  | noRoom h1 h2 => have := Pool.Step.noRoom (cap := cap) (s := s.erase) (thr_erase h1) h2; rw [erase_at]; exact .inl this
  | dialOk h1 =>
    have := Pool.Step.dialOk (cap := cap) (s := s.erase) (thr_erase h1) (h.room _ h1)
    exact .inl (by simpa [State.erase, State.at, Pool.State.at, List.map_set, RPC.erase] using this)
  | dialFail h1 =>
    have := Pool.Step.dialFail (cap := cap) (s := s.erase) (thr_erase h1) (h.room _ h1)
    exact .inl (by simpa [State.erase, State.at, Pool.State.at, List.map_set, RPC.erase] using this)
  | openFail h1 =>
    have := Pool.Step.openFail (cap := cap) (s := s.erase) (thr_erase h1) (h.room _ h1)
    exact .inl (by simpa [State.erase, State.at, Pool.State.at, List.map_set, RPC.erase] using this)
  | count h1 =>
    have := Pool.Step.count (cap := cap) (s := s.erase) (thr_erase h1)
    exact .inl (by simpa [State.erase, State.at, Pool.State.at, List.map_set, RPC.erase] using this)
  | push h1 h2 =>
    have := Pool.Step.push (cap := cap) (s := s.erase) (thr_erase h1) h2
    exact .inl (by simpa [State.erase, State.at, Pool.State.at, List.map_set, RPC.erase] using this)
  | unlock h1 =>
    have := Pool.Step.unlock (cap := cap) (s := s.erase) (thr_erase h1)
    exact .inl (by simpa [State.erase, State.at, Pool.State.at, List.map_set, RPC.erase] using this)
  | recv h1 h2 =>
    have := Pool.Step.recv (cap := cap) (s := s.erase) (thr_erase h1) h2
    exact .inl (by simpa [State.erase, State.at, Pool.State.at, List.map_set, RPC.erase] using this)
  | timeout h1 => have := Pool.Step.timeout (cap := cap) (s := s.erase) (thr_erase h1); rw [erase_at]; exact .inl this
  | @defer o h1 => exact .inr (at_self h1 (by cases o <;> rfl))
  | putNil h1 => exact .inr (at_self h1 rfl)
  | put h1 h2 =>
    have := Pool.Step.put (cap := cap) (s := s.erase) (thr_erase h1) h2
    exact .inl (by simpa [State.erase, State.at, Pool.State.at, List.map_set, RPC.erase] using this)
  | closeStart _ h1 => have := Pool.Step.closeStart (cap := cap) (s := s.erase) (thr_erase h1); rw [erase_at]; exact .inl this
  | closeOne h1 h2 => exact .inl (Pool.Step.closeOne (cap := cap) (s := s.erase) (thr_erase h1) h2)
  | closeErr h1 h2 =>
    have := Pool.Step.closeErr (cap := cap) (s := s.erase) (thr_erase h1) h2
    exact .inl (by simpa [State.erase, State.at, Pool.State.at, List.map_set, RPC.erase] using this)

/-- Only `size++` changes the size, and only by one more. -/
theorem size_mono {cap : Nat} {cl : Bool} {s t : State} {i : Nat} {a : List Access} (st : Step cap cl s i a t) :
    s.size ≤ t.size ∧ (s.broken = true → t.broken = true) := by
  cases st <;> simp [State.at]

theorem chan_size {cap : Nat} {s : State} (h : Pool.Inv cap s.erase) {c cs} (hc : s.chan = c :: cs) : 1 ≤ s.size := by
  have := h.size
  simp only [State.erase, hc, List.length_cons] at this
  omega

theorem rinv_step {cap : Nat} (hcap : 1 ≤ cap) {cl : Bool} {s t : State} {i : Nat} {a : List Access} (h : RInv cap s)
    (st : Step cap cl s i a t) : RInv cap t := by
  have hmono := size_mono st
  refine ⟨?_, ?_, ?_⟩
  · rcases erase_step h st with he | he
    · exact Pool.inv_step h.base he
    · rw [he]; exact h.base
  · intro k hk
    cases st with
    | count h1 =>
      rcases set_cases hk with ⟨_, e⟩ | ⟨hne, hk⟩
      · cases e
      · exact absurd ((crit_one h.base h1 trivial).2 k _ hk trivial) hne
    | room h1 h2 => simpa [State.at] using h2
    | lockWait h1 h2 => exact h.room k hk
    | closeOne h1 h2 => exact h.room k hk
    | _ =>
      rcases set_cases hk with ⟨_, e⟩ | ⟨_, hk⟩
      · cases e
      · exact h.room k hk
  · intro k p hk hp
    have old : s.thr[k]? = some p → 1 ≤ t.size ∨ t.broken = true := fun h' =>
      (h.late k p h' hp).elim (fun x => .inl (Nat.le_trans x hmono.1)) (fun x => .inr (hmono.2 x))
    cases st with
    | lockWait h1 h2 => exact old hk
    | closeOne h1 h2 => exact old hk
    | getFast h1 h2 => exact .inl (by simpa [State.at] using chan_size h.base h2)
    | recv h1 h2 => exact .inl (by simpa [State.at] using chan_size h.base h2)
    | noRoom h1 h2 => exact .inl (by simp [State.at]; omega)
    | dialFail h1 => exact .inr rfl
    | openFail h1 => exact .inr rfl
    | count h1 => exact .inl (by simp)
    | push h1 h2 => exact (h.late _ _ h1 trivial)
    | unlock h1 => exact (h.late _ _ h1 trivial)
    | timeout h1 => exact (h.late _ _ h1 trivial)
    | defer h1 => exact (h.late _ _ h1 trivial)
    | _ =>
      rcases set_cases hk with ⟨_, e⟩ | ⟨_, hk⟩
      · subst e; exact absurd hp (by simp [RPC.late])
      · exact old hk

theorem rinv_steps {cap : Nat} (hcap : 1 ≤ cap) {cl : Bool} {s t : State} (h : RInv cap s) (st : Steps cap cl s t) :
    RInv cap t := by
  induction st with
  | refl => exact h
  | tail _ hs ih => exact rinv_step hcap ih hs

theorem step_thr {cap : Nat} {cl : Bool} {s t : State} {i : Nat} {a : List Access} (st : Step cap cl s i a t) :
    i < s.thr.length ∧ t.thr.length = s.thr.length := by
  have lt : ∀ {p}, s.thr[i]? = some p → i < s.thr.length := fun h => (List.getElem?_eq_some_iff.mp h).1
  cases st <;> exact ⟨lt (by assumption), by simp [State.at]⟩

theorem step_other {cap : Nat} {cl : Bool} {s t : State} {i k : Nat} {a : List Access} (st : Step cap cl s i a t)
    (hk : k ≠ i) : t.thr[k]? = s.thr[k]? := by
  have hk' : i ≠ k := fun e => hk e.symm
  cases st <;> simp [State.at, List.getElem?_set_ne hk']

theorem steps_len {cap : Nat} {cl : Bool} {s t : State} (st : Steps cap cl s t) : t.thr.length = s.thr.length := by
  induction st with
  | refl => rfl
  | tail _ h ih => rw [(step_thr h).2, ih]

theorem Steps.trans {cap : Nat} {cl : Bool} {s t u : State} (h : Steps cap cl s t) (g : Steps cap cl t u) : Steps cap cl s u := by
  induction g with
  | refl => exact h
  | tail _ hs ih => exact .tail ih hs

/-- The run without the copies is a run of the pool machine. -/
theorem erase_steps {cap n : Nat} (hcap : 1 ≤ cap) {cl : Bool} {t : State} (st : Steps cap cl (State.init n) t) :
    Pool.Reachable cap n t.erase := by
  generalize hs : State.init n = s at st
  induction st with
  | refl =>
    subst hs
    have : (State.init n).erase = Pool.State.init n := by simp [State.init, State.erase, Pool.State.init, RPC.erase]
    rw [this]; exact .refl
  | tail h st ih =>
    have hi := rinv_steps hcap (hs ▸ rinv_init cap n) h
    rcases erase_step hi st with he | he
    · exact .tail ih he
    · rw [he]; exact ih

/-- Who writes `size`. -/
theorem wrote {cap : Nat} {cl : Bool} {s t : State} {i : Nat} {as : List Access} (st : Step cap cl s i as t) {a : Access}
    (ha : a ∈ as) (hl : a.loc = .size) : a.kind = .read ∨ (a.kind = .write ∧ ∃ c, s.thr[i]? = some (.created c)) := by
  cases st <;> simp [copyAll] at ha
  case count h =>
    rcases ha with rfl | rfl
    · exact .inl rfl
    · exact .inr ⟨rfl, _, h⟩
  all_goals first
    | (subst ha; first | exact .inl rfl | cases hl)
    | (rcases ha with rfl | rfl <;> first | exact .inl rfl | cases hl)

/-- Who touches `size` at all. -/
theorem touched {cap : Nat} {cl : Bool} {s t : State} {i : Nat} {as : List Access} (st : Step cap cl s i as t) {a : Access}
    (ha : a ∈ as) (hl : a.loc = .size) :
    ∃ p, s.thr[i]? = some p ∧ (p.crit ∨ (∃ o, p = .returned o) ∨ (p = .idle ∧ cl = true)) := by
  cases st <;> simp [copyAll] at ha
  case lock => subst ha; cases hl
  case lockWait => subst ha; cases hl
  case unlock => subst ha; cases hl
  case defer o h => exact ⟨_, h, .inr (.inl ⟨_, rfl⟩)⟩
  case room h _ => exact ⟨_, h, .inl trivial⟩
  case noRoom h _ => exact ⟨_, h, .inl trivial⟩
  case closeStart hc h => exact ⟨_, h, .inr (.inr ⟨rfl, hc⟩)⟩
  all_goals (rename_i h; exact ⟨_, h, .inl trivial⟩)

end Verif.Pool.Race

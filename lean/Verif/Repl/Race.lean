import Verif.Repl.PropsMachine
/-!
# The goroutines that New starts, with the ordinary variables each step touches

Source: xxcache.go:31-80, redis/replication.go:44-118.  The machine is that of `Repl/Model`, but every
step also shows what it does in the terms of the Go memory model: reads and writes of ordinary
variables, `go` statements, and sends to and receives from the channel of messages.

* `client` of `New` is one variable, shared with the handler through the receiver of
  `go client.handleReplication(repl)` (xxcache.go:47); the fields are listed one by one.
* `repl` is passed to the handler by value: the copy is made before the goroutine starts, and the
  handler reads nothing of the variable `repl` of `New`.  `Ack` and `WaitForMessage` share that
  variable (xxcache.go:54-56).
* `reader` and `writer` stand for the contents of `conn.Reader` and `conn.Writer`; `msg n` for the
  contents of the `n`-th message sent to the channel.
* A step of `Load` is listed with all the fields of `repl` that any record assigns, which is more than
  most records do; that can only make races.
* The error channel also orders things, as does the room that a receive makes; neither is used.
-/
namespace Verif.Repl.Race

open Verif.Resp

/-- The goroutines. -/
inductive Gor where
  | main
  | hand
  | recv
  | ack
deriving DecidableEq, Repr

/-- The ordinary variables. -/
inductive Loc where
  | clientOption | clientCache | clientRedis                                  -- xxcache.go:22-26
  | replId | replOffset | replDatabase | replMessages | replErr | replLastPing | replConn  -- redis/replication.go:22-37
  | reader | writer                                                           -- redis/conn.go:14-21
  | msg (n : Nat)
deriving DecidableEq, Repr

/-- What a goroutine does. -/
inductive Act where
  | acc (l : Loc) (write : Bool)
  | go (g : Gor)
  | send (n : Nat)
  | recv (n : Nat)
deriving DecidableEq, Repr

structure Ev where
  by_ : Gor
  act : Act
deriving DecidableEq, Repr

def rd (g : Gor) (l : Loc) : Ev := ⟨g, .acc l false⟩
def wr (g : Gor) (l : Loc) : Ev := ⟨g, .acc l true⟩

/-- `New` up to and with `go client.handleReplication(repl)` (xxcache.go:32-47, redis/replication.go:49-74). -/
def boot : List Ev :=
  [wr .main .clientOption, wr .main .clientCache, wr .main .replMessages, wr .main .replErr, wr .main .replConn,
   rd .main .replConn, wr .main .writer, wr .main .reader, rd .main .replConn, wr .main .writer, rd .main .replConn, wr .main .reader,
   ⟨.main, .go .hand⟩]

/-- The fields that records of the snapshot may assign (redis/replication.go:163-169, 228, 249-259). -/
def record : List Ev := [wr .main .replId, wr .main .replOffset, wr .main .replDatabase]

/-- `return client, err` (xxcache.go:51, 60) copies the variable. -/
def giveBack : List Ev := [rd .main .clientOption, rd .main .clientRedis, rd .main .clientCache]

/-- `repl.conn.Recv()` (redis/replication.go:78). -/
def receive : List Ev := [rd .recv .replConn, rd .recv .reader, wr .recv .reader]

/-- `repl.ack()` (redis/replication.go:98-110). -/
def acknowledge : List Ev := [rd .ack .replOffset, rd .ack .replOffset, rd .ack .replConn, rd .ack .writer, wr .ack .writer]

/-- The number of messages sent so far. -/
def sent (s : State) : Nat := s.taken.length + s.msgs.length

/-- One step, with what it does.  The conditions and the effects are those of `Repl.Step`. -/
inductive LStep (cf : Conf) : State → List Ev → State → Prop
  /-- xxcache.go:66-69 -/
  | skip {s : State} {d m q} : s.crashed = false → s.hand = .loop → s.msgs = (d, m) :: q → d ≠ cf.db →
      LStep cf s [⟨.hand, .recv s.taken.length⟩, rd .hand (.msg s.taken.length), rd .hand .clientOption]
        { s with msgs := q, taken := s.taken ++ [(d, m)] }
  /-- xxcache.go:71, no error -/
  | handled {s : State} {d m q c} : s.crashed = false → s.hand = .loop → s.msgs = (d, m) :: q → d = cf.db →
      handle s.cache (some m) = (.ok (), c) →
      LStep cf s [⟨.hand, .recv s.taken.length⟩, rd .hand (.msg s.taken.length), rd .hand .clientOption, rd .hand .clientCache]
        { s with msgs := q, taken := s.taken ++ [(d, m)], cache := c }
  /-- xxcache.go:71, an error -/
  | failed {s : State} {d m q c e} : s.crashed = false → s.hand = .loop → s.msgs = (d, m) :: q → d = cf.db →
      handle s.cache (some m) = (.err e, c) →
      LStep cf s [⟨.hand, .recv s.taken.length⟩, rd .hand (.msg s.taken.length), rd .hand .clientOption, rd .hand .clientCache]
        { s with msgs := q, taken := s.taken ++ [(d, m)], cache := c, hand := .report }
  /-- xxcache.go:71, a panic -/
  | crash {s : State} {d m q c} : s.crashed = false → s.hand = .loop → s.msgs = (d, m) :: q → d = cf.db →
      handle s.cache (some m) = (.panic, c) →
      LStep cf s [⟨.hand, .recv s.taken.length⟩, rd .hand (.msg s.taken.length), rd .hand .clientOption, rd .hand .clientCache]
        { s with msgs := q, taken := s.taken ++ [(d, m)], cache := c, crashed := true }
  /-- xxcache.go:66-69, the channel is closed -/
  | zeroSkip {s : State} : s.crashed = false → s.hand = .loop → s.msgs = [] → s.closed = true → (0 : Int64) ≠ cf.db →
      LStep cf s [rd .hand .clientOption] s
  | zeroFailed {s : State} {c e} : s.crashed = false → s.hand = .loop → s.msgs = [] → s.closed = true → (0 : Int64) = cf.db →
      handle s.cache none = (.err e, c) →
      LStep cf s [rd .hand .clientOption, rd .hand .clientCache] { s with cache := c, hand := .report }
  /-- xxcache.go:72; `repl` is the handler's own -/
  | report {s : State} : s.crashed = false → s.hand = .report → s.errs < cf.capE →
      LStep cf s [] { s with errs := s.errs + 1, hand := .loop }
  /-- xxcache.go:74-77 -/
  | drain {s : State} {n} : s.crashed = false → s.hand = .loop → s.errs = n + 1 → LStep cf s [] { s with errs := n }
  /-- `Load` up to the next message -/
  | load {s : State} {x rest good} : s.crashed = false → s.main = .loading (x :: rest) good → s.msgs.length < cf.cap →
      LStep cf s (record ++ [rd .main .replDatabase, rd .main .replMessages, wr .main (.msg (sent s)), ⟨.main, .send (sent s)⟩])
        { s with msgs := s.msgs ++ [x], main := .loading rest good }
  /-- xxcache.go:50-52 -/
  | loadFailed {s : State} : s.crashed = false → s.main = .loading [] false → LStep cf s (record ++ giveBack) { s with main := .failed }
  /-- xxcache.go:54-60 -/
  | loaded {s : State} {stream} : s.crashed = false → s.main = .loading [] true → s.recv = .off stream →
      LStep cf s (record ++ [⟨.main, .go .ack⟩, ⟨.main, .go .recv⟩, wr .main .clientRedis] ++ giveBack)
        { s with main := .returned, recv := .reading stream, ack := .idle }
  /-- redis/replication.go:78-88 -/
  | recvPing {s : State} {m rest} : s.crashed = false → s.recv = .reading (m :: rest) → isPing m = true →
      LStep cf s (receive ++ [wr .recv .replLastPing]) { s with recv := .reading rest }
  /-- redis/replication.go:78-94 -/
  | recvSend {s : State} {m rest} : s.crashed = false → s.recv = .reading (m :: rest) → isPing m = false → s.msgs.length < cf.cap →
      LStep cf s (receive ++ [rd .recv .replMessages, wr .recv (.msg (sent s)), ⟨.recv, .send (sent s)⟩])
        { s with msgs := s.msgs ++ [(0, m)], recv := .reading rest }
  /-- redis/replication.go:78-80 -/
  | recvErr {s : State} : s.crashed = false → s.recv = .reading [] → s.errs < cf.capE →
      LStep cf s (receive ++ [rd .recv .replErr]) { s with errs := s.errs + 1, recv := .closing }
  /-- redis/replication.go:81-82 -/
  | close {s : State} : s.crashed = false → s.recv = .closing →
      LStep cf s [rd .recv .replMessages] { s with closed := true, recv := .done }
  /-- redis/replication.go:114, no error -/
  | ackOk {s : State} : s.crashed = false → s.ack = .idle → LStep cf s acknowledge s
  /-- redis/replication.go:114, an error -/
  | ackFailed {s : State} : s.crashed = false → s.ack = .idle → LStep cf s acknowledge { s with ack := .report }
  /-- redis/replication.go:115 -/
  | ackReport {s : State} : s.crashed = false → s.ack = .report → s.errs < cf.capE →
      LStep cf s [rd .ack .replErr] { s with errs := s.errs + 1, ack := .idle }

/-- Runs, with everything that was done since the call of `New`. -/
inductive Run (cf : Conf) (s0 : State) : List Ev → State → Prop
  | start : Run cf s0 boot s0
  | next {tr s es t} : Run cf s0 tr s → LStep cf s es t → Run cf s0 (tr ++ es) t

/-- Without the labels these are the steps of `Repl.Step`; a successful acknowledgement changes nothing. -/
theorem LStep.step {cf : Conf} {s t : State} {es : List Ev} (h : LStep cf s es t) : Step cf s t ∨ t = s := by
  cases h with
  | skip a b c d => exact .inl (.skip a b c d)
  | handled a b c d e => exact .inl (.handled a b c d e)
  | failed a b c d e => exact .inl (.failed a b c d e)
  | crash a b c d e => exact .inl (.crash a b c d e)
  | zeroSkip => exact .inr rfl
  | zeroFailed a b c d e f => exact .inl (.zeroFailed a b c d e f)
  | report a b c => exact .inl (.report a b c)
  | drain a b c => exact .inl (.drain a b c)
  | load a b c => exact .inl (.load a b c)
  | loadFailed a b => exact .inl (.loadFailed a b)
  | loaded a b c => exact .inl (.loaded a b c)
  | recvPing a b c => exact .inl (.recvPing a b c)
  | recvSend a b c d => exact .inl (.recvSend a b c d)
  | recvErr a b c => exact .inl (.recvErr a b c)
  | close a b => exact .inl (.close a b)
  | ackOk => exact .inr rfl
  | ackFailed a b => exact .inl (.ackFailed a b)
  | ackReport a b c => exact .inl (.ackReport a b c)

/-- Every step of `Repl.Step` has its labels. -/
theorem LStep.of_step {cf : Conf} {s t : State} (h : Step cf s t) : ∃ es, LStep cf s es t := by
  cases h with
  | skip a b c d => exact ⟨_, .skip a b c d⟩
  | handled a b c d e => exact ⟨_, .handled a b c d e⟩
  | failed a b c d e => exact ⟨_, .failed a b c d e⟩
  | crash a b c d e => exact ⟨_, .crash a b c d e⟩
  | zeroSkip a b c d e => exact ⟨_, .zeroSkip a b c d e⟩
  | zeroFailed a b c d e f => exact ⟨_, .zeroFailed a b c d e f⟩
  | report a b c => exact ⟨_, .report a b c⟩
  | drain a b c => exact ⟨_, .drain a b c⟩
  | load a b c => exact ⟨_, .load a b c⟩
  | loadFailed a b => exact ⟨_, .loadFailed a b⟩
  | loaded a b c => exact ⟨_, .loaded a b c⟩
  | recvPing a b c => exact ⟨_, .recvPing a b c⟩
  | recvSend a b c d => exact ⟨_, .recvSend a b c d⟩
  | recvErr a b c => exact ⟨_, .recvErr a b c⟩
  | close a b => exact ⟨_, .close a b⟩
  | ackFailed a b => exact ⟨_, .ackFailed a b⟩
  | ackReport a b c => exact ⟨_, .ackReport a b c⟩

/-! ## Specification: happens before -/

/-- The order of the Go memory model, as far as needed: the order within a goroutine, `go` statements
before what the goroutine does, a send before the receive of the same message. -/
inductive HB (tr : List Ev) : Nat → Nat → Prop
  | order {i j g a b} : i < j → tr[i]? = some ⟨g, a⟩ → tr[j]? = some ⟨g, b⟩ → HB tr i j
  | go {i j g h a} : i < j → tr[i]? = some ⟨g, .go h⟩ → tr[j]? = some ⟨h, a⟩ → HB tr i j
  | chan {i j g h n} : i < j → tr[i]? = some ⟨g, .send n⟩ → tr[j]? = some ⟨h, .recv n⟩ → HB tr i j
  | trans {i j k} : HB tr i j → HB tr j k → HB tr i k

/-- No data race: of two accesses to the same variable by different goroutines, one of them a write,
the earlier happens before the later. -/
def RaceFree (tr : List Ev) : Prop :=
  ∀ (i j : Nat) (g h : Gor) (l : Loc) (v w : Bool), i < j → tr[i]? = some ⟨g, .acc l v⟩ → tr[j]? = some ⟨h, .acc l w⟩ →
    g ≠ h → v = true ∨ w = true → HB tr i j

end Verif.Repl.Race

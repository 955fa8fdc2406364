import Verif.Client.PropsPool
import Verif.Client.PropsRemote
/-!
# Many goroutines share one remote client

The pool machine (redis/pool.go, `Verif.Pool`), the connections with their readers and the server of
`Session`, put together: any number of goroutines call methods of one `*Redis`
(redis/redis.go:64-250, redis/pool.go:99-109, redis/conn.go:49-70).  `context.Background()` is never done and
nobody calls `Close` on the pool of a `*Redis`, so those moves of the pool machine do not occur.

Simplified: the open handlers of a new connection run in one step (they touch no data); the server
runs one request at a time; when a connection is lost, a reply not read yet arrives whole or not at all.
-/
namespace Verif.Client.Many
open Verif.Resp Verif.Client

/-- Where a call of a goroutine is. -/
inductive Job where
  | none
  | want (q : Req)                -- called, has no connection or has not sent yet
  | sent (q : Req)                -- the request is written (redis/conn.go:50)
  | got (q : Req) (r : RRes Msg)  -- `Recv` returned (redis/conn.go:54)

/-- What can be observed of a run. -/
inductive Event where
  | inv (i : Nat) (q : Req)                              -- goroutine `i` calls
  | send (i c : Nat) (q : Req)                           -- its request goes out on connection `c`
  | run (c : Nat) (t : Int) (line : List Bytes) (m : Msg) -- the server runs a request of `c` and replies `m`
  | ret (i c : Nat) (out : Option (Out Val))             -- the call returns
  | noConn (i : Nat)                                     -- the call fails for want of a connection
  | drop (c : Nat)                                       -- connection `c` is lost

/-- The whole system. -/
structure Sys where
  pool : Pool.State
  conn : Nat → Conn
  pend : Nat → Option Bytes   -- a request on its way to the server
  srv : Server
  now : Int
  job : Nat → Job
  todo : Nat → List Req
  log : List Event

/-- One entry of a map changed. -/
def set {α : Type} (f : Nat → α) (i : Nat) (a : α) : Nat → α := fun j => if j = i then a else f j

@[simp] theorem set_same {α : Type} (f : Nat → α) (i : Nat) (a : α) : set f i a i = a := by simp [set]
theorem set_ne {α : Type} (f : Nat → α) {i j : Nat} (a : α) (h : j ≠ i) : set f i a j = f j := by simp [set, h]

/-- `n` goroutines with their calls, a new client and a server. -/
def Sys.init (n : Nat) (srv : Server) (t : Int) (calls : Nat → List Req) : Sys :=
  ⟨Pool.State.init n, fun _ => Conn.fresh, fun _ => none, srv, t, fun _ => .none, calls, []⟩

/-- Moves. -/
inductive Act where
  | call (i : Nat)
  | get (i : Nat)
  | dial (i : Nat) (reach : Bool) (cut : Cut)
  | send (i : Nat)
  | run (c : Nat) (cut : Cut)
  | recv (i : Nat)
  | put (i : Nat)
  | drop (c : Nat) (lose : Bool)
  | tick (d : Nat)

/-- One move, if it can be made. -/
def act (bad : Bytes → F64) (o : Opt) (cap : Nat) (s : Sys) : Act → Option Sys
  /- a method of redis/redis.go is entered -/
  | .call i =>
    match s.todo i, s.job i, s.pool.thr[i]? with
    | q :: rest, .none, some .idle => some { s with todo := set s.todo i rest, job := set s.job i (.want q), log := s.log ++ [.inv i q] }
    | _, _, _ => none
  /- `(*Pool).Get` (redis/pool.go:36-60), except the dial -/
  | .get i =>
    match s.job i, s.pool.thr[i]? with
    | .want _, some (.holding _) => none
    | .want _, some .locked => if s.pool.size < cap then none else (Pool.move cap (Pool.go i) s.pool).map fun p => { s with pool := p }
    | .want _, some _ => (Pool.move cap (Pool.go i) s.pool).map fun p => { s with pool := p }
    | _, _ => none
  /- `create` (redis/pool.go:62-74, called at line 44) -/
  | .dial i reach cut =>
    match s.job i, s.pool.thr[i]? with
    | .want _, some .locked =>
      if s.pool.size < cap then
        if reach then
          let x := openConn s.now cut (openCmds o) s.srv Conn.fresh
          if x.2.2 then (Pool.move cap (Pool.go i) s.pool).map fun p => { s with pool := p, conn := set s.conn s.pool.opened x.2.1, srv := x.1 }
          else (Pool.move cap ⟨i, false, true, false⟩ s.pool).map fun p =>
            { s with pool := p, srv := x.1, job := set s.job i .none, log := s.log ++ [.noConn i] }
        else (Pool.move cap ⟨i, true, false, false⟩ s.pool).map fun p =>
          { s with pool := p, job := set s.job i .none, log := s.log ++ [.noConn i] }
      else none
    | _, _ => none
  /- `Send` (redis/conn.go:39-47); on a lost connection the bytes go nowhere -/
  | .send i =>
    match s.job i, s.pool.thr[i]? with
    | .want q, some (.holding c) =>
      some { s with job := set s.job i (.sent q), pend := if (s.conn c).up then set s.pend c (some (sent q)) else s.pend, log := s.log ++ [.send i c q] }
    | _, _ => none
  /- the server -/
  | .run c cut =>
    match (s.pend c).bind specCommand with
    | some (line, _) =>
      let r := serve s.srv (s.conn c).login s.now line
      some { s with
        srv := r.1
        pend := set s.pend c none
        conn := set s.conn c ⟨r.2.1, if (s.conn c).up then ⟨(s.conn c).rd.buf, (s.conn c).rd.net ++ cut (ser r.2.2)⟩ else (s.conn c).rd, (s.conn c).up⟩
        log := s.log ++ [.run c s.now line r.2.2] }
    | none => none
  /- `Recv` (redis/conn.go:54); it waits for the reply while the connection is up -/
  | .recv i =>
    match s.job i, s.pool.thr[i]? with
    | .sent q, some (.holding c) =>
      if (s.conn c).up ∧ (s.pend c).isSome then none
      else
        let x := readMessage (s.conn c).rd
        some { s with job := set s.job i (.got q x.1), conn := set s.conn c { s.conn c with rd := x.2 } }
    | _, _ => none
  /- the deferred `Put` (redis/pool.go:76-80, 101) and the return of the method -/
  | .put i =>
    match s.job i, s.pool.thr[i]? with
    | .got q r, some (.holding c) =>
      (Pool.move cap (Pool.go i) s.pool).map fun p => { s with pool := p, job := set s.job i .none, log := s.log ++ [.ret i c (result bad q r)] }
    | _, _ => none
  /- the network or the server closes a connection; a reply not yet read may be lost with it -/
  | .drop c lose =>
    if c < s.pool.opened ∧ c ∉ s.pool.leaked ∧ (s.conn c).up then
      some { s with conn := set s.conn c ⟨(s.conn c).login, if lose then ⟨[], []⟩ else (s.conn c).rd, false⟩, log := s.log ++ [.drop c] }
    else none
  | .tick d => some { s with now := s.now + d }

/-- What the network may do: the handshake arrives in order, and replies are delivered in ways `P` allows. -/
def Allowed (P : Cut → Msg → Prop) (s : Sys) : Act → Prop
  | .dial _ _ cut => cut.Faithful
  | .run c cut => ∀ line rest, (s.pend c).bind specCommand = some (line, rest) → P cut (serve s.srv (s.conn c).login s.now line).2.2
  | _ => True

/-- Any number of moves. -/
inductive Runs (bad : Bytes → F64) (o : Opt) (cap : Nat) (P : Cut → Msg → Prop) (s : Sys) : Sys → Prop
  | refl : Runs bad o cap P s s
  | snoc {a s' s''} : Runs bad o cap P s s' → Allowed P s' a → act bad o cap s' a = some s'' → Runs bad o cap P s s''

/-- A schedule. -/
def runAll (bad : Bytes → F64) (o : Opt) (cap : Nat) (s : Sys) : List Act → Option Sys
  | [] => some s
  | a :: as => (act bad o cap s a).bind fun s' => runAll bad o cap s' as

/-! ## What should be seen, per connection, per goroutine, and at the server -/

/-- A connection between events. -/
inductive Line where
  | free
  | sent (i : Nat) (q : Req)
  | ran (i : Nat) (q : Req) (m : Msg)
  /-- lost; a request may still reach the server; a goroutine may be at it, and a reply may have arrived -/
  | lost (p : Option Req) (cur : Option (Nat × Req)) (m : Option Msg)

/-- How events of one connection may follow each other. -/
inductive Line.Next (bad : Bytes → F64) : Line → Event → Line → Prop
  | send (i c q) : Next bad .free (.send i c q) (.sent i q)
  | run (i c t q m) : Next bad (.sent i q) (.run c t (args q) m) (.ran i q m)
  | ret (i c q m) : Next bad (.ran i q m) (.ret i c (result bad q (.ok m))) .free
  | drop (c) : Next bad .free (.drop c) (.lost none none none)
  | dropSent (i c q) : Next bad (.sent i q) (.drop c) (.lost (some q) (some (i, q)) none)
  | dropRan (i c q m) : Next bad (.ran i q m) (.drop c) (.lost none (some (i, q)) (some m))
  | dropReply (i c q m) : Next bad (.ran i q m) (.drop c) (.lost none (some (i, q)) none)
  | late (c t q cur m) (r : Option Msg) : Next bad (.lost (some q) cur r) (.run c t (args q) m) (.lost none cur r)
  | lostSend (i c q p) : Next bad (.lost p none none) (.send i c q) (.lost p (some (i, q)) none)
  | lostRet (i c q p) : Next bad (.lost p (some (i, q)) none) (.ret i c (result bad q (.err .eof))) (.lost p none none)
  | lostReply (i c q m p) : Next bad (.lost p (some (i, q)) (some m)) (.ret i c (result bad q (.ok m))) (.lost p none none)

/-- The events of connection `c`. -/
def onConn (c : Nat) : Event → Bool
  | .send _ d _ | .run d _ _ _ | .ret _ d _ | .drop d => d == c
  | _ => false

/-- A goroutine between events. -/
inductive Turn where
  | idle
  | called (q : Req)
  | sentOn (c : Nat) (q : Req)

/-- How events of one goroutine may follow each other: it calls, sends its request once and returns, or
fails for want of a connection. -/
inductive Turn.Next : Turn → Event → Turn → Prop
  | inv (i q) : Next .idle (.inv i q) (.called q)
  | send (i c q) : Next (.called q) (.send i c q) (.sentOn c q)
  | ret (i c q out) : Next (.sentOn c q) (.ret i c out) .idle
  | noConn (i q) : Next (.called q) (.noConn i) .idle

/-- The events of goroutine `i`. -/
def byThread (i : Nat) : Event → Bool
  | .inv j _ | .send j _ _ | .ret j _ _ | .noConn j => j == i
  | _ => false

/-- A path of an automaton. -/
inductive Path {σ : Type} (next : σ → Event → σ → Prop) : σ → List Event → σ → Prop
  | nil (a) : Path next a [] a
  | snoc {a b c l e} : Path next a l b → next b e c → Path next a (l ++ [e]) c

/-- A server that runs requests one after the other: its state and the logins after the requests of
the log, if the replies are those it gives and the times do not decrease. -/
inductive Served : Server → (Nat → Login) → Int → List Event → Server → (Nat → Login) → Int → Prop
  | nil (s ls t) : Served s ls t [] s ls t
  | run {s ls t l s' ls' t'} (c u line) : Served s ls t l s' ls' t' → t' ≤ u →
      Served s ls t (l ++ [.run c u line (serve s' (ls' c) u line).2.2]) (serve s' (ls' c) u line).1 (set ls' c (serve s' (ls' c) u line).2.1) u
  | skip {s ls t l s' ls' t'} (e) : Served s ls t l s' ls' t' → (∀ c u line m, e ≠ .run c u line m) → Served s ls t (l ++ [e]) s' ls' t'

end Verif.Client.Many

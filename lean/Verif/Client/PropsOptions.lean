import Verif.Client.Options
import Verif.Client.ManyInv
/-!
# C127: timeouts and retries
-/
namespace Verif.Client.Many
open Verif.Resp Verif.Client

variable {bad : Bytes → F64} {o : Opt} {cap : Nat}

/-- C127 is false: `NewClient` makes the same client whatever the timeouts and the number of retries are. -/
theorem C127_violated_ignored (o : Options) (retry rt wt t : Int64) :
    newClient { o with maxRetry := retry, readTimeout := rt, writeTimeout := wt, timeout := t } = newClient o := rfl

/-- What a client depends on, exactly: the address, the pool size if it is positive (20 otherwise), the password, and the
database if it is positive. -/
theorem C127_ignored_exact (o o' : Options) : newClient o = newClient o' ↔ o.addr = o'.addr ∧
    (if o.poolSize.toInt ≤ 0 then 20 else o.poolSize.toInt) = (if o'.poolSize.toInt ≤ 0 then 20 else o'.poolSize.toInt) ∧
    o.password = o'.password ∧ (o.database = o'.database ∨ o.database.toInt ≤ 0 ∧ o'.database.toInt ≤ 0) := by
  have hc : ∀ x y : Int, Pool.capacity x = Pool.capacity y ↔ (if x ≤ 0 then 20 else x) = (if y ≤ 0 then 20 else y) := by
    intro x y
    unfold Pool.capacity
    split <;> split <;> omega
  have hi : itoa o.database = itoa o'.database ↔ o.database = o'.database :=
    ⟨fun h => by have := congrArg atoi h; rw [atoi_itoa, atoi_itoa] at this; exact Option.some.inj this, fun h => by rw [h]⟩
  simp only [newClient, NewRedis.mk.injEq, hc]
  refine and_congr_right fun _ => and_congr_right fun _ => ?_
  unfold openCmds Options.opt
  by_cases h1 : o.password = [] <;> by_cases h2 : o'.password = [] <;> by_cases h3 : 0 < o.database.toInt <;>
    by_cases h4 : 0 < o'.database.toInt <;> simp [h1, h2, h3, h4, hi]
  all_goals intros
  all_goals first | omega | exact .inr ⟨by omega, by omega⟩ | (intro e; rw [e] at h3; omega)

/-- Another address, pool size, database or password can make another client. -/
example : ∃ o o' : Options, o.timeout = o'.timeout ∧ newClient o ≠ newClient o' :=
  ⟨⟨b!"a:1", 0, 0, 0, 0, 0, 0, []⟩, ⟨b!"a:1", 0, 0, 0, 0, 0, 3, []⟩, rfl, by decide +kernel⟩

/-- Nor does a connection care about the timeouts it is given. -/
theorem C127_violated_conn (c : TimedConn) (a b d : Int64) :
    (((c.withTimeout a).withReadTimeout b).withWriteTimeout d).recv.1 = c.recv.1 := rfl

/-- Whether `Recv` can return with no more than what has arrived so far: its result is the same whatever comes later. -/
def Returns (c : TimedConn) : Prop :=
  ∃ v, ∀ more : List Bytes, ({ c with rd := ⟨c.rd.buf, c.rd.net ++ more⟩ } : TimedConn).recv.1 = v

/-- With a reply that has arrived it does. -/
example : Returns ⟨⟨[], [b!"+OK\r\n"]⟩, 0, 0, 0⟩ :=
  ⟨.ok (.simple b!"OK"), fun more => by
    show (readMessage ⟨[], b!"+OK\r\n" :: more⟩).1 = _
    obtain ⟨n, hn⟩ : ∃ n, 2 * (Rd.flat ⟨[], b!"+OK\r\n" :: more⟩).length + 1 = n + 1 := ⟨_, rfl⟩
    rw [readMessage, hn, readMsg]
    rfl⟩

/-- As long as nothing arrives, `Recv` does not return, whatever the read timeout. -/
theorem C127_violated_recv (c : TimedConn) (d : Int64) (h : c.rd.flat = []) (hb : c.rd.WF) : ¬ Returns (c.withReadTimeout d) := by
  rintro ⟨v, hv⟩
  have hf : ∀ m : Bytes, (m.length ≤ bufSize) → Rd.flat ⟨c.rd.buf, c.rd.net ++ [m]⟩ = m := by
    intro m _
    have := h
    simp only [Rd.flat, List.append_eq_nil_iff] at this
    simp [Rd.flat, this.1, this.2]
  have h1 := hv [ser (.simple b!"a")]
  have h2 := hv [ser (.simple b!"b")]
  have key : ∀ m : Msg, Carried (fun b => [b]) m → (({ c.withReadTimeout d with rd := ⟨c.rd.buf, c.rd.net ++ [ser m]⟩ } : TimedConn)).recv.1 = .ok m := by
    intro m hm
    obtain ⟨r', e, -⟩ := read_quiet (r := c.rd) (cut := fun b => [b]) ⟨h, hb⟩ hm
    show (readMessage ⟨c.rd.buf, c.rd.net ++ [ser m]⟩).1 = _
    rw [e]
  have k1 := key (.simple b!"a") (carried_line (fun b => by simp) (by decide +kernel))
  have k2 := key (.simple b!"b") (carried_line (fun b => by simp) (by decide +kernel))
  have : (GoRes.ok (.simple b!"a") : RRes Msg) = .ok (.simple b!"b") := (k1.symm.trans h1).trans (h2.symm.trans k2)
  simp at this

/-- C127 is false: a call on a connection the server has closed fails at once and for good, however many retries the options
allow and although the server can be reached. -/
theorem C127_violated_retry (o : Options) (h : List Ev) (s : Server) (cl : Cl) (hne : cl.chan ≠ []) (hd : ∀ c ∈ cl.chan, c.Dead) :
    ∀ a ∈ answers bad o.opt (newClient o).capacity s cl h, ∃ v, a = .done (some ⟨v, some (.conn .eof)⟩) :=
  C92_violated o.opt _ h s cl hne hd

/-! ## A server that does not answer -/

/-- The server answers no call, and no connection is lost. -/
def Act.silent : Act → Bool
  | .run .. | .drop .. => false
  | _ => true

def Event.isRet : Event → Bool
  | .ret .. => true
  | _ => false

theorem move_other {m : Pool.Move} {p t : Pool.State} (h : Pool.move cap m p = some t) {j : Nat} (hj : j ≠ m.i) :
    t.thr[j]? = p.thr[j]? := by
  unfold Pool.move at h
  split at h
  · cases h
  all_goals (repeat' split at h) <;> first | (cases h; done) | (cases h; first | rfl | exact set_get hj)

/-- Nothing has been answered. -/
structure Mute (s : Sys) : Prop where
  up : ∀ c, (s.conn c).up = true
  job : ∀ i, match s.job i with
    | .none | .want _ => True
    | .sent _ => ∃ c, s.pool.thr[i]? = some (.holding c) ∧ (s.pend c).isSome
    | .got _ _ => False
  log : ∀ e ∈ s.log, e.isRet = false

theorem mute_init (n : Nat) (srv : Server) (t : Int) (calls : Nat → List Req) : Mute (Sys.init n srv t calls) :=
  ⟨fun _ => rfl, fun _ => trivial, fun _ h => by cases h⟩

theorem exchange_up {s : Server} {c : Conn} {t : Int} {cmd : List Bytes} {cut : Cut} (h : c.up = true) : (exchange s c t cmd cut).2.1.up = true := by
  unfold exchange
  rw [if_pos h]
  split
  · rfl
  · exact h

theorem openConn_up {t : Int} {cut : Cut} : ∀ (l : List (List Bytes)) (s : Server) (c : Conn), c.up = true → (openConn t cut l s c).2.1.up = true
  | [], _, _, h => h
  | cmd :: rest, s, c, h => by
    have := exchange_up (s := s) (t := t) (cmd := cmd) (cut := cut) h
    simp only [openConn]
    split
    · exact openConn_up rest _ _ this
    · exact this

/-- Other goroutines' jobs stay as they are. -/
theorem job_frame {s s' : Sys} {i j : Nat} (h : match s.job j with
    | .none | .want _ => True
    | .sent _ => ∃ c, s.pool.thr[j]? = some (.holding c) ∧ (s.pend c).isSome
    | .got _ _ => False) (hj : s'.job j = s.job j) (ht : j ≠ i → s'.pool.thr[j]? = s.pool.thr[j]?) (hs : ∀ q, s.job j = .sent q → j ≠ i)
    (hp : ∀ c, (s.pend c).isSome → (s'.pend c).isSome) : match s'.job j with
    | .none | .want _ => True
    | .sent _ => ∃ c, s'.pool.thr[j]? = some (.holding c) ∧ (s'.pend c).isSome
    | .got _ _ => False := by
  rw [hj]
  cases hx : s.job j with
  | none => trivial
  | want q => trivial
  | got q r => rw [hx] at h; exact h
  | sent q =>
    rw [hx] at h
    obtain ⟨c, h1, h2⟩ := h
    exact ⟨c, by rw [ht (hs q hx)]; exact h1, hp c h2⟩

theorem mute_act {s s' : Sys} {a : Act} (h : Mute s) (hs : a.silent = true) (ha : act bad o cap s a = some s') : Mute s' := by
  have hset : ∀ {i j : Nat} {f : Nat → Job} {x : Job}, j ≠ i → set f i x j = f j := fun hj => set_ne _ _ hj
  cases a with
  | run c cut => cases hs
  | drop c l => cases hs
  | tick d => cases ha; exact ⟨h.up, h.job, h.log⟩
  | call i =>
    simp only [act] at ha
    split at ha
    · cases ha
      refine ⟨h.up, fun j => ?_, ?_⟩
      · by_cases hj : j = i
        · subst hj; simp [set]
        · exact job_frame (i := i) (h.job j) (hset hj) (fun _ => rfl) (fun _ _ => hj) (fun _ x => x)
      · intro e he
        rcases List.mem_append.1 he with he | he
        · exact h.log e he
        · simp only [List.mem_singleton] at he; subst he; rfl
    · cases ha
  | get i =>
    simp only [act] at ha
    have key : ∀ q, s.job i = .want q → (Pool.move cap (Pool.go i) s.pool).map (fun p => { s with pool := p }) = some s' → Mute s' := by
      intro q hq hm
      obtain ⟨p, hp, rfl⟩ := Option.map_eq_some_iff.1 hm
      refine ⟨h.up, fun j => ?_, h.log⟩
      exact job_frame (i := i) (h.job j) rfl (fun hj => move_other hp hj) (fun q' hq' e => by subst e; rw [hq] at hq'; cases hq')
        (fun _ x => x)
    split at ha
    · cases ha
    · rename_i q hq _
      split at ha
      · cases ha
      · exact key q hq ha
    · exact key _ ‹_› ha
    · cases ha
  | dial i reach cut =>
    simp only [act] at ha
    split at ha
    · rename_i q hq hl
      have other : ∀ {p : Pool.State} {m : Pool.Move}, m.i = i → Pool.move cap m s.pool = some p → ∀ j, j ≠ i → p.thr[j]? = s.pool.thr[j]? :=
        fun hm hp j hj => move_other hp (by rw [hm]; exact hj)
      have logs : ∀ e ∈ s.log ++ [Event.noConn i], e.isRet = false := by
        intro e he
        rcases List.mem_append.1 he with he | he
        · exact h.log e he
        · simp only [List.mem_singleton] at he; subst he; rfl
      split at ha
      · split at ha
        · split at ha
          · obtain ⟨p, hp, rfl⟩ := Option.map_eq_some_iff.1 ha
            refine ⟨fun c => ?_, fun j => ?_, h.log⟩
            · by_cases hc : c = s.pool.opened
              · subst hc; simp only [set_same]; exact openConn_up _ _ _ rfl
              · simp only [set_ne _ _ hc]; exact h.up c
            · exact job_frame (i := i) (h.job j) rfl (other rfl hp j) (fun q' hq' e => by subst e; rw [hq] at hq'; cases hq') (fun _ x => x)
          · obtain ⟨p, hp, rfl⟩ := Option.map_eq_some_iff.1 ha
            refine ⟨h.up, fun j => ?_, logs⟩
            by_cases hj : j = i
            · subst hj; simp [set]
            · exact job_frame (i := i) (h.job j) (hset hj) (other rfl hp j) (fun _ _ => hj) (fun _ x => x)
        · obtain ⟨p, hp, rfl⟩ := Option.map_eq_some_iff.1 ha
          refine ⟨h.up, fun j => ?_, logs⟩
          by_cases hj : j = i
          · subst hj; simp [set]
          · exact job_frame (i := i) (h.job j) (hset hj) (other rfl hp j) (fun _ _ => hj) (fun _ x => x)
      · cases ha
    · cases ha
  | send i =>
    simp only [act] at ha
    split at ha
    · rename_i q c hq hl
      cases ha
      simp only [h.up c, if_true]
      refine ⟨h.up, fun j => ?_, ?_⟩
      · by_cases hj : j = i
        · subst hj
          simp only [set_same]
          exact ⟨c, hl, by simp⟩
        · refine job_frame (i := i) (h.job j) (hset hj) (fun _ => rfl) (fun _ _ => hj) (fun d x => ?_)
          by_cases hd : d = c
          · subst hd; simp
          · simp only [set_ne _ _ hd]; exact x
      · intro e he
        rcases List.mem_append.1 he with he | he
        · exact h.log e he
        · simp only [List.mem_singleton] at he; subst he; rfl
    · cases ha
  | recv i =>
    simp only [act] at ha
    split at ha
    · rename_i q c hq hl
      have hj := h.job i
      rw [hq] at hj
      obtain ⟨c', h1, h2⟩ := hj
      rw [hl] at h1
      cases h1
      rw [if_pos ⟨h.up c, h2⟩] at ha
      cases ha
    · cases ha
  | put i =>
    simp only [act] at ha
    split at ha
    · rename_i q r c hq hl
      have hj := h.job i
      rw [hq] at hj
      exact hj.elim
    · cases ha

/-- C127 is false: if the server takes the requests and never answers one, then no call of any goroutine ever returns a reply
or a timeout, whatever the options say and however much time passes. -/
theorem C127_violated_waits (o : Options) (n : Nat) (srv : Server) (t : Int) (calls : Nat → List Req) (as : List Act)
    (hs : ∀ a ∈ as, a.silent = true) (s : Sys)
    (h : runAll bad o.opt (newClient o).capacity (Sys.init n srv t calls) as = some s) : ∀ e ∈ s.log, e.isRet = false := by
  have : ∀ (as : List Act) (s0 : Sys), Mute s0 → (∀ a ∈ as, a.silent = true) → runAll bad o.opt (newClient o).capacity s0 as = some s → Mute s := by
    intro as
    induction as with
    | nil => intro s0 hm _ h; cases h; exact hm
    | cons a as ih =>
      intro s0 hm hs h
      obtain ⟨s1, h1, h2⟩ := Option.bind_eq_some_iff.1 h
      exact ih s1 (mute_act hm (hs a List.mem_cons_self) h1) (fun b hb => hs b (List.mem_cons_of_mem _ hb)) h2
  exact (this as _ (mute_init n srv t calls) hs h).log

/-- Such a run: a call goes out with a timeout of a millisecond, and a day passes. -/
example : ((runAll (fun _ => F64.zero) (Options.opt ⟨b!"a:1", 3, 1000000, 1000000, 1000000, 0, 0, []⟩)
    (newClient ⟨b!"a:1", 3, 1000000, 1000000, 1000000, 0, 0, []⟩).capacity
    (Sys.init 1 openServer 0 fun _ => [.get b!"k"])
    [.call 0, .get 0, .get 0, .dial 0 true fun b => [b], .get 0, .get 0, .get 0, .get 0, .send 0, .tick 86400000000000]).map fun s =>
      (s.log.length, s.now)) = some (2, 86400000000000) := by
  decide +kernel

end Verif.Client.Many

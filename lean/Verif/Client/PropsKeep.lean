import Verif.Client.PropsRemote
/-!
# C92: what becomes of every session of a remote client
-/
namespace Verif.Client
open Verif.Resp

variable {bad : Bytes → F64}

/-- A call: when, what, whether the server can be reached at that moment, how the replies arrive. -/
abbrev Try := Int × Req × Bool × Cut

/-- As an event. -/
def Try.ev (e : Try) : Ev := .call e.1 e.2.1 e.2.2.1 e.2.2.2

/-- Without saying whether the server can be reached. -/
def Try.plain (e : Try) : Int × Req × Cut := (e.1, e.2.1, e.2.2.2)

/-- Every call fails at once: the connection is gone. -/
def ended (bad : Bytes → F64) : List Ev → List Answer
  | [] => []
  | .drop :: h => ended bad h
  | .call _ q _ _ :: h => .done (result bad q (.err .eof)) :: ended bad h

/-- Every call waits for ever. -/
def stuck : List Ev → List Answer
  | [] => []
  | .drop :: h => stuck h
  | .call .. :: h => .hang :: stuck h

/-- Every session starts with any number of losses, then consists of a stretch of calls, and of a rest that is empty or begins with a loss. -/
theorem session_form (h : List Ev) : ∃ (k : Nat) (run : List Try) (rest : List Ev), h = List.replicate k .drop ++ run.map Try.ev ++ rest ∧
    (rest = [] ∨ ∃ r, rest = .drop :: r) ∧ (run = [] → rest = []) := by
  have calls : ∀ h : List Ev, ∃ (run : List Try) (rest : List Ev), h = run.map Try.ev ++ rest ∧ (rest = [] ∨ ∃ r, rest = .drop :: r) := by
    intro h
    induction h with
    | nil => exact ⟨[], [], rfl, .inl rfl⟩
    | cons e h ih =>
      cases e with
      | drop => exact ⟨[], _, rfl, .inr ⟨_, rfl⟩⟩
      | call t q reach cut =>
        obtain ⟨run, rest, rfl, hr⟩ := ih
        exact ⟨(t, q, reach, cut) :: run, rest, rfl, hr⟩
  induction h with
  | nil => exact ⟨0, [], [], rfl, .inl rfl, fun _ => rfl⟩
  | cons e h ih =>
    cases e with
    | drop =>
      obtain ⟨k, run, rest, rfl, h1, h2⟩ := ih
      exact ⟨k + 1, run, rest, rfl, h1, h2⟩
    | call t q reach cut =>
      obtain ⟨run, rest, rfl, hr⟩ := calls h
      exact ⟨0, (t, q, reach, cut) :: run, rest, rfl, hr, fun e => by cases e⟩

theorem answers_drops {o : Opt} {cap : Nat} {s : Server} (k : Nat) (h : List Ev) :
    answers bad o cap s Cl.new (List.replicate k .drop ++ h) = answers bad o cap s Cl.new h := by
  induction k with
  | zero => rfl
  | succ k ih => rw [List.replicate_succ, List.cons_append, answers]; exact ih

theorem answers_ended {o : Opt} {cap n : Nat} (h : List Ev) (s : Server) (c : Conn) (hd : c.Dead) :
    answers bad o cap s ⟨[c], n, false⟩ h = ended bad h := by
  induction h generalizing s c with
  | nil => rfl
  | cons e h ih =>
    cases e with
    | drop =>
      rw [answers, ended]
      exact ih _ { c with up := false } ⟨rfl, hd.2⟩
    | call t q reach cut =>
      obtain ⟨e1, e2⟩ := read_down hd.2
      simp only [answers, callRemote, callOn, exchange, hd.1, Bool.false_eq_true, if_false, ended, List.nil_append, e1]
      rw [ih _ _ ⟨rfl, e2⟩]

theorem answers_stuck {o : Opt} {cap n : Nat} (h : List Ev) (s : Server) :
    answers bad o cap s ⟨[], n, true⟩ h = stuck h := by
  induction h generalizing s with
  | nil => rfl
  | cons e h ih =>
    cases e with
    | drop => rw [answers, stuck]; exact ih _
    | call t q reach cut =>
      simp only [answers, callRemote, if_true, stuck]
      rw [ih]

theorem answers_alive {o : Opt} {cap n : Nat} (run : List Try) (rest : List Ev) (hrest : rest = [] ∨ ∃ r, rest = .drop :: r) (s : Server)
    (c : Conn) (hc : c.Ready) (hr : CarriedOne s c.login (run.map Try.plain)) :
    answers bad o cap s ⟨[c], n, false⟩ (run.map Try.ev ++ rest) = direct bad s c.login (run.map Try.plain) ++ ended bad rest := by
  induction run generalizing s c with
  | nil =>
    rcases hrest with rfl | ⟨r, rfl⟩
    · rfl
    · simp only [List.map_nil, List.nil_append, answers, direct, ended]
      exact answers_ended r s { c with up := false } ⟨rfl, hc.2⟩
  | cons e run ih =>
    obtain ⟨t, q, reach, cut⟩ := e
    obtain ⟨hr1, hr2⟩ := hr
    obtain ⟨c', e1, e2, e3⟩ := exchange_ready (t := t) (cmd := args q) hc hr1
    simp only [List.map_cons, Try.ev, Try.plain, List.cons_append, answers, callRemote, callOn, direct, List.nil_append]
    rw [e1]
    simp only
    rw [← e2] at hr2 ⊢
    have := ih _ _ e3 hr2
    rw [this]

/-- C92, what becomes of every session of a goroutine.  Losses before the first call do not matter.  If the first call finds a server
that can be reached and accepts the client, every call up to the next loss gets the reply to its own request; after that loss every
call fails.  If not, the first call fails and all later ones wait for ever.  Whether the server can be reached later on never matters. -/
theorem C92_sessions (o : Opt) (cap : Nat) (hcap : 0 < cap) (s : Server) (k : Nat) (e : Try) (run : List Try) (rest : List Ev)
    (hrest : rest = [] ∨ ∃ r, rest = .drop :: r) (hf : e.2.2.2.Faithful) :
    (e.2.2.1 = true ∧ Accepts s o → CarriedOne s (wanted o) ((e :: run).map Try.plain) →
      answers bad o cap s Cl.new (List.replicate k .drop ++ (e :: run).map Try.ev ++ rest) =
        direct bad s (wanted o) ((e :: run).map Try.plain) ++ ended bad rest) ∧
    (¬ (e.2.2.1 = true ∧ Accepts s o) →
      answers bad o cap s Cl.new (List.replicate k .drop ++ (e :: run).map Try.ev ++ rest) = .noConn :: stuck (run.map Try.ev ++ rest)) := by
  obtain ⟨t, q, reach, cut⟩ := e
  rw [List.append_assoc, answers_drops]
  have hcut : cut.Faithful := hf
  have h1 := openConn_spec s o t cut hcut
  have h2 := C93_dial s o t cut hcut
  obtain ⟨x, hx⟩ : ∃ x, x = openConn t cut (openCmds o) s Conn.fresh := ⟨_, rfl⟩
  rw [← hx] at h1 h2
  obtain ⟨s', c, b⟩ := x
  obtain ⟨rfl, h3⟩ := h1
  simp only at h2 h3
  constructor
  · rintro ⟨hreach, ha⟩ hr
    simp only at hreach
    subst hreach
    have hb := h2.2 ha
    subst hb
    obtain ⟨hl, hc⟩ := h3 rfl
    have := answers_alive (o := o) (cap := cap) (n := 1) (bad := bad) ((t, q, true, cut) :: run) rest hrest s' c hc (by rw [hl]; exact hr)
    rw [hl] at this
    rw [← this]
    simp only [List.map_cons, Try.ev, List.cons_append, answers, callRemote, Cl.new, hcap, if_true, ← hx, callOn, List.nil_append,
      if_false, Nat.zero_add, Bool.false_eq_true]
  · intro hn
    cases reach with
    | false =>
      simp only [List.map_cons, Try.ev, List.cons_append, answers, callRemote, Cl.new, hcap, if_true, if_false, Bool.false_eq_true]
      rw [answers_stuck]
    | true =>
      have hb : b = false := by
        cases b with
        | false => rfl
        | true => exact absurd ⟨rfl, h2.1 rfl⟩ hn
      subst hb
      simp only [List.map_cons, Try.ev, List.cons_append, answers, callRemote, Cl.new, hcap, if_true, if_false, Bool.false_eq_true, ← hx]
      rw [answers_stuck]

/-- The call returned, and not with the error of a connection. -/
def Answer.Replied (a : Answer) : Prop := ∃ r, a = .done r ∧ ∀ v e, r ≠ some ⟨v, some (.conn e)⟩

theorem result_replied (q : Req) (m : Msg) : Answer.Replied (.done (result bad q (.ok m))) := by
  refine ⟨_, rfl, ?_⟩
  intro v e h
  cases q <;> cases m <;> simp [result, exec, parseOK, parseString, parseInt, parseFloatReply, parseArray] at h <;> (try split at h) <;>
    simp_all

theorem direct_replied (h : List (Int × Req × Cut)) (s : Server) (l : Login) : ∀ a ∈ direct bad s l h, a.Replied := by
  induction h generalizing s l with
  | nil => intro a ha; cases ha
  | cons e h ih =>
    obtain ⟨t, q, cut⟩ := e
    intro a ha
    simp only [direct, List.mem_cons] at ha
    rcases ha with rfl | ha
    · exact result_replied q _
    · exact ih _ _ a ha

theorem ended_replied (h : List Ev) : (∀ a ∈ ended bad h, a.Replied) ↔ ∀ e ∈ h, e = .drop := by
  induction h with
  | nil => simp [ended]
  | cons e h ih =>
    cases e with
    | drop => simp [ended, ih]
    | call t q reach cut =>
      constructor
      · intro hh
        obtain ⟨r, h1, h2⟩ := hh _ (List.mem_cons_self ..)
        obtain ⟨v, hv⟩ := result_conn bad q .eof
        cases h1
        exact absurd hv (h2 v .eof)
      · intro hh
        cases hh _ (List.mem_cons_self ..)

/-- C92, exactly: a session of a goroutine (any session with a call has this form: `session_form`) has every call answered if and only if
the first call finds a server that can be reached and accepts the client, and no call follows a loss of the connection. -/
theorem C92_exact (o : Opt) (cap : Nat) (hcap : 0 < cap) (s : Server) (k : Nat) (e : Try) (run : List Try) (rest : List Ev)
    (hrest : rest = [] ∨ ∃ r, rest = .drop :: r) (hf : e.2.2.2.Faithful) (hr : CarriedOne s (wanted o) ((e :: run).map Try.plain)) :
    (∀ a ∈ answers bad o cap s Cl.new (List.replicate k .drop ++ (e :: run).map Try.ev ++ rest), a.Replied) ↔
      (e.2.2.1 = true ∧ Accepts s o) ∧ ∀ x ∈ rest, x = .drop := by
  obtain ⟨h1, h2⟩ := C92_sessions (bad := bad) o cap hcap s k e run rest hrest hf
  constructor
  · intro h
    by_cases ha : e.2.2.1 = true ∧ Accepts s o
    · rw [h1 ha hr] at h
      exact ⟨ha, (ended_replied rest).1 fun a ha => h a (List.mem_append_right _ ha)⟩
    · rw [h2 ha] at h
      obtain ⟨r, hr, _⟩ := h _ (List.mem_cons_self ..)
      cases hr
  · rintro ⟨ha, hx⟩ a hm
    rw [h1 ha hr] at hm
    rcases List.mem_append.1 hm with hm | hm
    · exact direct_replied _ _ _ a hm
    · exact (ended_replied rest).2 hx a hm

/-- A session that meets the hypotheses: two calls are answered, then the connection is lost, and the last call fails. -/
example : Cut.Faithful whole ∧ Accepts openServer ⟨[], 0⟩ ∧
    CarriedOne openServer (wanted ⟨[], 0⟩) ([((0 : Int), Req.set b!"k" b!"v", true, whole), (1, .incr b!"n", false, whole)].map Try.plain) ∧
    answers (fun _ => F64.zero) ⟨[], 0⟩ 10 openServer Cl.new
      [.drop, .call 0 (.set b!"k" b!"v") true whole, .call 1 (.incr b!"n") false whole, .drop, .call 2 (.incr b!"n") true whole] =
      [.done (some ⟨.text [], none⟩), .done (some ⟨.int 1, none⟩), .done (some ⟨.int 0, some (.conn .eof)⟩)] := by
  refine ⟨fun b => by simp [whole], ⟨fun h => absurd rfl h, fun h => absurd h (by decide)⟩, ?_, by decide +kernel⟩
  exact ⟨carried_token (tokenCut_whole (fits_ofB (by decide +kernel)) (by decide +kernel)), carried_token (tokenCut_whole (fits_ofB (by decide +kernel)) (by decide +kernel)), trivial⟩

end Verif.Client

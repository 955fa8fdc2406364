import Verif.Client.PropsSession
/-!
# C92-C95: what a user of the remote client sees
-/
namespace Verif.Client
open Verif.Resp

variable {bad : Bytes → F64}

/-! ## C93: connections handed out are logged in and on the configured database -/

/-- The login the options ask for. -/
def wanted (o : Opt) : Login := ⟨if 0 < o.database.toInt then o.database.toInt else 0, o.password ≠ []⟩

theorem carried_line {cut : Cut} (hcut : cut.Faithful) {m : Msg} (h : fitsB true m = true) : Carried cut m :=
  carried_short ⟨fits_ofB1 h, hcut _⟩

theorem fresh_ready : Conn.fresh.Ready := ⟨rfl, rfl, by simp [Conn.fresh, Rd.WF]⟩

/-- An `auth` request. -/
theorem serve_auth (s : Server) (l : Login) (t : Int) (p : Bytes) :
    ((serve s l t [b!"auth", p]) = (s, { l with authed := true }, .simple b!"OK") ∧ s.password = some p) ∨
    ∃ e, serve s l t [b!"auth", p] = (s, l, .error e) ∧ fitsB true (.error e) = true := by
  have h1 : (b!"auth").map lowerLetter = b!"auth" := by decide
  simp only [serve, h1, if_true]
  cases hp : s.password with
  | none => exact .inr ⟨_, rfl, by decide +kernel⟩
  | some q =>
    by_cases h : q = p
    · simp [h]
    · simp only [if_neg h]; exact .inr ⟨_, rfl, by decide +kernel⟩

/-- A `select` request. -/
theorem serve_select (s : Server) (l : Login) (t : Int) (d : Int64) :
    ((serve s l t [b!"select", itoa d]) = (s, { l with db := d.toInt }, .simple b!"OK")) ∨
    ∃ e, serve s l t [b!"select", itoa d] = (s, l, .error e) ∧ fitsB true (.error e) = true := by
  have h1 : (b!"select").map lowerLetter = b!"select" := by decide
  have h2 : ¬ (b!"select" : Bytes) = b!"auth" := by decide
  simp only [serve, h1, if_neg h2, if_true, atoi_itoa]
  by_cases ha : s.password.isSome = true ∧ l.authed = false
  · rw [if_pos ha]; exact .inr ⟨_, rfl, by decide +kernel⟩
  · rw [if_neg ha]
    by_cases h : 0 ≤ d.toInt ∧ d.toInt < 16
    · rw [if_pos h]; exact .inl rfl
    · rw [if_neg h]; exact .inr ⟨_, rfl, by decide +kernel⟩

theorem openConn_ok {s : Server} {c : Conn} {t : Int} {cmd : List Bytes} {cut : Cut} {rest : List (List Bytes)} {l : Login}
    (hc : c.Ready) (hs : serve s c.login t cmd = (s, l, .simple b!"OK")) (hcut : cut.Faithful) :
    ∃ c', c'.Ready ∧ c'.login = l ∧ openConn t cut (cmd :: rest) s c = openConn t cut rest s c' := by
  obtain ⟨c', h1, h2, h3⟩ := exchange_ready (t := t) (cmd := cmd) (cut := cut) (s := s) hc
    (by rw [hs]; exact carried_line (m := .simple b!"OK") hcut (by decide +kernel))
  refine ⟨c', h3, by rw [h2, hs], ?_⟩
  simp only [openConn, h1, hs, exec, parseString]

theorem openConn_error {s : Server} {c : Conn} {t : Int} {cmd : List Bytes} {cut : Cut} {rest : List (List Bytes)} {l : Login}
    {e : Bytes} (hc : c.Ready) (hs : serve s c.login t cmd = (s, l, .error e)) (he : fitsB true (.error e) = true)
    (hcut : cut.Faithful) : ∃ c', openConn t cut (cmd :: rest) s c = (s, c', false) := by
  obtain ⟨c', h1, h2, h3⟩ := exchange_ready (t := t) (cmd := cmd) (cut := cut) (s := s) hc
    (by rw [hs]; exact carried_line hcut he)
  exact ⟨c', by simp only [openConn, h1, hs, exec]⟩

/-- Dialling touches no data, and a connection that comes out of it is logged in and on the
configured database. -/
theorem openConn_spec (s : Server) (o : Opt) (t : Int) (cut : Cut) (hcut : cut.Faithful) :
    (openConn t cut (openCmds o) s Conn.fresh).1 = s ∧
    ((openConn t cut (openCmds o) s Conn.fresh).2.2 = true →
      (openConn t cut (openCmds o) s Conn.fresh).2.1.login = wanted o ∧
      (openConn t cut (openCmds o) s Conn.fresh).2.1.Ready) := by
  have key : ∀ (c : Conn), c.Ready → ∀ l : Login, c.login = l → ∀ n, n = (if 0 < o.database.toInt then o.database.toInt else l.db) →
      let x := openConn t cut (if 0 < o.database.toInt then [[b!"select", itoa o.database]] else []) s c
      x.1 = s ∧ (x.2.2 = true → x.2.1.login = ⟨n, l.authed⟩ ∧ x.2.1.Ready) := by
    intro c hc l hl n hn
    by_cases hd : 0 < o.database.toInt
    · simp only [if_pos hd] at hn ⊢
      rcases serve_select s c.login t o.database with h | ⟨e, h, he⟩
      · obtain ⟨c', h1, h2, h3⟩ := openConn_ok (rest := []) hc h hcut
        rw [h3]
        exact ⟨rfl, fun _ => ⟨by simp [openConn, h2, hn, hl], h1⟩⟩
      · obtain ⟨c', h1⟩ := openConn_error (rest := []) hc h he hcut
        rw [h1]
        exact ⟨rfl, fun h => by simp at h⟩
    · simp only [if_neg hd] at hn ⊢
      exact ⟨rfl, fun _ => ⟨by simp [openConn, hl, hn], hc⟩⟩
  by_cases hp : o.password = []
  · have := key Conn.fresh fresh_ready ⟨0, false⟩ rfl _ rfl
    simpa [openCmds, hp, wanted] using this
  · have e : openCmds o = [b!"auth", o.password] :: (if 0 < o.database.toInt then [[b!"select", itoa o.database]] else []) := by
      simp [openCmds, hp]
    rw [e]
    rcases serve_auth s Conn.fresh.login t o.password with ⟨h, _⟩ | ⟨e, h, he⟩
    · obtain ⟨c', h1, h2, h3⟩ := openConn_ok (rest := if 0 < o.database.toInt then [[b!"select", itoa o.database]] else []) fresh_ready h hcut
      rw [h3]
      have := key c' h1 ⟨0, true⟩ (by rw [h2]; rfl) _ rfl
      simpa [wanted, hp] using this
    · obtain ⟨c', h1⟩ := openConn_error (rest := if 0 < o.database.toInt then [[b!"select", itoa o.database]] else []) fresh_ready h he hcut
      rw [h1]
      exact ⟨rfl, fun h => by simp at h⟩

/-- The server lets a client with these options in. -/
def Accepts (s : Server) (o : Opt) : Prop :=
  (o.password ≠ [] → s.password = some o.password) ∧ (0 < o.database.toInt → o.database.toInt < 16 ∧ (s.password.isSome → o.password ≠ []))

/-- C93 at the dial: a connection is handed out exactly if the server accepts the options. -/
theorem C93_dial (s : Server) (o : Opt) (t : Int) (cut : Cut) (hcut : cut.Faithful) :
    (openConn t cut (openCmds o) s Conn.fresh).2.2 = true ↔ Accepts s o := by
  have key : ∀ (c : Conn), c.Ready →
      ((openConn t cut (if 0 < o.database.toInt then [[b!"select", itoa o.database]] else []) s c).2.2 = true ↔
        (0 < o.database.toInt → o.database.toInt < 16 ∧ (s.password.isSome → c.login.authed = true))) := by
    intro c hc
    by_cases hd : 0 < o.database.toInt
    · simp only [hd, if_true, true_imp_iff]
      have h1 : (b!"select").map lowerLetter = b!"select" := by decide
      have h2 : ¬ (b!"select" : Bytes) = b!"auth" := by decide
      have hs : serve s c.login t [b!"select", itoa o.database] =
          if s.password.isSome = true ∧ c.login.authed = false then (s, c.login, .error b!"NOAUTH Authentication required.")
          else if 0 ≤ o.database.toInt ∧ o.database.toInt < 16 then (s, { c.login with db := o.database.toInt }, .simple b!"OK")
          else (s, c.login, .error b!"ERR DB index is out of range") := by
        simp only [serve, h1, if_neg h2, if_true, atoi_itoa]
      by_cases ha : s.password.isSome = true ∧ c.login.authed = false
      · rw [if_pos ha] at hs
        obtain ⟨c', h3⟩ := openConn_error (rest := []) hc hs (by decide +kernel) hcut
        rw [h3]
        simp [ha]
      · rw [if_neg ha] at hs
        have ha' : s.password.isSome = true → c.login.authed = true := by
          intro h; cases hx : c.login.authed <;> simp_all
        by_cases h : 0 ≤ o.database.toInt ∧ o.database.toInt < 16
        · rw [if_pos h] at hs
          obtain ⟨c', h3, h4, h5⟩ := openConn_ok (rest := []) hc hs hcut
          rw [h5]
          simp only [openConn, true_iff]
          exact ⟨h.2, ha'⟩
        · rw [if_neg h] at hs
          obtain ⟨c', h3⟩ := openConn_error (rest := []) hc hs (by decide +kernel) hcut
          rw [h3]
          have : ¬ o.database.toInt < 16 := fun h' => h ⟨by omega, h'⟩
          simp [this]
    · simp [openConn, hd]
  by_cases hp : o.password = []
  · have := key Conn.fresh fresh_ready
    simp only [openCmds, hp, Accepts, ne_eq, not_true_eq_false, if_false, List.nil_append, false_imp_iff, true_and]
    rw [this]
    simp [Conn.fresh]
  · have e : openCmds o = [b!"auth", o.password] :: (if 0 < o.database.toInt then [[b!"select", itoa o.database]] else []) := by
      simp [openCmds, hp]
    rw [e]
    rcases serve_auth s Conn.fresh.login t o.password with ⟨h, hp'⟩ | ⟨e, h, he⟩
    · obtain ⟨c', h1, h2, h3⟩ := openConn_ok (rest := if 0 < o.database.toInt then [[b!"select", itoa o.database]] else []) fresh_ready h hcut
      rw [h3, key c' h1, h2]
      simp [Accepts, hp, hp']
    · obtain ⟨c', h1⟩ := openConn_error (rest := if 0 < o.database.toInt then [[b!"select", itoa o.database]] else []) fresh_ready h he hcut
      rw [h1]
      have hne : s.password ≠ some o.password := by
        intro hx
        have h1 : (b!"auth").map lowerLetter = b!"auth" := by decide
        simp [serve, h1, hx] at h
      simp [Accepts, hp, hne]

/-- A call other than `Select`. -/
def Req.plain : Req → Bool
  | .select _ => false
  | _ => true

theorem serve_login (s : Server) (l : Login) (t : Int) (q : Req) (hq : q.plain = true) :
    (serve s l t (args q)).2.1 = l := by
  have key : ∀ (name : Bytes) (a : List Bytes), name.map lowerLetter ≠ b!"auth" → name.map lowerLetter ≠ b!"select" →
      (serve s l t (name :: a)).2.1 = l := by
    intro name a h1 h2
    simp only [serve, if_neg h1, if_neg h2]
    split
    · rfl
    · split <;> rfl
  cases q <;> first | (exact key _ _ (by decide) (by decide)) | simp [Req.plain] at hq

theorem exchange_login {s : Server} {c : Conn} {t : Int} {q : Req} {cut : Cut} (hq : q.plain = true) :
    (exchange s c t (args q) cut).2.1.login = c.login := by
  have := C47_binary_safe (args q) []
  rw [List.append_nil] at this
  unfold exchange
  split
  · rw [this]; exact serve_login s c.login t q hq
  · rfl

/-- Events without `Select`, on a network that loses nothing. -/
def Ev.Plain : Ev → Prop
  | .call _ q _ cut => q.plain = true ∧ cut.Faithful
  | .drop => True

theorem callRemote_login {o : Opt} {cap : Nat} {s : Server} {cl : Cl} {t : Int} {q : Req} {reach : Bool} {cut : Cut}
    (hq : q.plain = true) (hcut : cut.Faithful) (hcl : ∀ c ∈ cl.chan, c.login = wanted o) :
    ∀ c ∈ (callRemote bad o cap s cl t q reach cut).2.1.chan, c.login = wanted o := by
  have on : ∀ (s : Server) (cl : Cl) (c : Conn), (∀ c ∈ cl.chan, c.login = wanted o) → c.login = wanted o →
      ∀ c' ∈ (callOn bad s cl c t q cut).2.1.chan, c'.login = wanted o := by
    intro s cl c h1 h2 c' hc'
    simp only [callOn, List.mem_append, List.mem_singleton] at hc'
    rcases hc' with hc' | rfl
    · exact h1 _ hc'
    · rw [exchange_login hq]; exact h2
  unfold callRemote
  split
  · rename_i c cs he
    rw [he] at hcl
    exact on _ _ _ (fun c hc => hcl c (List.mem_cons_of_mem _ hc)) (hcl c (List.mem_cons_self ..))
  · rename_i he
    have hnil : ∀ c ∈ cl.chan, c.login = wanted o := hcl
    split
    · exact hnil
    · split
      · split
        · have hsp := openConn_spec s o t cut hcut
          split
          · rename_i s' c ho
            rw [ho] at hsp
            exact on _ _ _ hnil (hsp.2 rfl).1
          · exact hnil
        · exact hnil
      · exact hnil

/-- C93: in every session without `Select`, whatever the calls, the replies, the way they are cut and the
connections lost, every connection in the pool is logged in with the configured password and on the
configured database. -/
theorem C93_configured (o : Opt) (cap : Nat) (s : Server) (h : List Ev) (hp : ∀ e ∈ h, e.Plain) :
    ∀ c ∈ (runRemote bad o cap (s, Cl.new) h).2.chan, c.login = wanted o := by
  have key : ∀ (h : List Ev) (x : Server × Cl), (∀ e ∈ h, e.Plain) → (∀ c ∈ x.2.chan, c.login = wanted o) →
      ∀ c ∈ (runRemote bad o cap x h).2.chan, c.login = wanted o := by
    intro h
    induction h with
    | nil => intro x _ hx; exact hx
    | cons e h ih =>
      intro x hp hx
      rw [runRemote]
      refine ih _ (fun e he => hp e (List.mem_cons_of_mem _ he)) ?_
      have he := hp e (List.mem_cons_self ..)
      cases e with
      | drop =>
        intro c hc
        simp only [stepRemote, List.mem_map] at hc
        obtain ⟨c', hc', rfl⟩ := hc
        exact hx c' hc'
      | call t q reach cut => exact callRemote_login he.1 he.2 hx
  exact key h _ hp (by simp [Cl.new])

/-- The hypothesis is met by a session with a wrong reply cut and a lost connection, of a client with a
password and a database; its pool is not empty. -/
example : (∀ e ∈ [Ev.call 0 (.set b!"k" b!"v") true whole, .call 1 (.get b!"k") true bytewise, .drop, .call 2 (.get b!"k") true whole],
      e.Plain) ∧
    ((runRemote (fun _ => F64.zero) ⟨b!"secret", 3⟩ 2 (⟨some b!"secret", fun _ => Ref.empty⟩, Cl.new)
      [.call 0 (.set b!"k" b!"v") true whole, .call 1 (.get b!"k") true bytewise, .drop, .call 2 (.get b!"k") true whole]).2.chan.map
        (·.login)) = [⟨3, true⟩] := by
  constructor
  · intro e he
    simp only [List.mem_cons, List.not_mem_nil, or_false] at he
    rcases he with rfl | rfl | rfl | rfl
    · exact ⟨rfl, fun b => by simp [whole]⟩
    · exact ⟨rfl, faithful_bytewise⟩
    · trivial
    · exact ⟨rfl, fun b => by simp [whole]⟩
  · decide +kernel

/-- `Select` falls outside C93: it moves the one connection it happens to use.  With two connections in the
pool, as two goroutines leave it, a single goroutine that selects a database and then stores a value
stores it in another database, and does not find it again. -/
theorem C93_select_violated :
    answers (fun _ => F64.zero) ⟨[], 0⟩ 2 openServer ⟨[Conn.fresh, Conn.fresh], 2, false⟩
      [.call 0 (.select 1) true whole, .call 1 (.set b!"k" b!"v") true whole, .call 2 (.get b!"k") true whole,
       .call 3 (.get b!"k") true whole] =
      [.done (some ⟨.text [], none⟩), .done (some ⟨.text [], none⟩), .done (some ⟨.text [], some (.reply b!"Nil")⟩),
       .done (some ⟨.text b!"v", none⟩)] := by decide +kernel

/-! ## C92: the client keeps working -/

/-- The history of a client nothing happens to but its calls. -/
def calls (h : List (Int × Req × Cut)) : List Ev := h.map fun e => .call e.1 e.2.1 true e.2.2

/-- Every call gets the reply to its own request, on one login. -/
def direct (bad : Bytes → F64) : Server → Login → List (Int × Req × Cut) → List Answer
  | _, _, [] => []
  | s, l, (t, q, _) :: h =>
    let r := serve s l t (args q)
    .done (result bad q (.ok r.2.2)) :: direct bad r.1 r.2.1 h

/-- All replies can be read. -/
def CarriedOne : Server → Login → List (Int × Req × Cut) → Prop
  | _, _, [] => True
  | s, l, (t, q, cut) :: h =>
    let r := serve s l t (args q)
    Carried cut r.2.2 ∧ CarriedOne r.1 r.2.1 h

theorem answers_one {o : Opt} {cap n : Nat} (h : List (Int × Req × Cut)) (s : Server) (c : Conn) (hc : c.Ready)
    (hr : CarriedOne s c.login h) : answers bad o cap s ⟨[c], n, false⟩ (calls h) = direct bad s c.login h := by
  induction h generalizing s c with
  | nil => rfl
  | cons e h ih =>
    obtain ⟨t, q, cut⟩ := e
    obtain ⟨hr1, hr2⟩ := hr
    obtain ⟨c', e1, e2, e3⟩ := exchange_ready (t := t) (cmd := args q) hc hr1
    simp only [calls, List.map_cons, answers, callRemote, callOn, e1, direct, List.nil_append]
    rw [← e2] at hr2 ⊢
    have := ih _ _ e3 hr2
    rw [calls] at this
    rw [this]

/-- C92 as far as it holds: while no connection is lost, a client the server accepts answers every call
of a goroutine with the reply to its own request, on the configured login, if the replies can be
read.  Missing: sessions in which a connection is lost (`C92_violated`). -/
theorem C92_answers_partial (o : Opt) (cap : Nat) (hcap : 0 < cap) (s : Server) (ha : Accepts s o) (h : List (Int × Req × Cut))
    (hf : ∀ e ∈ h, e.2.2.Faithful) (hr : CarriedOne s (wanted o) h) :
    answers bad o cap s Cl.new (calls h) = direct bad s (wanted o) h := by
  cases h with
  | nil => rfl
  | cons e h =>
    obtain ⟨t, q, cut⟩ := e
    have hcut : cut.Faithful := hf _ (List.mem_cons_self ..)
    have h1 := openConn_spec s o t cut hcut
    have h2 := (C93_dial s o t cut hcut).2 ha
    obtain ⟨x, hx⟩ : ∃ x, x = openConn t cut (openCmds o) s Conn.fresh := ⟨_, rfl⟩
    rw [← hx] at h1 h2
    obtain ⟨s', c, b⟩ := x
    obtain ⟨rfl, h3⟩ := h1
    simp only at h2 h3
    subst h2
    obtain ⟨hl, hc⟩ := h3 rfl
    have := answers_one (o := o) (cap := cap) (n := 1) (bad := bad) ((t, q, cut) :: h) s' c hc (by rw [hl]; exact hr)
    rw [hl] at this
    rw [← this]
    simp only [calls, List.map_cons, answers, callRemote, Cl.new, hcap, if_true, ← hx, callOn, List.nil_append,
      if_false, Nat.zero_add, Bool.false_eq_true]

theorem read_down {r : Rd} (h : Rd.Quiet r) : (readMessage r).1 = .err .eof ∧ Rd.Quiet (readMessage r).2 := by
  have h1 := readByte_flat r h.2
  rw [h.1] at h1
  simp only [flatByte, Prod.mk.injEq] at h1
  have e : readByte r = (.err .eof, (readByte r).2) := Prod.ext h1.1.1 rfl
  have : readMessage r = (.err .eof, (readByte r).2) := by
    rw [readMessage, readMsg, e]; rfl
  rw [this]
  exact ⟨rfl, h1.1.2, h1.2⟩

/-- A connection the other side has closed. -/
def Conn.Dead (c : Conn) : Prop := c.up = false ∧ Rd.Quiet c.rd

theorem result_conn (bad : Bytes → F64) (q : Req) (e : RErr) : ∃ v, result bad q (.err e) = some ⟨v, some (.conn e)⟩ := by
  cases q <;> exact ⟨_, rfl⟩

/-- C92 is false: once the connections of the pool are closed by the other side, every later call fails, for
ever, whatever calls follow and although the server is up and reachable: dead connections go back
into the pool and none is dialled in their place. -/
theorem C92_violated (o : Opt) (cap : Nat) (h : List Ev) (s : Server) (cl : Cl) (hne : cl.chan ≠ []) (hd : ∀ c ∈ cl.chan, c.Dead) :
    ∀ a ∈ answers bad o cap s cl h, ∃ v, a = .done (some ⟨v, some (.conn .eof)⟩) := by
  induction h generalizing s cl with
  | nil => intro a ha; simp [answers] at ha
  | cons e h ih =>
    cases e with
    | drop =>
      rw [answers]
      refine ih _ _ (by simpa [stepRemote] using hne) ?_
      intro c hc
      obtain ⟨c', hc', rfl⟩ := List.mem_map.1 hc
      exact ⟨rfl, (hd c' hc').2⟩
    | call t q reach cut =>
      obtain ⟨chan, size, lock⟩ := cl
      cases chan with
      | nil => exact absurd rfl hne
      | cons c cs =>
        have hc := hd c (List.mem_cons_self ..)
        obtain ⟨e1, e2⟩ := read_down hc.2
        intro a ha
        simp only [answers, callRemote, callOn, exchange, hc.1, Bool.false_eq_true, if_false, List.mem_cons] at ha
        rcases ha with rfl | ha
        · rw [e1]
          obtain ⟨v, hv⟩ := result_conn bad q .eof
          exact ⟨v, by rw [hv]⟩
        · refine ih _ _ (by simp) ?_ a ha
          intro c' hc'
          simp only [List.mem_append, List.mem_singleton] at hc'
          rcases hc' with hc' | rfl
          · exact hd c' (List.mem_cons_of_mem _ hc')
          · exact ⟨rfl, e2⟩

/-- Such a pool is what a client has after one successful call and a restart of the server. -/
example : (∀ c ∈ (runRemote (fun _ => F64.zero) ⟨[], 0⟩ 10 (openServer, Cl.new) [.call 0 (.set b!"k" b!"v") true whole, .drop]).2.chan,
      c.up = false ∧ c.rd.flat = []) ∧
    (runRemote (fun _ => F64.zero) ⟨[], 0⟩ 10 (openServer, Cl.new) [.call 0 (.set b!"k" b!"v") true whole, .drop]).2.chan.length = 1 := by
  decide +kernel

/-- Nor does a client recover from a server that is not reachable, or does not accept it, at the first
call: all later calls wait for ever. -/
theorem C92_unreachable_violated (o : Opt) (cap : Nat) (s : Server) (t : Int) (q : Req) (reach : Bool) (cut : Cut) (hcap : 0 < cap)
    (hr : reach = false ∨ (¬ Accepts s o ∧ cut.Faithful)) (h : List Ev) :
    ∃ rest, answers bad o cap s Cl.new (.call t q reach cut :: h) = .noConn :: rest ∧ ∀ a ∈ rest, a = .hang := by
  have key : ∀ (h : List Ev) (s : Server) (n : Nat), ∀ a ∈ answers bad o cap s ⟨[], n, true⟩ h, a = .hang := by
    intro h
    induction h with
    | nil => intro s n a ha; simp [answers] at ha
    | cons e h ih =>
      intro s n a ha
      cases e with
      | drop => exact ih _ _ a (by simpa [answers, stepRemote] using ha)
      | call t q reach cut =>
        simp only [answers, callRemote, if_true, List.mem_cons] at ha
        rcases ha with rfl | ha
        · rfl
        · exact ih _ _ a ha
  cases reach with
  | false =>
    refine ⟨_, ?_, key h s 0⟩
    simp only [answers, callRemote, Cl.new, hcap, if_true, if_false, Bool.false_eq_true]
  | true =>
    rcases hr with hr | ⟨hr, hcut⟩
    · cases hr
    · have hb : (openConn t cut (openCmds o) s Conn.fresh).2.2 = false := by
        cases hx : (openConn t cut (openCmds o) s Conn.fresh).2.2 with
        | false => rfl
        | true => exact absurd ((C93_dial s o t cut hcut).mp hx) hr
      generalize hy : openConn t cut (openCmds o) s Conn.fresh = y at hb
      obtain ⟨s', c', b⟩ := y
      simp only at hb
      subst hb
      refine ⟨_, ?_, key h s' 0⟩
      simp only [answers, callRemote, Cl.new, hcap, if_true, if_false, Bool.false_eq_true, hy]

/-- A case: a wrong password. -/
example : ¬ Accepts ⟨some b!"secret", openServer.dbs⟩ ⟨b!"guess", 0⟩ ∧ Cut.Faithful bytewise :=
  ⟨fun h => absurd (h.1 (by decide)) (by decide), faithful_bytewise⟩

/-! ## C94: remote calls mean what they mean on the server -/

/-- The documented call a method stands for; the others do not deliver it (C51, C52). -/
def asCall : Req → Option Call
  | .set k v => some (.set k v)
  | .get k => some (.get k)
  | .getSet k v => some (.getSet k v)
  | .strLen k => some (.strLen k)
  | .append k v => some (.append k v)
  | .setRange k n v => some (.setRange k n v)
  | .getRange k a b => some (.getRange k a b)
  | .incr k => some (.incr k)
  | .decr k => some (.decr k)
  | .decrBy k n => some (.decrBy k n)
  | .mSet (p :: kv) => some (.mSet (p :: kv))
  | .mSetNX (p :: kv) => some (.mSetNX (p :: kv))
  | .mGet (k :: ks) => some (.mGet (k :: ks))
  | _ => none

/-- An answer as the caller of the remote client should see it: texts, integers and lists as they are, an
absent key as the error "Nil", other errors by their text, and nothing but success for `Set` and
`MSet`. -/
def shown (op : Call) : Verif.Out → Out Val
  | .str (.ok s) => match op with
    | .set .. | .mSet .. => ⟨.text [], none⟩
    | _ => ⟨.text s, none⟩
  | .str (.err .keyNil) => ⟨.text [], some (.reply b!"Nil")⟩
  | .str (.err e) => ⟨.text [], some (.reply (errText e))⟩
  | .int (.ok n) => ⟨.int (Int64.ofInt n), none⟩
  | .int (.err e) => ⟨.int 0, some (.reply (errText e))⟩
  | .slots (.ok l) => ⟨.list (l.map fun
      | .ok s => .text s
      | _ => .error b!"Nil"), none⟩
  | _ => ⟨.text [], none⟩

theorem pairs_entries (kv : List (Bytes × Bytes)) : pairs (entries kv) = some kv := by
  induction kv with
  | nil => rfl
  | cons p kv ih =>
    have : entries (p :: kv) = p.1 :: p.2 :: entries kv := rfl
    rw [this, pairs, ih]; rfl

theorem callNamed_args (q : Req) (op : Call) (h : asCall q = some op) :
    ∃ name a, args q = name :: a ∧ name.map lowerLetter ≠ b!"auth" ∧ name.map lowerLetter ≠ b!"select" ∧
      callNamed (name.map lowerLetter) a = some op := by
  have low : ∀ x y : Bytes, x.map lowerLetter = y → ∀ a, callNamed (x.map lowerLetter) a = callNamed y a := by
    intro x y h a; rw [h]
  cases q with
  | set | get | getSet | strLen | append | incr | decr =>
    cases h; exact ⟨_, _, rfl, by decide, by decide, rfl⟩
  | setRange k n v =>
    cases h; refine ⟨_, _, rfl, by decide, by decide, ?_⟩
    rw [low _ b!"setrange" (by decide)]; simp [callNamed, atoi_itoa]
  | getRange k a b =>
    cases h; refine ⟨_, _, rfl, by decide, by decide, ?_⟩
    rw [low _ b!"getrange" (by decide)]; simp [callNamed, atoi_itoa]
  | decrBy k n =>
    cases h; refine ⟨_, _, rfl, by decide, by decide, ?_⟩
    rw [low _ b!"decrby" (by decide)]; simp [callNamed, atoi_itoa]
  | mSet kv =>
    cases kv with
    | nil => simp [asCall] at h
    | cons p kv =>
      cases h; refine ⟨_, _, rfl, by decide, by decide, ?_⟩
      rw [low _ b!"mset" (by decide)]; simp [callNamed, pairs_entries]
  | mSetNX kv =>
    cases kv with
    | nil => simp [asCall] at h
    | cons p kv =>
      cases h; refine ⟨_, _, rfl, by decide, by decide, ?_⟩
      rw [low _ b!"msetnx" (by decide)]; simp [callNamed, pairs_entries]
  | mGet ks =>
    cases ks with
    | nil => simp [asCall] at h
    | cons k ks =>
      cases h; refine ⟨_, _, rfl, by decide, by decide, ?_⟩
      rw [low _ b!"mget" (by decide)]; simp [callNamed]
  | select | setNX | setEX | pSetEX | incrBy | incrByFloat => simp [asCall] at h

theorem serve_args {s : Server} {l : Login} {t : Int} {q : Req} {op : Call} (h : asCall q = some op)
    (ha : s.password.isSome → l.authed = true) :
    serve s l t (args q) = ({ s with dbs := fun d => if d = l.db then (Ref.exec (s.dbs l.db) t op).1 else s.dbs d }, l,
      replyTo op (Ref.exec (s.dbs l.db) t op).2) := by
  obtain ⟨name, a, h1, h2, h3, h4⟩ := callNamed_args q op h
  have hn : ¬ (s.password.isSome = true ∧ l.authed = false) := by
    rintro ⟨x, y⟩; rw [ha x] at y; simp at y
  rw [h1]
  simp only [serve, if_neg h2, if_neg h3, if_neg hn, h4]

/-- The reply to a documented call is read as it should be shown. -/
theorem result_replyTo (st : Ref.Store) (t : Int) {q : Req} {op : Call} (h : asCall q = some op) :
    result bad q (.ok (replyTo op (Ref.exec st t op).2)) = some (shown op (Ref.exec st t op).2) := by
  have htext : ∀ (k : Bytes) (a : Res Bytes), a ≠ .panic → Ref.text st t k a ≠ .panic := by
    intro k a ha; unfold Ref.text; split
    · exact ha
    · simp
    · simp
  have hint : ∀ (q : Req), (∀ n, result bad q (.ok (.int n)) = some ⟨.int n, none⟩) →
      (∀ e, result bad q (.ok (.error e)) = some ⟨.int 0, some (.reply e)⟩) → ∀ (op : Call) (o : Verif.Out),
      (∃ x, o = .int x ∧ x ≠ .panic) → result bad q (.ok (replyTo op o)) = some (shown op o) := by
    rintro q h1 h2 op _ ⟨x, rfl, hx⟩
    cases x with
    | ok n => simp [replyTo, shown, h1]
    | err e => simp [replyTo, shown, h2]
    | panic => exact absurd rfl hx
  have hadd : ∀ (k : Bytes) (n : Int), ∃ x, (Ref.addTo st t k n).2 = .int x ∧ x ≠ .panic := by
    intro k n
    unfold Ref.addTo
    split
    · split
      · exact ⟨_, rfl, by simp⟩
      · split <;> exact ⟨_, rfl, by simp⟩
    · exact ⟨_, rfl, by simp⟩
    · rename_i h; exact absurd h (htext _ _ (by simp))
  have hmap : ∀ (x : Res Bytes) (f : Bytes → Int), x ≠ .panic → x.map f ≠ .panic := by
    intro x f hx hc
    cases x with
    | ok a => cases hc
    | err e => cases hc
    | panic => exact hx rfl
  cases q with
  | set k v => cases h; rfl
  | get k =>
    cases h
    simp only [Ref.exec]
    have := htext k (.err .keyNil) (by simp)
    cases hx : Ref.text st t k (.err .keyNil) with
    | ok s => rfl
    | err e => cases e <;> rfl
    | panic => exact absurd hx this
  | getSet k v =>
    cases h
    simp only [Ref.exec]
    have := htext k (.err .keyNil) (by simp)
    cases hx : Ref.text st t k (.err .keyNil) with
    | ok s => rfl
    | err e => cases e <;> rfl
    | panic => exact absurd hx this
  | getRange k a b =>
    cases h
    simp only [Ref.exec]
    have := htext k (.ok []) (by simp)
    cases hx : Ref.text st t k (.ok []) with
    | ok s => rfl
    | err e => cases e <;> rfl
    | panic => exact absurd hx this
  | strLen k =>
    cases h
    exact hint _ (fun _ => rfl) (fun _ => rfl) _ _ ⟨_, rfl, hmap _ _ (htext _ _ (by simp))⟩
  | append k v =>
    cases h
    refine hint _ (fun _ => rfl) (fun _ => rfl) _ _ ?_
    simp only [Ref.exec]
    split
    · exact ⟨_, rfl, by simp⟩
    · exact ⟨_, rfl, by simp⟩
    · rename_i h; exact absurd h (htext _ _ (by simp))
  | setRange k n v =>
    cases h
    refine hint _ (fun _ => rfl) (fun _ => rfl) _ _ ?_
    simp only [Ref.exec]
    split
    · exact ⟨_, rfl, by simp⟩
    · split
      · split
        · exact ⟨_, rfl, by simp⟩
        · split <;> exact ⟨_, rfl, by simp⟩
      · exact ⟨_, rfl, by simp⟩
      · rename_i h; exact absurd h (htext _ _ (by simp))
  | incr k => cases h; exact hint _ (fun _ => rfl) (fun _ => rfl) _ _ (hadd k 1)
  | decr k => cases h; exact hint _ (fun _ => rfl) (fun _ => rfl) _ _ (hadd k (-1))
  | decrBy k n => cases h; exact hint _ (fun _ => rfl) (fun _ => rfl) _ _ (hadd k (-n.toInt))
  | mSet kv =>
    cases kv with
    | nil => simp [asCall] at h
    | cons p kv => cases h; rfl
  | mSetNX kv =>
    cases kv with
    | nil => simp [asCall] at h
    | cons p kv =>
      cases h
      refine hint _ (fun _ => rfl) (fun _ => rfl) _ _ ?_
      simp only [Ref.exec]
      split <;> exact ⟨_, rfl, by simp⟩
  | mGet ks =>
    cases ks with
    | nil => simp [asCall] at h
    | cons k ks =>
      cases h
      simp only [Ref.exec, replyTo, result, exec, parseArray, shown, Option.map_some]
      refine congrArg (fun l => some (⟨.list l, none⟩ : Out Val)) ?_
      rw [List.map_map]
      exact List.map_congr_left fun r _ => by cases r <;> rfl
  | select | setNX | setEX | pSetEX | incrBy | incrByFloat => simp [asCall] at h

/-- The documented calls of a history of methods. -/
def hist (h : List (Int × Req × Cut)) : History := h.filterMap fun e => (asCall e.2.1).map fun op => (e.1, op)

/-- The answers of calls as the caller of the remote client should see them. -/
def shownAll (h : History) (l : List Verif.Out) : List Answer :=
  List.zipWith (fun e o => .done (some (shown e.2 o))) h l

theorem direct_eq (h : List (Int × Req × Cut)) (s : Server) (l : Login) (ha : s.password.isSome → l.authed = true)
    (hd : ∀ e ∈ h, (asCall e.2.1).isSome = true) :
    direct bad s l h = shownAll (hist h) (Ref.outs (s.dbs l.db) (hist h)) := by
  induction h generalizing s with
  | nil => rfl
  | cons e h ih =>
    obtain ⟨t, q, cut⟩ := e
    obtain ⟨op, hop⟩ := Option.isSome_iff_exists.1 (hd _ (List.mem_cons_self ..))
    have e1 : hist ((t, q, cut) :: h) = (t, op) :: hist h := by simp only at hop; simp [hist, hop]
    rw [direct, serve_args hop ha, e1]
    simp only [Ref.outs, shownAll, List.zipWith_cons_cons]
    have := ih { s with dbs := fun d => if d = l.db then (Ref.exec (s.dbs l.db) t op).1 else s.dbs d } ha
      (fun e he => hd e (List.mem_cons_of_mem _ he))
    rw [result_replyTo _ _ hop, this]
    simp [shownAll]

/-- C94 as far as it holds: a goroutine that uses the documented methods of the remote client sees exactly
the answers the Redis documentation gives for its calls on the configured database.  Missing: the
methods that do not deliver (`C94_violated`), replies that cannot be read (`C91_violated`), lost
connections (`C92_violated`). -/
theorem C94_remote_partial (o : Opt) (cap : Nat) (hcap : 0 < cap) (s : Server) (ha : Accepts s o)
    (hp : s.password.isSome → o.password ≠ []) (h : List (Int × Req × Cut)) (hd : ∀ e ∈ h, (asCall e.2.1).isSome = true)
    (hf : ∀ e ∈ h, e.2.2.Faithful) (hr : CarriedOne s (wanted o) h) :
    answers bad o cap s Cl.new (calls h) = shownAll (hist h) (Ref.outs (s.dbs (wanted o).db) (hist h)) := by
  rw [C92_answers_partial o cap hcap s ha h hf hr, direct_eq h s (wanted o) _ hd]
  intro h; simpa [wanted] using hp h

/-- A session that meets the hypotheses. -/
def sampleCalls : List (Int × Req × Cut) :=
  [(0, .set b!"k" b!"hello", whole), (1, .append b!"k" b!" you", whole), (2, .get b!"k", whole), (3, .get b!"none", bytewise),
   (4, .incr b!"n", bytewise), (5, .incr b!"k", bytewise), (6, .mSet [(b!"a", b!"1"), (b!"b", b!"2")], whole),
   (7, .mGet [b!"a", b!"x", b!"b"], whole), (8, .getRange b!"k" 0 4, whole), (9, .decrBy b!"n" 5, whole)]

def sampleServer : Server := ⟨some b!"secret", fun _ => Ref.empty⟩

theorem sample_ok : Accepts sampleServer ⟨b!"secret", 3⟩ ∧ (∀ e ∈ sampleCalls, (asCall e.2.1).isSome = true) ∧
    (∀ e ∈ sampleCalls, e.2.2.Faithful) ∧ CarriedOne sampleServer (wanted ⟨b!"secret", 3⟩) sampleCalls := by
  refine ⟨⟨fun _ => rfl, fun _ => ⟨by decide, fun _ => by decide⟩⟩, by decide, ?_, ?_⟩
  · intro e he
    simp only [sampleCalls, List.mem_cons, List.not_mem_nil, or_false] at he
    rcases he with rfl | rfl | rfl | rfl | rfl | rfl | rfl | rfl | rfl | rfl <;>
      first | exact faithful_bytewise | exact fun b => by simp [whole]
  · refine ⟨carried_token (tokenCut_whole (fits_ofB ?_) ?_), carried_token (tokenCut_whole (fits_ofB ?_) ?_), carried_token (tokenCut_whole (fits_ofB ?_) ?_),
      carried_line faithful_bytewise ?_, carried_line faithful_bytewise ?_, carried_line faithful_bytewise ?_,
      carried_token (tokenCut_whole (fits_ofB ?_) ?_), carried_token (tokenCut_whole (fits_ofB ?_) ?_), carried_token (tokenCut_whole (fits_ofB ?_) ?_),
      carried_token (tokenCut_whole (fits_ofB ?_) ?_), trivial⟩ <;> decide +kernel

/-- Its answers. -/
example : answers (fun _ => F64.zero) ⟨b!"secret", 3⟩ 10 sampleServer Cl.new (calls sampleCalls) =
    [.done (some ⟨.text [], none⟩), .done (some ⟨.int 9, none⟩), .done (some ⟨.text b!"hello you", none⟩),
     .done (some ⟨.text [], some (.reply b!"Nil")⟩), .done (some ⟨.int 1, none⟩), .done (some ⟨.int 0, some (.reply b!"WRONGTYPE")⟩),
     .done (some ⟨.text [], none⟩), .done (some ⟨.list [.text b!"1", .error b!"Nil", .text b!"2"], none⟩),
     .done (some ⟨.text b!"hello", none⟩), .done (some ⟨.int (-4), none⟩)] := by
  decide +kernel

/-- C94 is false of the other methods: storing with a time to live is refused, adding any amount is
refused, a successful `SetNX` reports an error, adding a float reports zero. -/
theorem C94_violated :
    answers (fun _ => F64.zero) ⟨[], 0⟩ 10 openServer Cl.new
      [.call 0 (.setEX b!"k" b!"v" 10) true whole, .call 1 (.get b!"k") true whole, .call 2 (.incrBy b!"n" 5) true whole,
       .call 3 (.get b!"n") true whole, .call 4 (.setNX b!"x" b!"v") true whole, .call 5 (.get b!"x") true whole] =
      [.done (some ⟨.text [], some (.reply b!"ERR unknown command or wrong arguments")⟩),
       .done (some ⟨.text [], some (.reply b!"Nil")⟩),
       .done (some ⟨.int 0, some (.reply b!"ERR unknown command or wrong arguments")⟩),
       .done (some ⟨.text [], some (.reply b!"Nil")⟩),
       .done (some ⟨.text [], some (.reply [])⟩), .done (some ⟨.text b!"v", none⟩)] := by
  decide +kernel

/-! ## C95: local cache and remote client are interchangeable -/

/-- C95 as far as it holds: the same calls, made on an empty local cache and, through the remote client, on
an empty database, give the same answers (as the remote client shows them), if they are safe.
Missing: unsafe calls (`C95_violated`) and what C94 misses. -/
theorem C95_same_answers_partial (o : Opt) (cap : Nat) (hcap : 0 < cap) (s : Server) (ha : Accepts s o)
    (hp : s.password.isSome → o.password ≠ []) (h : List (Int × Req × Cut)) (hd : ∀ e ∈ h, (asCall e.2.1).isSome = true)
    (hf : ∀ e ∈ h, e.2.2.Faithful) (hr : CarriedOne s (wanted o) h) (he : s.dbs (wanted o).db = Ref.empty)
    (t0 : Int) (hm : Monotone t0 (hist h)) (hs : Ref.SafeRun Ref.empty (hist h)) :
    answers bad o cap s Cl.new (calls h) = shownAll (hist h) (outs Cache.new (hist h)) := by
  rw [C94_remote_partial o cap hcap s ha hp h hd hf hr, he, C90_conforms_partial _ t0 hm hs]

/-- A session that meets the hypotheses. -/
def sameCalls : List (Int × Req × Cut) :=
  [(0, .set b!"k" b!"hello", whole), (1, .append b!"k" b!" you", whole), (2, .get b!"k", whole), (3, .get b!"none", bytewise),
   (4, .incr b!"n", bytewise), (5, .mGet [b!"k", b!"x"], whole), (6, .getRange b!"k" (-3) (-1), whole)]

example : (∀ e ∈ sameCalls, (asCall e.2.1).isSome = true) ∧ (∀ e ∈ sameCalls, e.2.2.Faithful) ∧
    CarriedOne sampleServer (wanted ⟨b!"secret", 3⟩) sameCalls ∧ Monotone 0 (hist sameCalls) ∧
    Ref.SafeRun Ref.empty (hist sameCalls) := by
  refine ⟨by decide, ?_, ?_, ?_, ?_⟩
  · intro e he
    simp only [sameCalls, List.mem_cons, List.not_mem_nil, or_false] at he
    rcases he with rfl | rfl | rfl | rfl | rfl | rfl | rfl <;>
      first | exact faithful_bytewise | exact fun b => by simp [whole]
  · refine ⟨carried_token (tokenCut_whole (fits_ofB ?_) ?_), carried_token (tokenCut_whole (fits_ofB ?_) ?_), carried_token (tokenCut_whole (fits_ofB ?_) ?_),
      carried_line faithful_bytewise ?_, carried_line faithful_bytewise ?_, carried_token (tokenCut_whole (fits_ofB ?_) ?_),
      carried_token (tokenCut_whole (fits_ofB ?_) ?_), trivial⟩ <;> decide +kernel
  · simp [sameCalls, hist, asCall, Monotone]
  · simp only [sameCalls, hist, asCall, List.filterMap_cons, List.filterMap_nil, Option.map_some, Ref.SafeRun, Ref.Safe, and_true, true_and]
    refine ⟨⟨verbatim_of (by decide +kernel), fun e h => by cases h⟩, ?_, ⟨?_, ?_⟩, ?_⟩
    · intro s h
      have : s = b!"hello" := by
        have e : GoRes.ok b!"hello" = GoRes.ok s := h
        injection e with e; exact e.symm
      subst this; exact verbatim_of (by decide +kernel)
    · intro e h; cases h
    · intro s m h; cases h
    · intro k hk m h
      simp only [List.mem_cons, List.not_mem_nil, or_false] at hk
      rcases hk with rfl | rfl
      · have h : some (Ref.RVal.str b!"hello you") = some (.hash m) := h
        cases h
      · cases h

/-- C95 is false of all calls: a text that is a number in another spelling comes back as it was from the
server, and respelled from the local cache. -/
theorem C95_violated :
    answers (fun _ => F64.zero) ⟨[], 0⟩ 10 openServer Cl.new
      [.call 0 (.set b!"k" b!"007") true whole, .call 1 (.get b!"k") true whole] =
        [.done (some ⟨.text [], none⟩), .done (some ⟨.text b!"007", none⟩)] ∧
    shownAll [(0, .set b!"k" b!"007"), (1, .get b!"k")] (outs Cache.new [(0, .set b!"k" b!"007"), (1, .get b!"k")]) =
        [.done (some ⟨.text [], none⟩), .done (some ⟨.text b!"7", none⟩)] := by
  decide +kernel

end Verif.Client

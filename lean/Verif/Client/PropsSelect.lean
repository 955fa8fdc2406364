import Verif.Client.PropsRemote
/-!
# C93, exactly: which calls a Select moves
-/
namespace Verif.Client
open Verif.Resp

variable {bad : Bytes → F64}

/-- What a call that is run does to the connection it uses: a Select the server allows moves it. -/
def moved (s : Server) (l : Login) : Req → Login
  | .select d => if (s.password.isSome = true → l.authed = true) ∧ 0 ≤ d.toInt ∧ d.toInt < 16 then { l with db := d.toInt } else l
  | _ => l

/-- The logins on which the calls of a history are made: each is made on the connection at the head of the pool. -/
def usedLogins (bad : Bytes → F64) (o : Opt) (cap : Nat) : Server → Cl → List (Int × Req × Bool × Cut) → List (Option Login)
  | _, _, [] => []
  | s, cl, (t, q, reach, cut) :: h =>
    let x := callRemote bad o cap s cl t q reach cut
    cl.chan.head?.map (·.login) :: usedLogins bad o cap x.1 x.2.1 h

theorem serve_password (s : Server) (l : Login) (t : Int) (line : List Bytes) : (serve s l t line).1.password = s.password := by
  unfold serve
  split
  · rfl
  · simp only
    repeat' split
    all_goals rfl

theorem serve_moved (s : Server) (l : Login) (t : Int) (q : Req) : (serve s l t (args q)).2.1 = moved s l q := by
  cases hq : q.plain with
  | true =>
    rw [serve_login s l t q hq]
    cases q <;> first | rfl | simp [Req.plain] at hq
  | false =>
    cases q with
    | select d =>
      have h1 : (b!"select").map lowerLetter = b!"select" := by decide
      have h2 : ¬ (b!"select" : Bytes) = b!"auth" := by decide
      show (serve s l t [b!"select", itoa d]).2.1 = _
      simp only [serve, h1, if_neg h2, if_true, atoi_itoa, moved]
      by_cases ha : s.password.isSome = true ∧ l.authed = false
      · simp [ha]
      · have ha' : s.password.isSome = true → l.authed = true := by
          intro h; cases hx : l.authed <;> simp_all
        rw [if_neg ha]
        by_cases h : 0 ≤ d.toInt ∧ d.toInt < 16
        · rw [if_pos h, if_pos ⟨ha', h⟩]
        · rw [if_neg h, if_neg fun x => h x.2]
    | _ => simp [Req.plain] at hq

theorem callRemote_pool {o : Opt} {cap : Nat} {s : Server} {cl : Cl} {c : Conn} {cs : List Conn} (he : cl.chan = c :: cs) (hu : c.up = true)
    (t : Int) (q : Req) (reach : Bool) (cut : Cut) :
    (callRemote bad o cap s cl t q reach cut).1.password = s.password ∧
    ∃ c', (callRemote bad o cap s cl t q reach cut).2.1.chan = cs ++ [c'] ∧ c'.up = true ∧ c'.login = moved s c.login q := by
  have hb := C47_binary_safe (args q) []
  rw [List.append_nil] at hb
  unfold callRemote
  rw [he]
  simp only [callOn, exchange, hu, if_true, hb]
  exact ⟨serve_password .., _, rfl, rfl, serve_moved ..⟩

theorem moved_password {s s' : Server} (h : s'.password = s.password) (l : Login) (q : Req) : moved s' l q = moved s l q := by
  cases q <;> simp [moved, h]

theorem succ_mod_cases (i n : Nat) (hn : 0 < n) : (i % n + 1 = n ∧ (i + 1) % n = 0) ∨ (i % n + 1 < n ∧ (i + 1) % n = i % n + 1) := by
  have h := Nat.mod_lt i hn
  have e : (i + 1) % n = (i % n + 1) % n := by simp [Nat.add_mod]
  rcases Nat.lt_or_ge (i % n + 1) n with hl | hl
  · exact .inr ⟨hl, by rw [e, Nat.mod_eq_of_lt hl]⟩
  · have : i % n + 1 = n := by omega
    exact .inl ⟨this, by rw [e, this, Nat.mod_self]⟩

/-- The login of the `j`-th call: that of the connection `j % n` of the pool, moved by the calls before it that used the same one. -/
def turn (s : Server) (L : List Login) (qs : List Req) (j : Nat) : Option Login :=
  L[j % L.length]?.map fun l => ((List.range j).filter fun i => i % L.length = j % L.length).foldl
    (fun l i => match qs[i]? with | some q => moved s l q | none => l) l

theorem turn_succ (s : Server) (l : Login) (L : List Login) (q : Req) (qs : List Req) (j : Nat) :
    turn s (l :: L) (q :: qs) (j + 1) = turn s (L ++ [moved s l q]) qs j := by
  have hlen : (L ++ [moved s l q]).length = (l :: L).length := by simp
  have hn : 0 < (l :: L).length := by simp
  unfold turn
  rw [hlen]
  have hfilter : ((List.range j).map Nat.succ).filter (fun i => i % (l :: L).length = (j + 1) % (l :: L).length) =
      ((List.range j).filter fun i => i % (l :: L).length = j % (l :: L).length).map Nat.succ := by
    rw [List.filter_map]
    congr 1
    apply List.filter_congr
    intro i _
    have h1 := succ_mod_cases i _ hn
    have h2 := succ_mod_cases j _ hn
    simp only [Function.comp, Nat.succ_eq_add_one, decide_eq_decide]
    omega
  have hfold : ∀ (xs : List Nat) (l0 : Login),
      (xs.map Nat.succ).foldl (fun l i => match (q :: qs)[i]? with | some q => moved s l q | none => l) l0 =
        xs.foldl (fun l i => match qs[i]? with | some q => moved s l q | none => l) l0 := by
    intro xs l0
    rw [List.foldl_map]
    rfl
  rw [List.range_succ_eq_map, List.filter_cons]
  rcases succ_mod_cases j _ hn with ⟨h1, h2⟩ | ⟨h1, h2⟩
  · rw [h2]
    have hj : j % (l :: L).length = L.length := by simp only [List.length_cons] at h1 ⊢; omega
    have hf := hfilter
    rw [h2] at hf
    simp only [Nat.zero_mod, decide_true, if_true, hf, List.getElem?_cons_zero, Option.map_some, List.foldl_cons, hfold]
    conv => rhs; arg 2; rw [hj]
    simp
  · have hne : ¬ (0 : Nat) % (l :: L).length = (j + 1) % (l :: L).length := by rw [h2, Nat.zero_mod]; omega
    simp only [hne, decide_false, Bool.false_eq_true, if_false, hfilter, hfold]
    have hg : (l :: L)[(j + 1) % (l :: L).length]? = (L ++ [moved s l q])[j % (l :: L).length]? := by
      rw [h2, List.getElem?_cons_succ, List.getElem?_append_left]
      simp only [List.length_cons] at h1 ⊢; omega
    rw [hg]

/-- C93, exactly, with Selects: on a pool of open connections the `j`-th call is made on connection `j % n`, whose database is the one it had, moved by
those Selects before it that happened to use the same connection. -/
theorem C93_exact (o : Opt) (cap : Nat) (h : List (Int × Req × Bool × Cut)) (s : Server) (cl : Cl) (hne : cl.chan ≠ []) (hup : ∀ c ∈ cl.chan, c.up = true)
    (j : Nat) (hj : j < h.length) :
    (usedLogins bad o cap s cl h)[j]? = some (turn s (cl.chan.map (·.login)) (h.map (·.2.1)) j) := by
  induction h generalizing s cl j with
  | nil => simp at hj
  | cons e h ih =>
    obtain ⟨t, q, reach, cut⟩ := e
    obtain ⟨c, cs, he⟩ := List.exists_cons_of_ne_nil hne
    rw [he] at hup
    obtain ⟨hp, c', h1, h2, h3⟩ := callRemote_pool (bad := bad) (o := o) (cap := cap) (s := s) he (hup c (by simp)) t q reach cut
    cases j with
    | zero => simp [usedLogins, he, turn]
    | succ j =>
      simp only [usedLogins, List.getElem?_cons_succ]
      rw [ih _ _ (by rw [h1]; simp) (by
        rw [h1]; intro x hx
        rcases List.mem_append.1 hx with hx | hx
        · exact hup x (List.mem_cons_of_mem _ hx)
        · simp only [List.mem_singleton] at hx; rw [hx]; exact h2) j (by simpa using hj)]
      congr 1
      rw [he]
      simp only [List.map_cons]
      rw [turn_succ, h1, List.map_append, ← h3]
      unfold turn
      simp only [moved_password hp, List.map_cons, List.map_nil]

/-- C93: after a Select the server allows, of a database that is not the present one, the calls that follow (no other Select among them) are made on the new
database if and only if they happen to use the same connection, that is, every n-th of them. -/
theorem C93_select_exact (o : Opt) (cap : Nat) (s : Server) (cl : Cl) (l : Login) (hne : cl.chan ≠ []) (hup : ∀ c ∈ cl.chan, c.up = true)
    (hl : ∀ c ∈ cl.chan, c.login = l) (ha : s.password.isSome = true → l.authed = true) (d : Int64) (hd : 0 ≤ d.toInt ∧ d.toInt < 16)
    (t : Int) (reach : Bool) (cut : Cut) (h : List (Int × Req × Bool × Cut)) (hp : ∀ e ∈ h, e.2.1.plain = true) (j : Nat) (hj : j < h.length) :
    (usedLogins bad o cap s cl ((t, .select d, reach, cut) :: h))[j + 1]? =
      some (some (if (j + 1) % cl.chan.length = 0 then { l with db := d.toInt } else l)) := by
  rw [C93_exact o cap _ s cl hne hup (j + 1) (by simpa using hj)]
  have hn : 0 < cl.chan.length := List.length_pos_iff.2 hne
  have hL : (cl.chan.map (·.login))[(j + 1) % cl.chan.length]? = some l := by
    have hlt := Nat.mod_lt (j + 1) hn
    rw [List.getElem?_map, List.getElem?_eq_getElem hlt, Option.map_some, hl _ (List.getElem_mem hlt)]
  have hplain : ∀ (xs : List Nat) (l0 : Login), (xs.map Nat.succ).foldl
      (fun l i => match (((t, Req.select d, reach, cut) :: h).map (·.2.1))[i]? with | some q => moved s l q | none => l) l0 = l0 := by
    intro xs
    induction xs with
    | nil => intro l0; rfl
    | cons i xs ih =>
      intro l0
      rw [List.map_cons (l := xs), List.foldl_cons, ih]
      simp only [List.map_cons, Nat.succ_eq_add_one, List.getElem?_cons_succ, List.getElem?_map]
      cases hi : h[i]? with
      | none => rfl
      | some e =>
        have := hp e (List.mem_of_getElem? hi)
        simp only [Option.map_some]
        cases hq : e.2.1 <;> rw [hq] at this <;> first | rfl | simp [Req.plain] at this
  unfold turn
  simp only [List.length_map, hL, Option.map_some]
  rw [List.range_succ_eq_map, List.filter_cons, List.filter_map]
  by_cases h0 : (j + 1) % cl.chan.length = 0
  · simp only [h0, Nat.zero_mod, decide_true, if_true, List.foldl_cons, hplain]
    simp only [List.map_cons, List.getElem?_cons_zero, moved, if_pos (And.intro ha hd)]
  · have : ¬ 0 % cl.chan.length = (j + 1) % cl.chan.length := by rw [Nat.zero_mod]; omega
    simp only [this, h0, decide_false, Bool.false_eq_true, if_false, hplain]

/-- C93: so a Select is followed by all later calls if and only if the pool holds one connection, as it does for a client used by one goroutine. -/
theorem C93_one_connection_exact (o : Opt) (cap : Nat) (s : Server) (cl : Cl) (l : Login) (hne : cl.chan ≠ []) (hup : ∀ c ∈ cl.chan, c.up = true)
    (hl : ∀ c ∈ cl.chan, c.login = l) (ha : s.password.isSome = true → l.authed = true) (d : Int64) (hd : 0 ≤ d.toInt ∧ d.toInt < 16) (hdb : d.toInt ≠ l.db)
    (t : Int) (reach : Bool) (cut : Cut) :
    (∀ h : List (Int × Req × Bool × Cut), (∀ e ∈ h, e.2.1.plain = true) → ∀ x ∈ (usedLogins bad o cap s cl ((t, .select d, reach, cut) :: h)).tail,
      x = some { l with db := d.toInt }) ↔ cl.chan.length = 1 := by
  have hn : 0 < cl.chan.length := List.length_pos_iff.2 hne
  constructor
  · intro hall
    apply Classical.byContradiction
    intro h1
    let h : List (Int × Req × Bool × Cut) := [(t, .get [], reach, cut)]
    have hx := C93_select_exact (bad := bad) o cap s cl l hne hup hl ha d hd t reach cut h (by simp [h, Req.plain]) 0 (by simp [h])
    have hm : (0 + 1) % cl.chan.length ≠ 0 := by rw [Nat.mod_eq_of_lt (by omega)]; omega
    rw [if_neg hm] at hx
    have := hall h (by simp [h, Req.plain]) (some l) (by
      apply List.mem_of_getElem? (i := 0)
      rw [List.getElem?_tail]
      exact hx)
    simp only [Option.some.injEq] at this
    exact hdb (by conv => rhs; rw [this])
  · intro h1 h hp x hx
    obtain ⟨j, hj⟩ := List.getElem?_of_mem hx
    rw [List.getElem?_tail] at hj
    have hlen : ∀ (h : List (Int × Req × Bool × Cut)) (s : Server) (cl : Cl), (usedLogins bad o cap s cl h).length = h.length := by
      intro h
      induction h with
      | nil => intro s cl; rfl
      | cons e h ih => intro s cl; obtain ⟨a, b, c, d⟩ := e; simp [usedLogins, ih]
    have hjl : j < h.length := by
      have := (List.getElem?_eq_some_iff.1 hj).1
      rw [hlen] at this
      simpa using this
    rw [C93_select_exact o cap s cl l hne hup hl ha d hd t reach cut h hp j hjl] at hj
    rw [h1, Nat.mod_one] at hj
    simpa using hj.symm

/-- Two connections: the calls after the Select are made on database 0, 1, 0, 1. -/
example : usedLogins (fun _ => F64.zero) ⟨[], 0⟩ 2 openServer ⟨[Conn.fresh, Conn.fresh], 2, false⟩
      [(0, .select 1, true, whole), (1, .get b!"k", true, whole), (2, .get b!"k", true, whole), (3, .get b!"k", true, whole), (4, .get b!"k", true, whole)] =
    [some ⟨0, false⟩, some ⟨0, false⟩, some ⟨1, false⟩, some ⟨0, false⟩, some ⟨1, false⟩] := by decide +kernel

end Verif.Client

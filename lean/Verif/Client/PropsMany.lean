import Verif.Client.ManyLive
/-!
# C106: many goroutines share one remote client
-/
namespace Verif.Client.Many
open Verif.Resp Verif.Client

variable {bad : Bytes → F64} {o : Opt} {cap : Nat}

/-! ## Reading paths -/

theorem path_append {σ : Type} {next : σ → Event → σ → Prop} {a c : σ} {L M : List Event} (h : Path next a (L ++ M) c) :
    ∃ b, Path next a L b ∧ Path next b M c := by
  generalize hN : L ++ M = N at h
  induction h generalizing M with
  | nil =>
    obtain ⟨rfl, rfl⟩ := List.append_eq_nil_iff.1 hN
    exact ⟨_, .nil _, .nil _⟩
  | snoc h1 h2 ih =>
    rename_i e
    rcases List.eq_nil_or_concat M with rfl | ⟨M', x, rfl⟩
    · rw [List.append_nil] at hN; subst hN
      exact ⟨_, .snoc h1 h2, .nil _⟩
    · rw [List.concat_eq_append, ← List.append_assoc] at hN
      obtain ⟨e1, e2⟩ := List.append_inj' hN rfl
      cases e2
      obtain ⟨b, k1, k2⟩ := ih e1
      exact ⟨b, k1, by rw [List.concat_eq_append]; exact .snoc k2 h2⟩

theorem path_cons {σ : Type} {next : σ → Event → σ → Prop} {a c : σ} {e : Event} {M : List Event} (h : Path next a (e :: M) c) :
    ∃ b, next a e b ∧ Path next b M c := by
  obtain ⟨b, h1, h2⟩ := path_append (L := [e]) h
  generalize hN : [e] = N at h1
  cases h1 with
  | nil => cases hN
  | snoc k1 k2 =>
    rename_i l x
    have : ([] : List Event) ++ [e] = l ++ [x] := hN
    obtain ⟨rfl, e2⟩ := List.append_inj' this rfl
    cases e2
    cases hl : ([] : List Event) ++ [] with
    | nil =>
      generalize hN : ([] : List Event) = N at k1
      cases k1 with
      | nil => exact ⟨_, k2, h2⟩
      | snoc _ _ => simp at hN
    | cons _ _ => simp at hl

/-- The path of the events before an event, and its step. -/
theorem path_at {σ : Type} {next : σ → Event → σ → Prop} {a c : σ} {L : List Event} {P : Event → Bool} {pre post : List Event} {e : Event}
    (h : Path next a (L.filter P) c) (hL : L = pre ++ e :: post) (he : P e = true) :
    ∃ b b', Path next a (pre.filter P) b ∧ next b e b' ∧ Path next b' (post.filter P) c := by
  subst hL
  rw [List.filter_append, List.filter_cons_of_pos he] at h
  obtain ⟨b, h1, h2⟩ := path_append h
  obtain ⟨b', h3, h4⟩ := path_cons h2
  exact ⟨b, b', h1, h3, h4⟩

/-- No request is sent in these events. -/
def NoSend (Y : List Event) : Prop := ∀ i c q, Event.send i c q ∉ Y

/-- What the events of a connection were if it is at `l`. -/
def Reach (c : Nat) (L : List Event) : Line → Prop
  | .free => True
  | .sent i q => ∃ X, L = X ++ [.send i c q]
  | .ran i q m => ∃ X t, L = X ++ [.send i c q, .run c t (args q) m]
  | .lost p cur r => .drop c ∈ L ∧ (∀ q, p = some q → ∃ i, .send i c q ∈ L) ∧
      match cur, r with
      | none, _ => True
      | some (i, q), none => ∃ X Y, L = X ++ .send i c q :: Y ∧ NoSend Y
      | some (i, q), some m => p = none ∧ ∃ X t, L = X ++ [.send i c q, .run c t (args q) m, .drop c]

theorem reach {c : Nat} {L : List Event} {a l : Line} (h : Path (Line.Next bad) a L l) (ha : a = .free)
    (hL : ∀ e ∈ L, onConn c e = true) : Reach c L l := by
  subst ha
  induction h with
  | nil => trivial
  | @snoc b d L e h1 h2 ih =>
    have ih := ih (fun e he => hL e (List.mem_append_left _ he))
    have he := hL e (by simp)
    cases h2 with
    | send i d q => have hd : d = c := by simpa [onConn] using he
                    subst hd; exact ⟨L, rfl⟩
    | run i d t q m =>
      have hd : d = c := by simpa [onConn] using he
      subst hd
      obtain ⟨X, rfl⟩ := ih
      exact ⟨X, t, by simp⟩
    | ret => trivial
    | drop d =>
      have hd : d = c := by simpa [onConn] using he
      subst hd
      exact ⟨by simp, by simp, trivial⟩
    | dropSent i d q =>
      have hd : d = c := by simpa [onConn] using he
      subst hd
      obtain ⟨X, rfl⟩ := ih
      refine ⟨by simp, ?_, X, [.drop d], by simp, by simp [NoSend]⟩
      rintro x hx
      cases hx
      exact ⟨i, by simp⟩
    | dropRan i d q m =>
      have hd : d = c := by simpa [onConn] using he
      subst hd
      obtain ⟨X, t, rfl⟩ := ih
      exact ⟨by simp, by simp, rfl, X, t, by simp⟩
    | dropReply i d q m =>
      have hd : d = c := by simpa [onConn] using he
      subst hd
      obtain ⟨X, t, rfl⟩ := ih
      exact ⟨by simp, by simp, X, [.run d t (args q) m, .drop d], by simp, by simp [NoSend]⟩
    | late d t q cur m r =>
      have hd : d = c := by simpa [onConn] using he
      subst hd
      obtain ⟨k1, _, k3⟩ := ih
      refine ⟨by simp [k1], by simp, ?_⟩
      match cur, r, k3 with
      | none, _, _ => trivial
      | some (i, x), none, ⟨X, Y, e1, e2⟩ =>
        subst e1
        exact ⟨X, Y ++ [.run d t (args q) m], by simp, fun i c x hx => by
          rcases List.mem_append.1 hx with hx | hx
          · exact e2 _ _ _ hx
          · simp at hx⟩
      | some (i, x), some _, ⟨k, _⟩ => cases k
    | lostSend i d q p =>
      have hd : d = c := by simpa [onConn] using he
      subst hd
      obtain ⟨k1, k2, _⟩ := ih
      refine ⟨by simp [k1], fun x hx => ?_, L, [], rfl, by simp [NoSend]⟩
      obtain ⟨j, hj⟩ := k2 x hx
      exact ⟨j, by simp [hj]⟩
    | lostRet i d q p =>
      obtain ⟨k1, k2, _⟩ := ih
      refine ⟨by simp [k1], fun x hx => ?_, trivial⟩
      obtain ⟨j, hj⟩ := k2 x hx
      exact ⟨j, by simp [hj]⟩
    | lostReply i d q m p =>
      obtain ⟨k1, k2, _⟩ := ih
      refine ⟨by simp [k1], fun x hx => ?_, trivial⟩
      obtain ⟨j, hj⟩ := k2 x hx
      exact ⟨j, by simp [hj]⟩

/-- What the events of a goroutine were if it is at `u`. -/
def TReach (i : Nat) (L : List Event) : Turn → Prop
  | .idle => True
  | .called q => ∃ X, L = X ++ [.inv i q]
  | .sentOn c q => ∃ X, L = X ++ [.inv i q, .send i c q]

theorem treach {i : Nat} {L : List Event} {a u : Turn} (h : Path Turn.Next a L u) (ha : a = .idle)
    (hL : ∀ e ∈ L, byThread i e = true) : TReach i L u := by
  subst ha
  induction h with
  | nil => trivial
  | @snoc b d L e h1 h2 ih =>
    have ih := ih (fun e he => hL e (List.mem_append_left _ he))
    have he := hL e (by simp)
    cases h2 with
    | inv j q =>
      have hd : j = i := by simpa [byThread] using he
      subst hd; exact ⟨L, rfl⟩
    | send j c q =>
      have hd : j = i := by simpa [byThread] using he
      subst hd
      obtain ⟨X, rfl⟩ := ih
      exact ⟨X, by simp⟩
    | ret => trivial
    | noConn => trivial

theorem all_filter {P : Event → Bool} (L : List Event) : ∀ e ∈ L.filter P, P e = true := fun _ h => (List.mem_filter.1 h).2

/-- Where a kept event came from. -/
theorem filter_split {P : Event → Bool} {L X Z : List Event} {e : Event} (h : L.filter P = X ++ e :: Z) :
    ∃ A B, L = A ++ e :: B ∧ A.filter P = X ∧ B.filter P = Z := by
  obtain ⟨A, R, rfl, h1, h2⟩ := List.filter_eq_append_iff.1 h
  obtain ⟨C, D, rfl, h3, h4, h5⟩ := List.filter_eq_cons_iff.1 h2
  refine ⟨A ++ C, D, by simp, ?_, h5⟩
  rw [List.filter_append, h1, List.filter_eq_nil_iff.2 h3, List.append_nil]

/-- The last request of a goroutine, if it is also the last one on its connection. -/
theorem last_send {L X Y Z W : List Event} {i c : Nat} {q x : Req} (h1 : L.filter (onConn c) = Y ++ .send i c x :: Z) (h2 : NoSend Z)
    (h3 : L.filter (byThread i) = X ++ .send i c q :: W) (h4 : NoSend W) : x = q := by
  obtain ⟨A, B, rfl, a1, a2⟩ := filter_split h1
  obtain ⟨A', B', e, b1, b2⟩ := filter_split h3
  rcases List.append_eq_append_iff.1 e with ⟨M, e1, e2⟩ | ⟨M, e1, e2⟩
  · cases M with
    | nil => simp only [List.nil_append, List.cons.injEq] at e2; cases e2.1; rfl
    | cons y M =>
      simp only [List.cons_append, List.cons.injEq] at e2
      obtain ⟨_, rfl⟩ := e2
      exact (h2 i c q (a2 ▸ List.mem_filter.2 ⟨by simp, by simp [onConn]⟩)).elim
  · cases M with
    | nil => simp only [List.nil_append, List.cons.injEq] at e2; cases e2.1; rfl
    | cons y M =>
      simp only [List.cons_append, List.cons.injEq] at e2
      obtain ⟨_, rfl⟩ := e2
      exact (h4 i c x (b2 ▸ List.mem_filter.2 ⟨by simp, by simp [byThread]⟩)).elim

/-! ## C106 -/

section
variable {n : Nat} {srv : Server} {t : Int} {calls : Nat → List Req} {s : Sys}

/-- C106: a call that returns was made by its goroutine, which sent one request and waited.  What it
returns is the server's reply to that very request, run after it was sent with nothing else on the
connection in between; unless the connection was lost, and then it may be the error of the lost
connection.  Missing: replies that arrive in pieces the reader cannot join (`C106_violated`). -/
theorem C106_own_reply_partial (h : Runs bad o cap Carried (Sys.init n srv t calls) s) {pre post : List Event} {i c : Nat}
    {out : Option (Out Val)} (hl : s.log = pre ++ .ret i c out :: post) :
    ∃ q, (∃ X, pre.filter (byThread i) = X ++ [.inv i q, .send i c q]) ∧
      ((∃ X u m, pre.filter (onConn c) = X ++ [.send i c q, .run c u (args q) m] ∧ out = result bad q (.ok m)) ∨
       (∃ X u m, pre.filter (onConn c) = X ++ [.send i c q, .run c u (args q) m, .drop c] ∧ out = result bad q (.ok m)) ∨
       (.drop c ∈ pre ∧ out = result bad q (.err .eof) ∧ ∃ X Y, pre.filter (onConn c) = X ++ .send i c q :: Y ∧ NoSend Y)) := by
  have hI := inv_runs h
  obtain ⟨l, hp, _⟩ := hI.line c
  obtain ⟨u, hu, _⟩ := hI.turn i
  obtain ⟨b, b', p1, p2, _⟩ := path_at hp hl (by simp [onConn])
  obtain ⟨v, v', q1, q2, _⟩ := path_at hu hl (by simp [byThread])
  have r1 := reach p1 rfl (all_filter _)
  have r2 := treach q1 rfl (all_filter _)
  cases q2 with
  | ret _ _ q =>
    refine ⟨q, r2, ?_⟩
    obtain ⟨X, e3⟩ := r2
    have e3' : pre.filter (byThread i) = (X ++ [.inv i q]) ++ .send i c q :: [] := by rw [e3]; simp
    cases p2 with
    | ret _ _ x m =>
      obtain ⟨Y, w, e⟩ := r1
      have := last_send e (by simp [NoSend]) e3' (by simp [NoSend])
      subst this
      exact .inl ⟨Y, w, m, e, rfl⟩
    | lostRet _ _ x p =>
      obtain ⟨k1, _, Y, Z, e, k⟩ := r1
      have := last_send e k e3' (by simp [NoSend])
      subst this
      exact .inr (.inr ⟨(List.mem_filter.1 k1).1, rfl, Y, Z, e, k⟩)
    | lostReply _ _ x m p =>
      obtain ⟨_, _, _, Y, w, e⟩ := r1
      have := last_send e (by simp [NoSend]) e3' (by simp [NoSend])
      subst this
      exact .inr (.inl ⟨Y, w, m, e, rfl⟩)

/-- A connection on which no request is under way to the server. -/
def Line.Calm : Line → Prop
  | .sent _ _ => False
  | .lost p _ _ => p = none
  | _ => True

/-- A request under way was sent since. -/
def Since (c : Nat) (L : List Event) : Line → Prop
  | .sent i q => .send i c q ∈ L
  | .lost (some q) _ _ => ∃ i, .send i c q ∈ L
  | _ => True

theorem Since.mono {c : Nat} {L : List Event} {e : Event} {p : Option Req} {a b : Option (Nat × Req)} {x y : Option Msg}
    (h : Since c L (.lost p a x)) : Since c (L ++ [e]) (.lost p b y) := by
  cases p with
  | none => trivial
  | some q => obtain ⟨i, hi⟩ := h; exact ⟨i, by simp [hi]⟩

theorem since {c : Nat} {L : List Event} {a l : Line} (h : Path (Line.Next bad) a L l) (ha : a.Calm)
    (hL : ∀ e ∈ L, onConn c e = true) : Since c L l := by
  induction h with
  | nil =>
    match a, ha with
    | .free, _ => trivial
    | .ran _ _ _, _ => trivial
    | .lost none _ _, _ => trivial
  | @snoc b d L e h1 h2 ih =>
    have ih := ih (fun e he => hL e (List.mem_append_left _ he))
    have he := hL e (by simp)
    cases h2 with
    | send i d q =>
      have hd : d = c := by simpa [onConn] using he
      subst hd; exact List.mem_append_right _ (by simp)
    | run => trivial
    | ret => trivial
    | drop => trivial
    | dropSent i d q => exact ⟨i, List.mem_append_left _ ih⟩
    | dropRan => trivial
    | dropReply => trivial
    | late => trivial
    | lostSend => exact ih.mono
    | lostRet => exact ih.mono
    | lostReply => exact ih.mono

/-- C106: everything the server runs was asked for: some goroutine called, and sent that request on
that connection before. -/
theorem C106_executed_was_called_partial (h : Runs bad o cap Carried (Sys.init n srv t calls) s) {pre post : List Event} {c : Nat}
    {u : Int} {line : List Bytes} {m : Msg} (hl : s.log = pre ++ .run c u line m :: post) :
    ∃ i q, .send i c q ∈ pre ∧ .inv i q ∈ pre ∧ line = args q := by
  have hI := inv_runs h
  obtain ⟨l, hp, _⟩ := hI.line c
  obtain ⟨b, b', p1, p2, _⟩ := path_at hp hl (by simp [onConn])
  have r1 := reach p1 rfl (all_filter _)
  have key : ∃ i q, Event.send i c q ∈ pre ∧ line = args q := by
    cases p2 with
    | run i _ _ q _ => obtain ⟨X, e⟩ := r1; exact ⟨i, q, (List.mem_filter.1 (e ▸ (by simp : Event.send i c q ∈ X ++ [Event.send i c q]))).1, rfl⟩
    | late _ _ q cur _ r => obtain ⟨_, k, _⟩ := r1; obtain ⟨i, hi⟩ := k q rfl; exact ⟨i, q, (List.mem_filter.1 hi).1, rfl⟩
  obtain ⟨i, q, hm, rfl⟩ := key
  refine ⟨i, q, hm, ?_, rfl⟩
  obtain ⟨A, B, rfl⟩ := List.append_of_mem hm
  obtain ⟨v, hv, _⟩ := hI.turn i
  obtain ⟨d, d', q1, q2, _⟩ := path_at hv (by rw [hl, List.append_assoc, List.cons_append]) (e := .send i c q) (by simp [byThread])
  cases q2 with
  | send _ _ _ =>
    obtain ⟨X, e⟩ := treach q1 rfl (all_filter _)
    have := (List.mem_filter.1 (e ▸ (by simp : Event.inv i q ∈ X ++ [Event.inv i q]))).1
    simp [this]

/-- C106: no request is run twice: between two that run on a connection another one was sent on it. -/
theorem C106_at_most_once_partial (h : Runs bad o cap Carried (Sys.init n srv t calls) s) {A B C : List Event} {c : Nat}
    {u v : Int} {l1 l2 : List Bytes} {m1 m2 : Msg} (hl : s.log = A ++ .run c u l1 m1 :: (B ++ .run c v l2 m2 :: C)) :
    ∃ i q, .send i c q ∈ B ∧ l2 = args q := by
  have hI := inv_runs h
  obtain ⟨l, hp, _⟩ := hI.line c
  obtain ⟨b, b', p1, p2, p3⟩ := path_at hp hl (by simp [onConn])
  obtain ⟨d, d', q1, q2, _⟩ := path_at p3 rfl (by simp [onConn])
  have hb : b'.Calm := by cases p2 <;> trivial
  have hs := since q1 hb (all_filter _)
  cases q2 with
  | run i _ _ q _ => exact ⟨i, q, (List.mem_filter.1 hs).1, rfl⟩
  | late _ _ q _ _ _ => obtain ⟨i, hi⟩ := hs; exact ⟨i, q, (List.mem_filter.1 hi).1, rfl⟩

/-- C106: the server runs the requests one after the other, in the order of the log, at times that do
not decrease, from connections that all logged in as the client was told to. -/
theorem C106_sequential_partial (h : Runs bad o cap Carried (Sys.init n srv t calls) s) :
    ∃ ls u, Served srv (fun _ => wanted o) t s.log s.srv ls u ∧ u ≤ s.now := by
  obtain ⟨ls, u, h1, h2, _⟩ := (inv_runs h).served
  exact ⟨ls, u, h1, h2⟩

/-- The requests the server ran, with their times and its replies. -/
def ranIn : List Event → List (Int × List Bytes × Msg)
  | [] => []
  | .run _ u line m :: l => (u, line, m) :: ranIn l
  | _ :: l => ranIn l

/-- The replies of a server to requests one after the other, all with one login. -/
def oneByOne (login : Login) : Server → List (Int × List Bytes) → List Msg
  | _, [] => []
  | s, (u, line) :: h => (serve s login u line).2.2 :: oneByOne login (serve s login u line).1 h

/-- The server after them. -/
def afterAll (login : Login) : Server → List (Int × List Bytes) → Server
  | s, [] => s
  | s, (u, line) :: h => afterAll login (serve s login u line).1 h

theorem oneByOne_append (login : Login) (h : List (Int × List Bytes)) (u : Int) (line : List Bytes) (s : Server) :
    oneByOne login s (h ++ [(u, line)]) = oneByOne login s h ++ [(serve (afterAll login s h) login u line).2.2] ∧
    afterAll login s (h ++ [(u, line)]) = (serve (afterAll login s h) login u line).1 := by
  induction h generalizing s with
  | nil => exact ⟨rfl, rfl⟩
  | cons e h ih =>
    obtain ⟨v, l⟩ := e
    obtain ⟨i1, i2⟩ := ih (serve s login v l).1
    exact ⟨by simp only [List.cons_append, oneByOne, afterAll, i1], by simp only [List.cons_append, afterAll, i2]⟩

theorem ranIn_append (l m : List Event) : ranIn (l ++ m) = ranIn l ++ ranIn m := by
  induction l with
  | nil => rfl
  | cons e l ih => cases e <;> simp only [List.cons_append, ranIn, ih]

/-- Only `Select` changes the login of a connection. -/
theorem login_kept (s : Server) (l : Login) (u : Int) (q : Req) (hq : ∀ n, q ≠ .select n) : (serve s l u (args q)).2.1 = l := by
  have key : ∀ (name : Bytes) (a : List Bytes), name.map lowerLetter ≠ b!"auth" → name.map lowerLetter ≠ b!"select" →
      (serve s l u (name :: a)).2.1 = l := by
    intro name a h1 h2
    simp only [serve, h1, h2, if_false]
    split
    · rfl
    · split <;> rfl
  cases q with
  | select n => exact absurd rfl (hq n)
  | _ => exact key _ _ (by decide +kernel) (by decide +kernel)

/-- C106, for clients that do not call `Select`: the server's replies, in the order of the log, are those of
one store to the same requests one after the other; times do not decrease. -/
theorem C106_one_store_partial (h : Runs bad o cap Carried (Sys.init n srv t calls) s) (hsel : ∀ i k, .inv i (.select k) ∉ s.log) :
    (ranIn s.log).map (·.2.2) = oneByOne (wanted o) srv ((ranIn s.log).map fun e => (e.1, e.2.1)) ∧
    ((ranIn s.log).map (·.1)).Pairwise (· ≤ ·) := by
  obtain ⟨ls, u, h1, h2⟩ := C106_sequential_partial h
  have hargs : ∀ c v line m, Event.run c v line m ∈ s.log → ∃ q, (∀ k, q ≠ .select k) ∧ line = args q := by
    intro c v line m hm
    obtain ⟨A, B, e⟩ := List.append_of_mem hm
    obtain ⟨i, q, _, k2, rfl⟩ := C106_executed_was_called_partial h e
    exact ⟨q, fun k hk => hsel i k (by rw [e, ← hk]; simp [k2]), rfl⟩
  have key : ∀ {L : List Event} {sv : Server} {ls : Nat → Login} {w : Int}, Served srv (fun _ => wanted o) t L sv ls w →
      (∀ c v line m, Event.run c v line m ∈ L → ∃ q, (∀ k, q ≠ .select k) ∧ line = args q) →
      (ls = fun _ => wanted o) ∧ sv = afterAll (wanted o) srv ((ranIn L).map fun e => (e.1, e.2.1)) ∧
      (ranIn L).map (·.2.2) = oneByOne (wanted o) srv ((ranIn L).map fun e => (e.1, e.2.1)) ∧
      ((ranIn L).map (·.1)).Pairwise (· ≤ ·) ∧ ∀ v ∈ (ranIn L).map (·.1), v ≤ w := by
    intro L sv ls w hS
    induction hS with
    | nil => intro _; exact ⟨rfl, rfl, rfl, .nil, by simp [ranIn]⟩
    | run c v line hs hv ih =>
      intro ha
      obtain ⟨i1, i2, i3, i4, i5⟩ := ih (fun c v line m hm => ha c v line m (List.mem_append_left _ hm))
      obtain ⟨q, hq, rfl⟩ := ha _ _ _ _ (List.mem_append_right _ (List.mem_singleton.2 rfl))
      subst i1
      simp only [ranIn_append, ranIn, List.map_append, List.map_cons, List.map_nil]
      obtain ⟨a1, a2⟩ := oneByOne_append (wanted o) ((ranIn _).map fun e => (e.1, e.2.1)) v (args q) _
      refine ⟨?_, ?_, ?_, ?_, ?_⟩
      · funext d
        by_cases e : d = c
        · subst e; rw [set_same, login_kept _ _ _ _ hq]
        · rw [set_ne _ _ e]
      · rw [a2, i2]
      · rw [a1, i3, i2]
      · rw [List.pairwise_append]
        exact ⟨i4, by simp, fun a ha' b hb => by rw [List.mem_singleton.1 hb]; exact Int.le_trans (i5 a ha') hv⟩
      · intro a ha
        rcases List.mem_append.1 ha with ha | ha
        · exact Int.le_trans (i5 a ha) hv
        · simp only [List.mem_singleton] at ha; omega
    | skip e hs he ih =>
      intro ha
      have := ih (fun c v line m hm => ha c v line m (List.mem_append_left _ hm))
      have e0 : ranIn [e] = [] := by cases e <;> first | rfl | exact absurd rfl (he _ _ _ _)
      rw [ranIn_append, e0, List.append_nil]
      exact this
  obtain ⟨_, _, k3, k4, _⟩ := key h1 hargs
  exact ⟨k3, k4⟩

/-- C106: `k` moves of goroutines and server are at most thirteen per call, whatever time passes and
whatever connections are lost meanwhile. -/
theorem C106_bounded_partial {k : Nat} (hcap : 0 < cap) (h : Counted bad o cap Carried (Sys.init n srv t calls) k s) :
    k ≤ 13 * sumTo (fun i => (calls i).length) n := by
  have := counted_weight hcap h
  rw [weight_init] at this
  omega

/-- C106: as long as a goroutine has not finished its calls, somebody can move, unless a call failed for want of
a connection before.  Together with the bound: all calls return.  Missing: after a failed dial the mutex is
held for ever (`C55_violated`). -/
theorem C106_no_deadlock_partial (hcap : 0 < cap) (h : Runs bad o cap Carried (Sys.init n srv t calls) s) (hd : ∀ i, .noConn i ∉ s.log)
    {i : Nat} (hi : i < n) (hu : s.todo i ≠ [] ∨ s.job i ≠ .none) :
    ∃ a, a.Work ∧ (∀ i cut, a ≠ .dial i false cut) ∧ (act bad o cap s a).isSome := by
  have hS := sync_runs hcap h
  refine can_move hcap (inv_runs h) hS ?_ hi hu
  cases hb : s.pool.broken with
  | false => rfl
  | true => obtain ⟨j, hj⟩ := hS.broken hb; exact absurd hj (hd j)
end

/-! ## Concrete runs -/

/-- A schedule whose network behaves. -/
def AllowedAll (bad : Bytes → F64) (o : Opt) (cap : Nat) (P : Cut → Msg → Prop) : Sys → List Act → Prop
  | _, [] => True
  | s, a :: as => Allowed P s a ∧ ∀ s', act bad o cap s a = some s' → AllowedAll bad o cap P s' as

theorem runAll_runs {P : Cut → Msg → Prop} {s0 s s' : Sys} {as : List Act} (h0 : Runs bad o cap P s0 s) (ha : AllowedAll bad o cap P s as)
    (h : runAll bad o cap s as = some s') : Runs bad o cap P s0 s' := by
  induction as generalizing s with
  | nil => simp only [runAll, Option.some.injEq] at h; subst h; exact h0
  | cons a as ih =>
    obtain ⟨x, h1, h2⟩ := Option.bind_eq_some_iff.1 h
    exact ih (.snoc h0 ha.1 h1) (ha.2 x h1) h2

/-- Two goroutines: one stores and reads, the other counts. -/
def demoCalls : Nat → List Req
  | 0 => [.set b!"k" b!"v", .get b!"k"]
  | 1 => [.incr b!"n"]
  | _ => []

/-- They share one connection; the second waits for it. -/
def demoActs : List Act :=
  [.call 0, .get 0, .get 0, .call 1, .get 1, .dial 0 true whole, .get 0, .get 0, .get 0, .get 0, .send 0, .get 1, .get 1, .get 1,
   .run 0 whole, .tick 3, .recv 0, .put 0, .get 1, .send 1, .call 0, .get 0, .run 0 whole, .recv 1, .put 1, .get 0, .get 0, .get 0, .get 0, .send 0,
   .run 0 whole, .recv 0, .put 0]

/-- Replies arrive in one piece. -/
def InOne : Act → Prop
  | .dial _ _ cut | .run _ cut => cut = whole
  | _ => True

/-- All replies of a schedule are short. -/
def short (bad : Bytes → F64) (o : Opt) (cap : Nat) : Sys → List Act → Bool
  | _, [] => true
  | s, a :: as =>
    (match a with
      | .run c _ => match (s.pend c).bind specCommand with
        | some (line, _) => fitsB false (serve s.srv (s.conn c).login s.now line).2.2 &&
            decide ((ser (serve s.srv (s.conn c).login s.now line).2.2).length ≤ bufSize)
        | none => true
      | _ => true) &&
    match act bad o cap s a with
    | some s' => short bad o cap s' as
    | none => true

theorem short_allowed {s : Sys} {as : List Act} (h : ∀ a ∈ as, InOne a) (hs : short bad o cap s as = true) :
    AllowedAll bad o cap Carried s as := by
  induction as generalizing s with
  | nil => trivial
  | cons a as ih =>
    simp only [short, Bool.and_eq_true] at hs
    refine ⟨?_, fun s' hs' => ih (fun a ha => h a (List.mem_cons_of_mem _ ha)) (by rw [hs'] at hs; exact hs.2)⟩
    have ha := h a (by simp)
    cases a with
    | dial i reach cut => cases ha; exact fun b => by simp [whole]
    | run c cut =>
      cases ha
      intro line rest hb
      have h1 := hs.1
      simp only [hb, Bool.and_eq_true, decide_eq_true_eq] at h1
      exact carried_token (tokenCut_whole (fits_ofB h1.1) h1.2)
    | _ => trivial

/-- What calls returned, in order. -/
def returned : List Event → List (Nat × Option (Out Val))
  | [] => []
  | .ret i _ out :: l => (i, out) :: returned l
  | _ :: l => returned l

/-- The hypotheses of the theorems are met: both goroutines finish, and each gets its own answers. -/
example : ∃ s, Runs (fun _ => F64.zero) ⟨[], 0⟩ 1 Carried (Sys.init 2 openServer 0 demoCalls) s ∧
    returned s.log = [(0, some ⟨.text [], none⟩), (1, some ⟨.int 1, none⟩), (0, some ⟨.text b!"v", none⟩)] ∧
    s.pool.opened = 1 := by
  have h : (runAll (fun _ => F64.zero) ⟨[], 0⟩ 1 (Sys.init 2 openServer 0 demoCalls) demoActs).map (fun s => (returned s.log, s.pool.opened)) =
      some ([(0, some ⟨.text [], none⟩), (1, some ⟨.int 1, none⟩), (0, some ⟨.text b!"v", none⟩)], 1) := by decide +kernel
  obtain ⟨s, h1, h2⟩ := Option.map_eq_some_iff.1 h
  refine ⟨s, runAll_runs .refl (short_allowed ?_ (by decide +kernel)) h1, congrArg Prod.fst h2, congrArg Prod.snd h2⟩
  intro a ha
  simp only [demoActs, List.mem_cons, List.not_mem_nil, or_false] at ha
  rcases ha with rfl | rfl | rfl | rfl | rfl | rfl | rfl | rfl | rfl | rfl | rfl | rfl | rfl | rfl | rfl | rfl | rfl | rfl | rfl | rfl | rfl |
    rfl | rfl | rfl | rfl | rfl | rfl | rfl | rfl | rfl | rfl | rfl | rfl <;> first | rfl | trivial

/-- One stores and reads a value that looks like a reply, the other reads a key that does not exist. -/
def evilCalls : Nat → List Req
  | 0 => [.set b!"k" b!"a\n$4\r\nEVIL", .get b!"k"]
  | 1 => [.get b!"nothing"]
  | _ => []

/-- The network cuts the value in two. -/
def evilCut : Cut := fun b => if b = ser (.bulk b!"a\n$4\r\nEVIL") then [b!"$10\r\na", b!"\n$4\r\nEVIL\r\n"] else [b]

/-- C106 is false if replies may be cut anywhere: goroutine 1 is handed a value that is not in the store, made up
by goroutine 0. -/
theorem C106_violated : Cut.Faithful evilCut ∧
    ∃ s, Runs (fun _ => F64.zero) ⟨[], 0⟩ 1 (fun cut _ => cut.Faithful) (Sys.init 2 openServer 0 evilCalls) s ∧
    returned s.log = [(0, some ⟨.text [], none⟩), (0, some ⟨.text (b!"a" ++ List.replicate 9 0), none⟩), (1, some ⟨.text b!"EVIL", none⟩)] := by
  have hf : Cut.Faithful evilCut := by
    intro b
    by_cases h : b = ser (.bulk b!"a\n$4\r\nEVIL")
    · simp only [evilCut, h, if_true]; decide +kernel
    · simp [evilCut, h]
  have h : (runAll (fun _ => F64.zero) ⟨[], 0⟩ 1 (Sys.init 2 openServer 0 evilCalls)
      [.call 0, .get 0, .get 0, .dial 0 true evilCut, .get 0, .get 0, .get 0, .get 0, .send 0, .run 0 evilCut, .recv 0, .put 0,
       .call 0, .get 0, .send 0, .run 0 evilCut, .recv 0, .put 0, .call 1, .get 1, .send 1, .run 0 evilCut, .recv 1, .put 1]).map
        (fun s => returned s.log) =
      some [(0, some ⟨.text [], none⟩), (0, some ⟨.text (b!"a" ++ List.replicate 9 0), none⟩), (1, some ⟨.text b!"EVIL", none⟩)] := by
    decide +kernel
  obtain ⟨s, h1, h2⟩ := Option.map_eq_some_iff.1 h
  refine ⟨hf, s, runAll_runs .refl ?_ h1, h2⟩
  have key : ∀ (as : List Act) (s : Sys), (∀ a ∈ as, match a with | .dial _ _ cut | .run _ cut => cut = evilCut | _ => True) →
      AllowedAll (fun _ => F64.zero) ⟨[], 0⟩ 1 (fun cut _ => cut.Faithful) s as := by
    intro as
    induction as with
    | nil => intro _ _; trivial
    | cons a as ih =>
      intro s h
      refine ⟨?_, fun s' _ => ih s' (fun a ha => h a (List.mem_cons_of_mem _ ha))⟩
      have := h a (by simp)
      cases a with
      | dial i reach cut => cases this; exact hf
      | run c cut => cases this; exact fun _ _ _ => hf
      | _ => trivial
  apply key
  intro a ha
  simp only [List.mem_cons, List.not_mem_nil, or_false] at ha
  rcases ha with rfl | rfl | rfl | rfl | rfl | rfl | rfl | rfl | rfl | rfl | rfl | rfl | rfl | rfl | rfl | rfl | rfl | rfl | rfl | rfl | rfl |
    rfl | rfl | rfl <;> first | rfl | trivial

end Verif.Client.Many

import Verif.Repl.PropsEnd
import Verif.Rdb.PropsExact
/-!
# C86, C87 and C88 exactly: what is saved for which reply, and when New can hang
-/
namespace Verif.Repl

open Verif.Resp
open Verif.Rdb (MapOrd)

/-! ## C87 -/

/-- C87, exactly where it holds: a snapshot behind `n` line feeds is saved if and only if `n` is
zero. -/
theorem C87_exact (w : World) (hs : w.syncSent = true) (hc : w.create = true) (n : Nat) (f rest : Bytes) (hl : f.length < 2 ^ 63)
    (r : Rd) (hw : r.WF) (h : r.flat = List.replicate n 10 ++ (b!"$" ++ natText f.length ++ crlf ++ f ++ rest)) :
    (∃ r', sync w r = (.ok (), some f, r')) ↔ n = 0 := by
  cases n with
  | zero =>
    obtain ⟨r2, h2, _⟩ := C50_saved f rest hl r hw (by simpa using h)
    simp only [iff_true]
    exact ⟨r2, by simp [sync, hs, hc, h2]⟩
  | succ n =>
    have := C87_violated w hs hc _ r hw (by rw [h, List.replicate_succ]; rfl)
    constructor
    · rintro ⟨r', h'⟩
      rw [h'] at this
      cases this
    · intro h; cases h

example : ∃ r', sync sampleWorld ⟨[], [b!"$3\r\nabc"]⟩ = (.ok (), some b!"abc", r') :=
  (C87_exact sampleWorld rfl rfl 0 b!"abc" [] (by decide) ⟨[], [b!"$3\r\nabc"]⟩ (by simp [Rd.WF]) (by decide +kernel)).mpr rfl

/-! ## C86 -/

/-- What ends up in the snapshot file when the master answers SYNC with a message: the text of a
line, the content of a bulk string, nothing for the rest. -/
def savedFor : Msg → Bytes
  | .simple t => t
  | .error t => t
  | .int n => itoa n
  | .bulk t => t
  | .nil => []
  | .array _ => []

/-- Replies that the reader takes in one piece: a line without a line feed that fits the buffer. -/
def OneLine : Msg → Prop
  | .simple t => (10 : UInt8) ∉ t ∧ t.length + 2 ≤ bufSize
  | .error t => (10 : UInt8) ∉ t ∧ t.length + 2 ≤ bufSize
  | .int _ => True
  | .bulk t => t.length < 2 ^ 63
  | .nil => True
  | .array ms => ms.length < 2 ^ 63

theorem sync_line {w : World} (hs : w.syncSent = true) (hc : w.create = true) {p : UInt8} (hp : p = 43 ∨ p = 45 ∨ p = 58)
    {l rest : Bytes} (h1 : (10 : UInt8) ∉ l) (h2 : l.length + 2 ≤ bufSize) {r : Rd} (hw : r.WF) (h : r.flat = p :: (l ++ crlf ++ rest)) :
    ∃ r', sync w r = (.ok (), some l, r') := by
  obtain ⟨r1, g1, g2, hw1⟩ := readByte_at hw h
  obtain ⟨r2, g3, g4, hw2⟩ := readLine_at hw1 h1 h2 g2
  refine ⟨r2, ?_⟩
  have : readWithWriter r = (.ok (p, (l.length : Int)), l, r2) := by
    simp only [readWithWriter, g1, g3]
    rw [if_neg (by rcases hp with rfl | rfl | rfl <;> decide), if_pos hp]
  simp only [sync, hs, hc, this]
  simp

/-- C86 is false for every reply: `SyncWithRedis` takes whatever message answers SYNC for the
snapshot, and saves what `savedFor` says. -/
theorem C86_violated_any (w : World) (hs : w.syncSent = true) (hc : w.create = true) (m : Msg) (hm : OneLine m) (rest : Bytes)
    (r : Rd) (hw : r.WF) (h : r.flat = ser m ++ rest) : ∃ r', sync w r = (.ok (), some (savedFor m), r') := by
  cases m with
  | simple t => exact sync_line (rest := rest) hs hc (.inl rfl) hm.1 hm.2 hw (by simp [h, ser])
  | error t => exact sync_line (rest := rest) hs hc (.inr (.inl rfl)) hm.1 hm.2 hw (by simp [h, ser])
  | int n =>
    refine sync_line (rest := rest) hs hc (.inr (.inr rfl)) (itoa_no_nl n) ?_ hw (by simp [h, ser])
    have := itoa_length n
    simp only [bufSize]; omega
  | bulk t =>
    obtain ⟨r2, h2, _⟩ := C50_saved t (crlf ++ rest) hm r hw (by simp [h, ser])
    exact ⟨r2, by simp [sync, hs, hc, h2, savedFor]⟩
  | nil =>
    obtain ⟨r1, g1, g2, hw1⟩ := readByte_at (b := 36) (rest := b!"-1" ++ crlf ++ rest) hw (by simp [h, ser])
    obtain ⟨r2, g3, g4, hw2⟩ := readLine_at hw1 (by decide) (by decide) g2
    refine ⟨r2, ?_⟩
    have e : readInt r1 = (.ok (-1), r2) := by simp only [readInt, g3, andThen]; rfl
    have : readWithWriter r = (.ok (36, -1), [], r2) := by
      simp only [readWithWriter, g1, if_pos, e]
      rfl
    simp [sync, hs, hc, this, savedFor]
  | array ms =>
    obtain ⟨r1, g1, g2, hw1⟩ := readByte_at (b := 42) (rest := natText ms.length ++ crlf ++ (serAll ms ++ rest)) hw (by simp [h, ser])
    have hm : ms.length < 2 ^ 63 := hm
    have hdig := natText_length (n := ms.length) (k := 18) (by omega)
    obtain ⟨r2, g3, g4, hw2⟩ := readLine_at hw1 (natText_no_nl ms.length) (by simp only [bufSize]; omega) g2
    obtain ⟨k, h3, h4⟩ := atoi_natText hm
    refine ⟨r2, ?_⟩
    have e : readInt r1 = (.ok k, r2) := by simp only [readInt, g3, andThen, h3]
    have : readWithWriter r = (.ok (42, k.toInt), [], r2) := by
      simp only [readWithWriter, g1, e]
      rw [if_neg (by decide), if_neg (by decide), if_pos (by decide)]
    simp [sync, hs, hc, this, savedFor]

/-- A refusal, a number and an array. -/
example : OneLine (.error b!"NOAUTH Authentication required.") ∧ OneLine (.int (-3)) ∧ OneLine (.array [.nil, .simple b!"x"]) ∧
    (∃ r', sync sampleWorld ⟨[], [b!":-3\r\n"]⟩ = (.ok (), some b!"-3", r')) :=
  ⟨by simp [OneLine, bufSize], trivial, by simp [OneLine],
    C86_violated_any sampleWorld rfl rfl (.int (-3)) trivial [] ⟨[], [b!":-3\r\n"]⟩ (by simp [Rd.WF]) (by decide +kernel)⟩

/-- C86 for `New`, exactly: a master that answers the ping, and SYNC with any message, is taken for
one that sent a snapshot if and only if the text of the message loads as a snapshot. -/
theorem C86_new_exact (ord : MapOrd) (w : World) (o : Opts) (hd : w.dial = true) (hp : w.pingSent = true) (hs : w.syncSent = true)
    (hc : w.create = true) (ho : w.reopen = true) (m : Msg) (hm : OneLine m) (rest : Bytes) (hw : w.input.WF)
    (h : w.input.flat = b!"+PONG\r\n" ++ (ser m ++ rest)) :
    (new ord w o).1 = .ok () ↔ (Rdb.load ord ⟨0, 0, [], 0, []⟩ ⟨[], [savedFor m]⟩).1 = .ok () := by
  obtain ⟨r1, h1, hw1, hf1⟩ := ping_at hp hw h
  obtain ⟨r2, h2⟩ := C86_violated_any w hs hc m hm rest r1 hw1 hf1
  have ha : (prepare o).addr ≠ [] := by
    by_cases e : o.addr = [] <;> simp [prepare, e]
  have hf : (prepare o).rdbFile ≠ [] := by
    by_cases e : o.rdbFile = [] <;> simp [prepare, e]
  have e : syncWithRedis w (prepare o).addr (prepare o).rdbFile = (.ok (), some (savedFor m), r2) := by
    simp only [syncWithRedis, if_neg hf, if_neg ha, hd, h1, h2]
    simp
  simp only [new, e, ho]
  rcases hx : Rdb.load ord ⟨0, 0, [], 0, []⟩ ⟨[], [savedFor m]⟩ with ⟨y, s⟩
  cases y with
  | ok a => simp [hx]
  | err a => simp [hx]
  | panic => simp [hx]

/-- C86, as far as it holds: `New` reports the failure (or panics) when SYNC is answered with a
message whose text has none of the bytes 255, 6, 7 and 15, such as a refusal in ASCII letters.
Missing: `C86_violated_new`. -/
theorem C86_text_partial (ord : MapOrd) (w : World) (o : Opts) (hd : w.dial = true) (hp : w.pingSent = true) (hs : w.syncSent = true)
    (hc : w.create = true) (ho : w.reopen = true) (m : Msg) (hm : OneLine m) (rest : Bytes) (hw : w.input.WF)
    (h : w.input.flat = b!"+PONG\r\n" ++ (ser m ++ rest)) (ht : ∀ b ∈ savedFor m, b ≠ 255 ∧ b ≠ 6 ∧ b ≠ 7 ∧ b ≠ 15) :
    (new ord w o).1 ≠ .ok () := by
  rw [Ne, C86_new_exact ord w o hd hp hs hc ho m hm rest hw h]
  refine Rdb.C67_byte_partial ord _ _ ?_ ?_
  · simp [Rd.WF]
  · simpa [Rd.flat] using ht

/-- C86: nil, an array or a number is never taken for a snapshot by `New`. -/
theorem C86_other_partial (ord : MapOrd) (w : World) (o : Opts) (hd : w.dial = true) (hp : w.pingSent = true) (hs : w.syncSent = true)
    (hc : w.create = true) (ho : w.reopen = true) (m : Msg) (hm : OneLine m) (rest : Bytes) (hw : w.input.WF)
    (h : w.input.flat = b!"+PONG\r\n" ++ (ser m ++ rest)) (hk : m = .nil ∨ (∃ n, m = .int n) ∨ ∃ ms, m = .array ms) :
    (new ord w o).1 ≠ .ok () := by
  refine C86_text_partial ord w o hd hp hs hc ho m hm rest hw h ?_
  rcases hk with rfl | ⟨n, rfl⟩ | ⟨ms, rfl⟩
  · simp [savedFor]
  · intro b hb
    have : b = 45 ∨ (48 ≤ b.toNat ∧ b.toNat ≤ 57) := by
      have key : ∀ k, b ∈ natText k → 48 ≤ b.toNat ∧ b.toNat ≤ 57 := by
        intro k hk
        have := List.all_eq_true.mp (natText_all_digits k) b hk
        simpa [isDigit] using this
      simp only [savedFor, itoa, itoaInt] at hb
      split at hb
      · rcases List.mem_cons.mp hb with h | h
        · exact .inl h
        · exact .inr (key _ h)
      · exact .inr (key _ hb)
    rcases this with rfl | h
    · decide
    · refine ⟨?_, ?_, ?_, ?_⟩ <;> (rintro rfl; revert h; decide)
  · simp [savedFor]

/-- The refusal of a master that wants a password. -/
def refusingWorld : World := ⟨true, true, true, true, true, ⟨[], [b!"+PONG\r\n-NOAUTH Authentication required.\r\n"]⟩⟩

example (ord : MapOrd) : (new ord refusingWorld ⟨[], [], 0⟩).1 ≠ .ok () :=
  C86_text_partial ord refusingWorld _ rfl rfl rfl rfl rfl (.error b!"NOAUTH Authentication required.") (by simp [OneLine, bufSize]) []
    (by simp [refusingWorld, Rd.WF]) (by decide +kernel) (by decide +kernel)

/-! ## C88 -/

/-- The handler of a client on database `db` refuses the message with an error. -/
def Refuses (db : Int64) (c : Local) (x : Tagged) : Prop := x.1 = db ∧ ∃ e, (handle c (some x.2)).1 = .err e

/-- The message makes the handler of a client on database `db` panic. -/
def Panics (db : Int64) (c : Local) (x : Tagged) : Prop := x.1 = db ∧ (handle c (some x.2)).1 = .panic

/-- There are two messages with the property. -/
def Two (P : Tagged → Prop) (l : List Tagged) : Prop := ∃ x y, [x, y].Sublist l ∧ P x ∧ P y

theorem setIn_some' (c : Cache) (k v : Bytes) : setIn (some c) k v = (.ok (), some (c.set k v).1) := by
  simp [setIn, Cache.set]

/-- What becomes of a message depends only on whether the cache is usable. -/
theorem handle_kind {c c' : Local} (h : c.isSome = c'.isSome) (m : Option Msg) : (handle c m).1 = (handle c' m).1 := by
  have hset : ∀ k v, (setIn c k v).1 = (setIn c' k v).1 := by
    intro k v
    cases c with
    | none => cases c' with
      | none => rfl
      | some _ => simp at h
    | some a => cases c' with
      | none => simp at h
      | some b => rw [setIn_some', setIn_some']
  cases m with
  | none => rfl
  | some m =>
    cases m with
    | array ms =>
      cases ms with
      | nil => rfl
      | cons m args =>
        simp only [handle]
        split
        · split
          · exact hset _ _
          · rfl
        · split
          · split <;> rfl
          · split
            · split <;> rfl
            · rfl
    | _ => rfl

theorem handle_some (c : Local) (m : Option Msg) : (handle c m).2.isSome = c.isSome := by
  have hset : ∀ k v, (setIn c k v).2.isSome = c.isSome := by
    intro k v
    cases c with
    | none => rfl
    | some a => rw [setIn_some']; rfl
  cases m with
  | none => rfl
  | some m =>
    cases m with
    | array ms =>
      cases ms with
      | nil => rfl
      | cons m args =>
        simp only [handle]
        split
        · split
          · exact hset _ _
          · rfl
        · split
          · split <;> rfl
          · split
            · split <;> rfl
            · rfl
    | _ => rfl

/-- What holds while `New` is loading: nobody but the handler has reported an error, and a crash has
its message. -/
structure Early (db : Int64) (c0 : Local) (stream : List Msg) (s : State) : Prop where
  usable : s.cache.isSome = c0.isSome
  quiet : ∀ rest good, s.main = .loading rest good → s.ack = .off ∧ s.closed = false ∧ s.recv = .off stream
  crash : s.crashed = true → ∃ x ∈ s.taken, Panics db c0 x
  errs : ∀ rest good, s.main = .loading rest good → ∃ l : List Tagged, l.Sublist s.taken ∧ (∀ x ∈ l, Refuses db c0 x) ∧
    s.errs + (if s.hand = .report then 1 else 0) ≤ l.length

theorem early_init (db : Int64) (c0 : Local) (snap : List Tagged) (good : Bool) (stream : List Msg) :
    Early db c0 stream (.init c0 snap good stream) :=
  ⟨rfl, fun _ _ _ => ⟨rfl, rfl, rfl⟩, fun h => (by cases h), fun _ _ _ => ⟨[], List.Sublist.refl _, by simp, by simp [State.init]⟩⟩

theorem early_step {db : Int64} {c0 : Local} {stream : List Msg} {s t : State} (he : Early db c0 stream s)
    (h : Step (conf db) s t) : Early db c0 stream t := by
  obtain ⟨h1, h2, h3, h4⟩ := he
  cases h with
  | @skip d m q hc hh hm hd =>
    refine ⟨h1, h2, fun h => ?_, fun rest good hmain => ?_⟩
    · obtain ⟨x, hx, hp⟩ := h3 h
      exact ⟨x, List.mem_append_left _ hx, hp⟩
    · obtain ⟨l, a, b, c⟩ := h4 rest good hmain
      exact ⟨l, a.trans (List.sublist_append_left _ _), b, c⟩
  | @handled d m q c hc hh hm hd hr =>
    refine ⟨?_, h2, fun h => ?_, fun rest good hmain => ?_⟩
    · have := handle_some s.cache (some m)
      rw [hr] at this
      exact this.trans h1
    · obtain ⟨x, hx, hp⟩ := h3 h
      exact ⟨x, List.mem_append_left _ hx, hp⟩
    · obtain ⟨l, a, b, c⟩ := h4 rest good hmain
      exact ⟨l, a.trans (List.sublist_append_left _ _), b, c⟩
  | @failed d m q c e hc hh hm hd hr =>
    refine ⟨?_, h2, fun h => ?_, fun rest good hmain => ?_⟩
    · have := handle_some s.cache (some m)
      rw [hr] at this
      exact this.trans h1
    · obtain ⟨x, hx, hp⟩ := h3 h
      exact ⟨x, List.mem_append_left _ hx, hp⟩
    · obtain ⟨l, a, b, c⟩ := h4 rest good hmain
      refine ⟨l ++ [(d, m)], a.append (List.Sublist.refl _), ?_, ?_⟩
      · intro x hx
        rcases List.mem_append.mp hx with hx | hx
        · exact b x hx
        · simp only [List.mem_singleton] at hx
          subst hx
          refine ⟨hd, e, ?_⟩
          rw [← handle_kind h1 (some m), hr]
      · rw [hh] at c
        simpa using c
  | @crash d m q c hc hh hm hd hr =>
    refine ⟨?_, h2, fun h => ?_, fun rest good hmain => ?_⟩
    · have := handle_some s.cache (some m)
      rw [hr] at this
      exact this.trans h1
    · refine ⟨(d, m), by simp, hd, ?_⟩
      rw [← handle_kind h1 (some m), hr]
    · obtain ⟨l, a, b, c⟩ := h4 rest good hmain
      exact ⟨l, a.trans (List.sublist_append_left _ _), b, c⟩
  | zeroSkip => exact ⟨h1, h2, h3, h4⟩
  | @zeroFailed c e hc hh hm hcl hd hr =>
    refine ⟨?_, h2, h3, fun rest good hmain => ?_⟩
    · simp only [handle, Prod.mk.injEq] at hr
      rw [← hr.2]; exact h1
    · have := (h2 rest good hmain).2.1
      rw [hcl] at this
      cases this
  | report hc hh hl =>
    refine ⟨h1, h2, h3, fun rest good hmain => ?_⟩
    obtain ⟨l, a, b, c⟩ := h4 rest good hmain
    refine ⟨l, a, b, ?_⟩
    rw [hh] at c
    simpa using c
  | drain hc hh hn =>
    refine ⟨h1, h2, h3, fun rest good hmain => ?_⟩
    obtain ⟨l, a, b, c⟩ := h4 rest good hmain
    refine ⟨l, a, b, ?_⟩
    rw [hn] at c
    simp only
    omega
  | load hc hm hl => exact ⟨h1, fun _ _ _ => h2 _ _ hm, h3, fun _ _ _ => h4 _ _ hm⟩
  | loadFailed => exact ⟨h1, fun _ _ h => (by cases h), h3, fun _ _ h => (by cases h)⟩
  | loaded => exact ⟨h1, fun _ _ h => (by cases h), h3, fun _ _ h => (by cases h)⟩
  | recvPing hc hr | recvSend hc hr | recvErr hc hr | close hc hr =>
    have no : ∀ rest good, s.main = .loading rest good → False := by
      intro rest good hm
      rw [(h2 rest good hm).2.2] at hr
      cases hr
    exact ⟨h1, fun r g h => (no r g h).elim, h3, fun r g h => (no r g h).elim⟩
  | ackFailed hc ha =>
    have no : ∀ rest good, s.main = .loading rest good → False := by
      intro rest good hm
      have := (h2 rest good hm).1
      rw [ha] at this
      cases this
    exact ⟨h1, fun r g h => (no r g h).elim, h3, fun r g h => (no r g h).elim⟩
  | ackReport hc ha =>
    have no : ∀ rest good, s.main = .loading rest good → False := by
      intro rest good hm
      have := (h2 rest good hm).1
      rw [ha] at this
      cases this
    exact ⟨h1, fun r g h => (no r g h).elim, h3, fun r g h => (no r g h).elim⟩

theorem early_steps {db : Int64} {c0 : Local} {stream : List Msg} {s t : State} (he : Early db c0 stream s)
    (h : Steps (conf db) s t) : Early db c0 stream t := by
  induction h with
  | refl => exact he
  | tail hs hst ih => exact early_step ih hst

theorem Two.of_sublist {P : Tagged → Prop} {l l' : List Tagged} (h : l.Sublist l') (hp : ∀ x ∈ l, P x) (hl : 2 ≤ l.length) : Two P l' := by
  match l, hl with
  | x :: y :: r, _ => exact ⟨x, y, (List.Sublist.cons_cons x (List.Sublist.cons_cons y (List.nil_sublist r))).trans h, hp x (by simp), hp y (by simp)⟩

theorem Two.mono {P : Tagged → Prop} {l l' : List Tagged} (h : l.Sublist l') (hp : Two P l) : Two P l' := by
  obtain ⟨x, y, a, b⟩ := hp
  exact ⟨x, y, a.trans h, b⟩

/-- `New` gets to its end from every state, unless a message panics or two are refused early. -/
theorem New_ends {db : Int64} {c0 : Local} {snap : List Tagged} {stream : List Msg}
    (hp : ∀ x ∈ snap, ¬ Panics db c0 x) (hr : ¬ Two (Refuses db c0) (snap.take (snap.length - 10001))) (k : Nat) (s : State)
    (hi : Inv (conf db) c0 (snap ++ forwarded stream) s) (he : Early db c0 stream s) {rest : List Tagged} {good : Bool}
    (hm : s.main = .loading rest good) (hk : 3 * rest.length + 2 * s.msgs.length + (if s.hand = .report then 1 else 0) ≤ k) :
    ∃ t, Steps (conf db) s t ∧ (t.main = .returned ∨ t.main = .failed) := by
  have hsnap : ∀ {s : State} {rest : List Tagged}, Inv (conf db) c0 (snap ++ forwarded stream) s → Early db c0 stream s →
      s.main = .loading rest good → s.taken ++ (s.msgs ++ rest) = snap := by
    intro s rest hi he hm
    have := hi.fifo
    simp only [State.pending, hm, (he.quiet _ _ hm).2.2] at this
    rw [← List.append_assoc] at this
    simpa using List.append_cancel_right this
  have halive : ∀ {s : State} {rest : List Tagged}, Inv (conf db) c0 (snap ++ forwarded stream) s → Early db c0 stream s →
      s.main = .loading rest good → s.crashed = false := by
    intro s rest hi he hm
    cases hc : s.crashed with
    | false => rfl
    | true =>
      obtain ⟨x, hx, h⟩ := he.crash hc
      exact absurd h (hp x (by rw [← hsnap hi he hm]; exact List.mem_append_left _ hx))
  induction k generalizing s rest with
  | zero =>
    have hc := halive hi he hm
    obtain rfl : rest = [] := List.eq_nil_of_length_eq_zero (by omega)
    cases good with
    | true => exact ⟨_, Steps.refl.tail (.loaded hc hm (he.quiet _ _ hm).2.2), .inl rfl⟩
    | false => exact ⟨_, Steps.refl.tail (.loadFailed hc hm), .inr rfl⟩
  | succ k ih =>
    have hc := halive hi he hm
    have hsn := hsnap hi he hm
    cases rest with
    | nil =>
      cases good with
      | true => exact ⟨_, Steps.refl.tail (.loaded hc hm (he.quiet _ _ hm).2.2), .inl rfl⟩
      | false => exact ⟨_, Steps.refl.tail (.loadFailed hc hm), .inr rfl⟩
    | cons x rest =>
      have go : ∀ (t : State) (rest' : List Tagged), Step (conf db) s t → t.main = .loading rest' good →
          3 * rest'.length + 2 * t.msgs.length + (if t.hand = .report then 1 else 0) ≤ k →
          ∃ t, Steps (conf db) s t ∧ (t.main = .returned ∨ t.main = .failed) := by
        intro t rest' h1 h2 h3
        obtain ⟨u, g1, g2⟩ := ih t (inv_step hi h1) (early_step he h1) h2 h3
        exact ⟨u, (Steps.refl.tail h1).trans g1, g2⟩
      by_cases hl : s.msgs.length < 10000
      · refine go _ rest (.load hc hm hl) rfl ?_
        simp only [List.length_append, List.length_cons, List.length_nil] at hk ⊢
        omega
      · cases hh : s.hand with
        | report =>
          refine go _ (x :: rest) (.report hc hh ?_) hm ?_
          · obtain ⟨l, a, b, c⟩ := he.errs _ _ hm
            rw [hh] at c
            simp only [if_true] at c
            apply Classical.byContradiction
            intro hn
            refine hr (Two.of_sublist (a.trans ?_) b (by simp only [conf] at hn; omega))
            have hlen := congrArg List.length hsn
            simp only [List.length_append, List.length_cons] at hlen
            have : s.taken <+: snap := ⟨_, hsn⟩
            rw [List.prefix_iff_eq_take] at this
            rw [this]
            exact (List.take_sublist_take_left (by omega))
          · rw [hh] at hk
            simp only [if_true] at hk
            simp
            simp only [List.length_cons] at hk
            omega
        | loop =>
          rw [hh] at hk
          simp only [reduceCtorEq, if_false] at hk
          cases hq : s.msgs with
          | nil => rw [hq] at hl; simp at hl
          | cons y q =>
            obtain ⟨d, m⟩ := y
            rw [hq] at hk
            simp only [List.length_cons] at hk
            by_cases hd : d = db
            · rcases hx : handle s.cache (some m) with ⟨z, c⟩
              cases z with
              | ok u =>
                refine go _ (x :: rest) (.handled hc hh hq hd hx) hm ?_
                simp [hh]; omega
              | err e =>
                refine go _ (x :: rest) (.failed hc hh hq hd hx) hm ?_
                simp; omega
              | panic =>
                refine absurd ⟨hd, ?_⟩ (hp (d, m) (by rw [← hsn, hq]; simp))
                rw [← handle_kind he.usable, hx]
            · refine go _ (x :: rest) (.skip hc hh hq hd) hm ?_
              simp [hh]; omega

/-- Between two messages. -/
def State.between (errs : Nat) (rest : List Tagged) (good : Bool) (stream : List Msg) (c : Local) (taken : List Tagged) : State :=
  ⟨[], false, errs, .loop, .loading rest good, .off stream, .off, c, false, taken⟩

/-- The handler takes each message at once and reads its own errors, as long as nothing panics. -/
theorem run_prefix {db : Int64} {c0 : Local} (pre rest : List Tagged) (good : Bool) (stream : List Msg) (hp : ∀ x ∈ pre, ¬ Panics db c0 x)
    (c : Local) (hc : c.isSome = c0.isSome) (e : Nat) (he : e = 0 ∨ ∀ x ∈ pre, ¬ Refuses db c0 x) (taken : List Tagged) :
    ∃ c', c'.isSome = c0.isSome ∧
      Steps (conf db) (.between e (pre ++ rest) good stream c taken) (.between e rest good stream c' (taken ++ pre)) := by
  induction pre generalizing c taken with
  | nil => exact ⟨c, hc, by rw [List.append_nil]; exact .refl⟩
  | cons x pre ih =>
    obtain ⟨d, m⟩ := x
    have hpre : ∀ x ∈ pre, ¬ Panics db c0 x := fun x hx => hp x (List.mem_cons_of_mem _ hx)
    have hepre : e = 0 ∨ ∀ x ∈ pre, ¬ Refuses db c0 x := he.imp id fun h x hx => h x (List.mem_cons_of_mem _ hx)
    have h0 : Step (conf db) (.between e ((d, m) :: pre ++ rest) good stream c taken)
        ⟨[(d, m)], false, e, .loop, .loading (pre ++ rest) good, .off stream, .off, c, false, taken⟩ := .load rfl rfl (by simp [State.between, conf])
    by_cases hd : d = db
    · rcases hx : handle c (some m) with ⟨z, c1⟩
      have hc1 : c1.isSome = c0.isSome := by
        have := handle_some c (some m)
        rw [hx] at this
        exact this.trans hc
      have hk := handle_kind hc (some m)
      rw [hx] at hk
      cases z with
      | ok u =>
        obtain ⟨c', g1, g2⟩ := ih hpre c1 hc1 hepre (taken ++ [(d, m)])
        refine ⟨c', g1, ?_⟩
        have := ((Steps.refl.tail h0).tail (.handled rfl rfl rfl hd hx)).trans g2
        simpa using this
      | err a =>
        rcases he with rfl | he
        · obtain ⟨c', g1, g2⟩ := ih hpre c1 hc1 hepre (taken ++ [(d, m)])
          refine ⟨c', g1, ?_⟩
          have := ((((Steps.refl.tail h0).tail (.failed rfl rfl rfl hd hx)).tail (.report rfl rfl (by simp [conf]))).tail
            (.drain rfl rfl rfl)).trans g2
          simpa using this
        · exact absurd ⟨hd, a, hk.symm⟩ (he (d, m) (by simp))
      | panic => exact absurd ⟨hd, hk.symm⟩ (hp (d, m) (by simp))
    · obtain ⟨c', g1, g2⟩ := ih hpre c hc hepre (taken ++ [(d, m)])
      refine ⟨c', g1, ?_⟩
      have := ((Steps.refl.tail h0).tail (.skip rfl rfl rfl hd)).trans g2
      simpa using this

/-- The first element with a property. -/
theorem first_split {P : Tagged → Prop} {l : List Tagged} {x : Tagged} (hx : x ∈ l) (hp : P x) :
    ∃ a y d, l = a ++ y :: d ∧ P y ∧ ∀ z ∈ a, ¬ P z := by
  induction l with
  | nil => cases hx
  | cons z l ih =>
    by_cases hz : P z
    · exact ⟨[], z, l, rfl, hz, by simp⟩
    · rcases List.mem_cons.mp hx with rfl | hx
      · exact absurd hp hz
      · obtain ⟨a, y, d, h1, h2, h3⟩ := ih hx
        refine ⟨z :: a, y, d, by rw [h1]; rfl, h2, ?_⟩
        intro w hw
        rcases List.mem_cons.mp hw with rfl | hw
        · exact hz
        · exact h3 w hw

/-- Two elements with a property, none between them. -/
theorem two_split {P : Tagged → Prop} {l : List Tagged} (h : Two P l) :
    ∃ a x b y d, l = a ++ x :: (b ++ y :: d) ∧ P x ∧ P y ∧ ∀ z ∈ b, ¬ P z := by
  obtain ⟨x, y, h1, h2, h3⟩ := h
  obtain ⟨a, u, d, e1, e2, e3⟩ := first_split (h1.subset (a := x) (by simp)) h2
  have : y ∈ d := by
    subst e1
    clear e2
    induction a with
    | nil =>
      cases h1 with
      | cons _ h => exact h.subset (by simp)
      | cons_cons _ h => exact h.subset (by simp)
    | cons z a ih =>
      refine ih (fun w hw => e3 w (List.mem_cons_of_mem _ hw)) ?_
      cases h1 with
      | cons _ h => exact h
      | cons_cons _ h => exact absurd h2 (e3 _ (by simp))
  obtain ⟨b, v, d', f1, f2, f3⟩ := first_split this h3
  exact ⟨a, u, b, v, d', by rw [e1, f1], e2, f2, f3⟩

/-- In this state `New` never returns, whatever happens. -/
def NoReturn (cf : Conf) (s : State) : Prop := ∀ t, Steps cf s t → t.main ≠ .returned ∧ t.main ≠ .failed

/-- C88, exactly where it holds: `New` can be kept from returning if and only if some message of the
snapshot makes the handler panic, or two messages are refused among those that more than ten
thousand others follow.  `c0` is the cache of the client; its zero value is `none`. -/
theorem C88_exact (db : Int64) (c0 : Local) (snap : List Tagged) (good : Bool) (stream : List Msg) :
    (∃ s, Steps (conf db) (.init c0 snap good stream) s ∧ NoReturn (conf db) s) ↔
      (∃ x ∈ snap, Panics db c0 x) ∨ Two (Refuses db c0) (snap.take (snap.length - 10001)) := by
  constructor
  · rintro ⟨s, h1, h2⟩
    apply Classical.byContradiction
    intro hn
    have hi := inv_steps (inv_init (conf db) c0 snap good stream) h1
    have he := early_steps (early_init db c0 snap good stream) h1
    cases hm : s.main with
    | returned => exact (h2 s .refl).1 hm
    | failed => exact (h2 s .refl).2 hm
    | loading rest good' =>
      obtain ⟨t, g1, g2⟩ := New_ends (fun x hx h => hn (.inl ⟨x, hx, h⟩)) (fun h => hn (.inr h)) _ s hi he hm (Nat.le_refl _)
      rcases g2 with g | g
      · exact (h2 t g1).1 g
      · exact (h2 t g1).2 g
  · intro h
    by_cases hp : ∃ x ∈ snap, Panics db c0 x
    · obtain ⟨x, hx, hp⟩ := hp
      obtain ⟨a, y, d, e1, e2, e3⟩ := first_split hx hp
      subst e1
      obtain ⟨c, hc, hs⟩ := run_prefix a (y :: d) good stream e3 c0 rfl 0 (.inl rfl) []
      rcases hz : handle c (some y.2) with ⟨z, c1⟩
      have hk := handle_kind hc (some y.2)
      rw [hz, e2.2] at hk
      simp only at hk
      subst hk
      refine ⟨_, (hs.tail (.load (x := y) rfl rfl (by simp [State.between, conf]))).tail (.crash rfl rfl rfl e2.1 hz), ?_⟩
      intro t ht
      have key : ∀ {s t : State}, Steps (conf db) s t → s.crashed = true → t = s := by
        intro s t h hc
        induction h with
        | refl => rfl
        | tail _ hst ih =>
          subst ih
          cases hst <;> simp_all
      rw [key ht rfl]
      exact ⟨by simp [State.between], by simp [State.between]⟩
    · obtain ⟨a, x, b, y, d, e1, e2, e3, e4⟩ := two_split (h.resolve_left hp)
      have hsplit : snap = a ++ x :: (b ++ y :: (d ++ snap.drop (snap.length - 10001))) := by
        have := (List.take_append_drop (snap.length - 10001) snap).symm
        rw [e1] at this
        simpa using this
      have hlong : 10000 < (d ++ snap.drop (snap.length - 10001)).length := by
        have h1 := congrArg List.length e1
        simp only [List.length_append, List.length_cons, List.length_take] at h1
        rw [List.length_append, List.length_drop]
        omega
      generalize d ++ snap.drop (snap.length - 10001) = rest at hsplit hlong
      subst hsplit
      have hp' : ∀ z ∈ a ++ x :: (b ++ y :: rest), ¬ Panics db c0 z := fun z hz h => hp ⟨z, hz, h⟩
      obtain ⟨c, hc, hs⟩ := run_prefix a (x :: (b ++ y :: rest)) good stream (fun z hz => hp' z (by simp [hz])) c0 rfl 0 (.inl rfl) []
      obtain ⟨hx1, ex, hx2⟩ := e2
      obtain ⟨hy1, ey, hy2⟩ := e3
      rcases hz : handle c (some x.2) with ⟨z, c1⟩
      have hk := handle_kind hc (some x.2)
      rw [hz, hx2] at hk
      simp only at hk
      subst hk
      have hc1 : c1.isSome = c0.isSome := by
        have := handle_some c (some x.2)
        rw [hz] at this
        exact this.trans hc
      have hs1 := ((hs.tail (.load (x := x) rfl rfl (by simp [State.between, conf]))).tail (.failed rfl rfl rfl hx1 hz)).tail
        (.report rfl rfl (by simp [State.between, conf]))
      obtain ⟨c2, hc2, hs2⟩ := run_prefix b (y :: rest) good stream (fun z hz => hp' z (by simp [hz])) c1 hc1 1 (.inr e4) ([] ++ a ++ [x])
      rcases hw : handle c2 (some y.2) with ⟨z, c3⟩
      have hk := handle_kind hc2 (some y.2)
      rw [hw, hy2] at hk
      simp only at hk
      subst hk
      refine ⟨_, ((Steps.trans hs1 hs2).tail (.load (x := y) rfl rfl (by simp [State.between, conf]))).tail (.failed rfl rfl rfl hy1 hw), ?_⟩
      intro t ht
      have key : ∀ {s t : State}, Steps (conf db) s t → Stuck (conf db) s →
          (∃ rest', s.main = .loading rest' good ∧ s.msgs.length ≤ 10000 ∧ 10000 < s.msgs.length + rest'.length ∧ ∃ stream, s.recv = .off stream) →
          ∃ rest', t.main = .loading rest' good ∧ t.msgs.length ≤ 10000 ∧ 10000 < t.msgs.length + rest'.length ∧ ∃ stream, t.recv = .off stream := by
        intro s t hst hs h
        induction hst with
        | refl => exact h
        | tail hpre hstep ih =>
          obtain ⟨r, a, b, c, d⟩ := ih
          exact blocked_step (stuck_forever hs hpre).1 a b c hstep d
      obtain ⟨r, a, _⟩ := key ht ⟨rfl, Nat.le_refl _⟩ ⟨rest, rfl, Nat.zero_le _, by simpa using hlong, stream, rfl⟩
      rw [a]
      exact ⟨by simp, by simp⟩

/-- C88, as far as it holds: with a snapshot of at most ten thousand and one messages, none of which
makes the handler panic, `New` can always still return.  Missing: `C88_violated`. -/
theorem C88_small_partial (db : Int64) (c0 : Local) (snap : List Tagged) (good : Bool) (stream : List Msg) (hl : snap.length ≤ 10001)
    (hp : ∀ x ∈ snap, ¬ Panics db c0 x) (s : State) (h : Steps (conf db) (.init c0 snap good stream) s) :
    ∃ t, Steps (conf db) s t ∧ (t.main = .returned ∨ t.main = .failed) := by
  apply Classical.byContradiction
  intro hn
  have := (C88_exact db c0 snap good stream).mp ⟨s, h, fun t ht => ⟨fun e => hn ⟨t, ht, .inl e⟩, fun e => hn ⟨t, ht, .inr e⟩⟩⟩
  rcases this with ⟨x, hx, h⟩ | ⟨x, y, h, _⟩
  · exact hp x hx h
  · rw [show snap.length - 10001 = 0 by omega] at h
    simp at h

/-- Two commands that are refused, and an assignment to a usable cache. -/
example : ∀ x ∈ [((0 : Int64), command [b!"sAdd", b!"a", b!"1"]), (0, command [b!"sAdd", b!"b", b!"1"]), (0, command [b!"set", b!"k", b!"v"])],
    ¬ Panics 0 (some Cache.new) x := by
  intro x hx
  simp only [List.mem_cons, List.not_mem_nil, or_false] at hx
  rcases hx with rfl | rfl | rfl <;> (rintro ⟨_, h⟩; revert h; decide +kernel)

/-- C88 is false for the cache that `New` creates: any snapshot with a string key of the chosen
database can end in a panic before `New` returns. -/
theorem C88_violated_zero (db : Int64) (snap : List Tagged) (good : Bool) (stream : List Msg) (m : Msg) (k v : Bytes) (hm : IsSet m k v)
    (hx : (db, m) ∈ snap) : ∃ s, Steps (conf db) (.init none snap good stream) s ∧ NoReturn (conf db) s := by
  refine (C88_exact db none snap good stream).mpr (.inl ⟨_, hx, rfl, ?_⟩)
  obtain ⟨name, extra, hn, rfl⟩ := hm
  simp [handle, command, str, lower_setName hn, setIn]

example : ∃ s, Steps (conf 0) (.init none [(0, command [b!"set", b!"k", b!"v"])] true []) s ∧ NoReturn (conf 0) s :=
  C88_violated_zero 0 _ true [] (command [b!"set", b!"k", b!"v"]) b!"k" b!"v" ⟨_, [], ⟨115, 101, 116, rfl, by decide, by decide, by decide⟩, rfl⟩ (by simp)

end Verif.Repl

import Verif.Repl.PropsMachine
import Verif.Rdb.PropsLoad
import Verif.Resp.Props
/-!
# C79 and C85 - C89: from the master to the local cache
-/
namespace Verif.Repl

open Verif.Resp
open Verif.Rdb (Item Header Holds KeyRec Data Val StrEnc MapOrd LState meaning filePieces keyCmds recreate)

/-! ## C85: connecting -/

/-- The snapshot as a master sends it behind its answer to the ping. -/
def greeting (f : Bytes) : Bytes := b!"+PONG\r\n" ++ (b!"$" ++ natText f.length ++ crlf ++ f)

theorem ping_at {w : World} (hp : w.pingSent = true) {r : Rd} (hw : r.WF) {rest : Bytes} (h : r.flat = b!"+PONG\r\n" ++ rest) :
    ∃ r', ping w r = (.ok (), r') ∧ r'.WF ∧ r'.flat = rest := by
  obtain ⟨r', h1, h2⟩ := readMessage_at (streamed_reads rest) (m := .simple b!"PONG") (ts := []) (r := r)
    (by simp [Fits, bufSize])
    (by
      rw [List.append_nil]
      exact ⟨by rw [toks_flatten, h]; simp [ser, crlf], hw⟩)
  refine ⟨r', ?_, h2.2, by simpa using h2.1⟩
  simp only [ping, hp, h1]
  rw [if_neg (by simp)]
  simp [str]

/-- C85: however the bytes of the master are cut, a snapshot of any content that follows a PONG is
saved exactly, and what is read next begins right behind it. -/
theorem C85_snapshot_saved (w : World) (addr rdbFile : Bytes) (ha : addr ≠ []) (hf : rdbFile ≠ []) (hd : w.dial = true)
    (hp : w.pingSent = true) (hs : w.syncSent = true) (hc : w.create = true) (f rest : Bytes) (hl : f.length < 2 ^ 63)
    (hw : w.input.WF) (hi : w.input.flat = greeting f ++ rest) :
    ∃ r, syncWithRedis w addr rdbFile = (.ok (), some f, r) ∧ r.flat = rest ∧ r.WF := by
  obtain ⟨r1, h1, hw1, hf1⟩ := ping_at hp hw (rest := b!"$" ++ natText f.length ++ crlf ++ f ++ rest)
    (by rw [hi, greeting]; simp)
  obtain ⟨r2, h2, hf2⟩ := C50_saved f rest hl r1 hw1 hf1
  refine ⟨r2, ?_, hf2⟩
  simp only [syncWithRedis, if_neg hf, if_neg ha, hd, h1, sync, hs, hc, h2]
  simp

example : sampleWorld.input.WF ∧ sampleWorld.input.flat = greeting (b!"REDIS0009" ++ [0, 1, 97, 1, 98, 255]) ++ [] :=
  ⟨by simp [sampleWorld, Rd.WF], by decide +kernel⟩

/-! ## C86, C87: other answers -/

/-- C86 is false: an error reply to SYNC is saved as the snapshot, and no error is reported. -/
theorem C86_violated (w : World) (hs : w.syncSent = true) (hc : w.create = true) (e rest : Bytes) (he : (10 : UInt8) ∉ e)
    (hl : e.length + 2 ≤ bufSize) (r : Rd) (hw : r.WF) (h : r.flat = ser (.error e) ++ rest) :
    ∃ r', sync w r = (.ok (), some e, r') := by
  obtain ⟨r1, h1, h2, hw1⟩ := readByte_at (b := 45) (rest := e ++ crlf ++ rest) hw (by simp [h, ser])
  obtain ⟨r2, h3, h4, hw2⟩ := readLine_at hw1 he hl h2
  refine ⟨r2, ?_⟩
  have : readWithWriter r = (.ok (45, (e.length : Int)), e, r2) := by
    simp only [readWithWriter, h1, h3]
    rw [if_neg (by decide), if_pos (by decide)]
  simp only [sync, hs, hc, this]
  simp

/-- Even `New` as a whole may succeed on an error reply. -/
theorem C86_violated_new : ∃ w : World, w.input.flat = b!"+PONG\r\n" ++ ser (.error (b!"REDIS0009" ++ [255])) ∧
    (new (fun _ l => l) w ⟨[], [], 0⟩).1 = .ok () :=
  ⟨⟨true, true, true, true, true, ⟨[], [b!"+PONG\r\n" ++ ser (.error (b!"REDIS0009" ++ [255]))]⟩⟩, by decide +kernel, by decide +kernel⟩

/-- C86 for the other direction: whatever the master answers to the ping, other than a message that
reads PONG, is an error (or the panic of C49). -/
theorem C86_ping_partial (w : World) (r : Rd) (m : Msg) (r' : Rd) (hm : readMessage r = (.ok m, r')) (hp : str m ≠ b!"PONG") :
    ∃ e, (ping w r).1 = .err e := by
  unfold ping
  split
  · exact ⟨_, rfl⟩
  · rw [hm]; simp only; rw [if_neg hp]; exact ⟨_, rfl⟩

example : (ping sampleWorld ⟨[], [b!"-NOAUTH Authentication required.\r\n"]⟩).1 = .err (.badPong b!"NOAUTH Authentication required.") := by
  decide +kernel

/-- C87 is false: the line feeds that a master sends while it prepares a snapshot end the attempt,
whatever follows. -/
theorem C87_violated (w : World) (hs : w.syncSent = true) (hc : w.create = true) (rest : Bytes) (r : Rd) (hw : r.WF)
    (h : r.flat = 10 :: rest) : (sync w r).1 = .err (.read .unknownProtocol) := by
  obtain ⟨r1, h1, h2, hw1⟩ := readByte_at (b := 10) (rest := rest) hw h
  have : readWithWriter r = (.err .unknownProtocol, [], r1) := by
    simp only [readWithWriter, h1]
    rw [if_neg (by decide), if_neg (by decide), if_neg (by decide)]
  simp only [sync, hs, hc, this]
  simp

/-! ## C88: New returns -/

/-- A stuck handler with more to load than the channel holds. -/
theorem blocked_step {cf : Conf} {s t : State} (hs : Stuck cf s) {rest : List Tagged} {good : Bool} (hm : s.main = .loading rest good)
    (hc : s.msgs.length ≤ cf.cap) (hl : cf.cap < s.msgs.length + rest.length) (h : Step cf s t) (hr : ∃ stream, s.recv = .off stream) :
    ∃ rest', t.main = .loading rest' good ∧ t.msgs.length ≤ cf.cap ∧ cf.cap < t.msgs.length + rest'.length ∧ ∃ stream, t.recv = .off stream := by
  have hst := hs
  obtain ⟨h1, h2⟩ := hs
  obtain ⟨stream, hr⟩ := hr
  cases h with
  | skip _ hh | handled _ hh | failed _ hh | crash _ hh | zeroSkip _ hh | zeroFailed _ hh | drain _ hh => rw [h1] at hh; cases hh
  | report _ _ hl => omega
  | ackReport _ _ hl => omega
  | ackFailed => exact ⟨rest, hm, hc, hl, stream, hr⟩
  | load _ hm' hl' =>
    rw [hm] at hm'; cases hm'
    exact ⟨_, rfl, by simp; omega, by simp at hl ⊢; omega, stream, hr⟩
  | loadFailed _ hm' => rw [hm] at hm'; cases hm'; simp at hl; omega
  | loaded _ hm' => rw [hm] at hm'; cases hm'; simp at hl; omega
  | recvPing _ hr' | recvSend _ hr' | recvErr _ hr' | close _ hr' => rw [hr] at hr'; cases hr'

/-- C88 is false, even with a usable cache: a snapshot of more than ten thousand and two keys, the
first two of which the handler does not know, can keep `New` from ever returning. -/
theorem C88_violated (c : Cache) (m1 m2 : Msg) (e1 e2 : HErr) (h1 : handle (some c) (some m1) = (.err e1, some c))
    (h2 : handle (some c) (some m2) = (.err e2, some c)) (rest : List Tagged) (hl : 10000 < rest.length) (good : Bool) (stream : List Msg) :
    ∃ s, Steps (conf 0) (.init (some c) ((0, m1) :: (0, m2) :: rest) good stream) s ∧
      ∀ t, Steps (conf 0) s t → t.main ≠ .returned ∧ t.main ≠ .failed := by
  refine ⟨⟨[], false, 1, .report, .loading rest good, .off stream, .off, some c, false, [(0, m1), (0, m2)]⟩,
    ((((Steps.refl.tail (.load rfl rfl (by simp [State.init, conf]))).tail
      (.load rfl rfl (by simp [State.init, conf]))).tail (.failed rfl rfl rfl rfl h1)).tail (.report rfl rfl (by simp [State.init, conf]))).tail
      (.failed rfl rfl rfl rfl h2), ?_⟩
  intro t ht
  have : ∃ rest', t.main = .loading rest' good ∧ t.msgs.length ≤ 10000 ∧ 10000 < t.msgs.length + rest'.length ∧ ∃ stream, t.recv = .off stream := by
    have key : ∀ {s t : State}, Steps (conf 0) s t → Stuck (conf 0) s →
        (∃ rest', s.main = .loading rest' good ∧ s.msgs.length ≤ 10000 ∧ 10000 < s.msgs.length + rest'.length ∧ ∃ stream, s.recv = .off stream) →
        ∃ rest', t.main = .loading rest' good ∧ t.msgs.length ≤ 10000 ∧ 10000 < t.msgs.length + rest'.length ∧ ∃ stream, t.recv = .off stream := by
      intro s t hst hs h
      induction hst with
      | refl => exact h
      | tail hpre hstep ih =>
        obtain ⟨r, a, b, c, d⟩ := ih
        exact blocked_step (stuck_forever hs hpre).1 a b c hstep d
    exact key ht ⟨rfl, Nat.le_refl _⟩ ⟨rest, rfl, Nat.zero_le _, by simpa using hl, stream, rfl⟩
  obtain ⟨r, a, _⟩ := this
  rw [a]
  exact ⟨by simp, by simp⟩

/-- Two sets (`sAdd`), and many more keys. -/
example : ∃ s, Steps (conf 0) (.init (some Cache.new) ((0, command [b!"sAdd", b!"a", b!"1"]) :: (0, command [b!"sAdd", b!"b", b!"1"]) ::
      List.replicate 20000 (0, command [b!"set", b!"k", b!"v"])) true []) s ∧ ∀ t, Steps (conf 0) s t → t.main ≠ .returned ∧ t.main ≠ .failed :=
  C88_violated Cache.new _ _ _ _ rfl rfl _ (by rw [List.length_replicate]; omega) true []

/-! ## C79, C89 -/

theorem isPing_set {m : Msg} {k v : Bytes} (h : IsSet m k v) : isPing m = false := by
  obtain ⟨name, extra, ⟨a, b, c, rfl, ha, _, _⟩, rfl⟩ := h
  have ha : ¬ lowerLetter a = 112 := by rcases ha with rfl | rfl <;> decide
  have e : str (command ([a, b, c] :: k :: v :: extra)) = a :: b :: c :: 32 :: strAll ((k :: v :: extra).map .bulk) := by
    simp [command, str, strAll]
  simp [isPing, e, ha]

/-- The assignments of a list of messages for database 0, in order. -/
theorem forwarded_sets {stream : List Msg} {kvs : List (Bytes × Bytes)} (h : StreamOf stream kvs) :
    ∃ ms, forwarded stream = ms.map (fun m => ((0 : Int64), m)) ∧ AreSets ms kvs := by
  induction h with
  | nil => exact ⟨[], rfl, .nil⟩
  | set hm _ ih =>
    obtain ⟨ms, h1, h2⟩ := ih
    refine ⟨_ :: ms, ?_, .cons hm h2⟩
    simp only [forwarded] at h1 ⊢
    simp [isPing_set hm, h1]
  | ping _ ih =>
    obtain ⟨ms, h1, h2⟩ := ih
    refine ⟨ms, ?_, h2⟩
    have hp : isPing (command [b!"PING"]) = true := by decide
    simp only [forwarded] at h1 ⊢
    simp [hp, h1]

/-- Messages tagged for a database that amount to assignments. -/
inductive SetsFor (db : Int64) : List Tagged → List (Bytes × Bytes) → Prop
  | nil : SetsFor db [] []
  | mine {m l k v kvs} : IsSet m k v → SetsFor db l kvs → SetsFor db ((db, m) :: l) ((k, v) :: kvs)
  | other {d m l kvs} : d ≠ db → SetsFor db l kvs → SetsFor db ((d, m) :: l) kvs

theorem setsFor_append {db : Int64} {l l' : List Tagged} {kvs kvs' : List (Bytes × Bytes)} (h : SetsFor db l kvs) (h' : SetsFor db l' kvs') :
    SetsFor db (l ++ l') (kvs ++ kvs') := by
  induction h with
  | nil => exact h'
  | mine hm _ ih => exact .mine hm ih
  | other hd _ ih => exact .other hd ih

theorem setsFor_prefix {db : Int64} {l : List Tagged} {kvs : List (Bytes × Bytes)} (h : SetsFor db l kvs) {p : List Tagged} (hp : p <+: l) :
    ∃ kp, kp <+: kvs ∧ SetsFor db p kp := by
  induction h generalizing p with
  | nil =>
    rw [List.prefix_nil] at hp; subst hp
    exact ⟨[], List.prefix_refl _, .nil⟩
  | @mine m l k v kvs hm _ ih =>
    cases p with
    | nil => exact ⟨[], List.nil_prefix, .nil⟩
    | cons x p =>
      rw [List.cons_prefix_cons] at hp
      obtain ⟨rfl, hp⟩ := hp
      obtain ⟨kp, h1, h2⟩ := ih hp
      exact ⟨(k, v) :: kp, List.cons_prefix_cons.mpr ⟨rfl, h1⟩, .mine hm h2⟩
  | other hd _ ih =>
    cases p with
    | nil => exact ⟨[], List.nil_prefix, .nil⟩
    | cons x p =>
      rw [List.cons_prefix_cons] at hp
      obtain ⟨rfl, hp⟩ := hp
      obtain ⟨kp, h1, h2⟩ := ih hp
      exact ⟨kp, h1, .other hd h2⟩

theorem setsFor_good {db : Int64} {l : List Tagged} {kvs : List (Bytes × Bytes)} (h : SetsFor db l kvs) : Good db l := by
  induction h with
  | nil => intro x hx; cases hx
  | mine hm _ ih =>
    intro x hx hd c
    rcases List.mem_cons.mp hx with rfl | hx
    · exact ⟨_, handle_set hm c⟩
    · exact ih x hx hd c
  | other hd _ ih =>
    intro x hx he c
    rcases List.mem_cons.mp hx with rfl | hx
    · exact absurd he hd
    · exact ih x hx he c

theorem applied_sets {db : Int64} {l : List Tagged} {kvs : List (Bytes × Bytes)} (h : SetsFor db l kvs) (c : Cache) :
    applied db (some c) l = some (run c (kvs.map fun p => (0, .set p.1 p.2))) := by
  induction h generalizing c with
  | nil => rfl
  | @mine m l k v kvs hm _ ih =>
    have := ih (c.set k v).1
    simp only [applied] at this ⊢
    simp only [List.filter_cons, decide_true, if_true, List.map_cons, List.foldl_cons, handle_set hm, this, run, Verif.exec]
  | other hd _ ih =>
    have := ih c
    simp only [applied] at this ⊢
    simp only [List.filter_cons, hd, decide_false, Bool.false_eq_true, if_false, this]

theorem setsFor_stream {stream : List Msg} {kvs : List (Bytes × Bytes)} (h : StreamOf stream kvs) : SetsFor 0 (forwarded stream) kvs := by
  obtain ⟨ms, h1, h2⟩ := forwarded_sets h
  rw [h1]
  clear h1 h
  induction h2 with
  | nil => exact .nil
  | cons hm _ ih => exact .mine hm ih

/-- The assignments in a snapshot: the strings of a database. -/
def stringsOf (db : Nat) : List KeyRec → List (Bytes × Bytes)
  | [] => []
  | r :: rs =>
    match r.data with
    | .str s => if r.db = db then (r.key, s) :: stringsOf db rs else stringsOf db rs
    | _ => stringsOf db rs

theorem setsFor_snapshot (db : Nat) (hdb : db < 2 ^ 63) (recs : List KeyRec) (hr : ∀ r ∈ recs, r.db < 2 ^ 63)
    (hs : ∀ r ∈ recs, r.db = db → (∃ s, r.data = .str s) ∧ r.deadline = none) :
    SetsFor (Int64.ofNat db) ((recs.flatMap keyCmds).map tagged) (stringsOf db recs) := by
  induction recs with
  | nil => exact .nil
  | cons r recs ih =>
    have ih := ih (fun x hx => hr x (List.mem_cons_of_mem _ hx)) (fun x hx => hs x (List.mem_cons_of_mem _ hx))
    rw [List.flatMap_cons, List.map_append]
    by_cases hd : r.db = db
    · obtain ⟨⟨s, h1⟩, h2⟩ := hs r (List.mem_cons_self) hd
      simp only [keyCmds, h1, h2, hd, recreate, stringsOf, List.map_cons, List.map_nil, tagged, List.cons_append, List.nil_append]
      rw [if_pos trivial]
      exact .mine ⟨b!"set", [], ⟨115, 101, 116, rfl, by simp⟩, rfl⟩ ih
    · have hne : Int64.ofNat r.db ≠ Int64.ofNat db := fun h => hd ((Rdb.ofNat_inj (hr r List.mem_cons_self) hdb).mp h)
      have e : stringsOf db (r :: recs) = stringsOf db recs := by
        simp only [stringsOf]; split <;> simp [hd]
      rw [e]
      simp only [keyCmds]
      cases r.deadline with
      | none => exact .other hne ih
      | some t => exact .other hne (.other hne ih)

/-- The state after any schedule, in terms of the assignments of the master. -/
theorem replica_prefix {cf : Conf} {snap : List Tagged} {good : Bool} {stream : List Msg} {s : State} {kvs : List (Bytes × Bytes)}
    (ha : SetsFor cf.db (snap ++ forwarded stream) kvs) (h : Steps cf (.init (some Cache.new) snap good stream) s) :
    ∃ kp c, kp <+: kvs ∧ SetsFor cf.db s.taken kp ∧ s.cache = some c ∧
      ∀ k t, (c.get t k).2 =
        match lastVal k kp with
        | some v => .ok (canon v)
        | none => .err .keyNil := by
  have hi := inv_steps (inv_init cf (some Cache.new) snap good stream) h
  obtain ⟨kp, h1, h2⟩ := setsFor_prefix ha (p := s.taken) ⟨s.msgs ++ s.pending, by rw [← hi.fifo, List.append_assoc]⟩
  refine ⟨kp, _, h1, h2, by rw [hi.cache, applied_sets h2], fun k t => ?_⟩
  rw [get_after_sets Cache.new kp k t (by intro d hd; cases hd)]
  cases lastVal k kp <;> rfl

/-- C89, as far as it holds: with a usable cache, in every schedule and at every moment, the replica
shows what the master showed after some first part of its assignments - never anything else, and
never a mixture.  Missing: see C74, C75 and C79. -/
theorem C89_prefix_partial (snap : List Tagged) (good : Bool) (stream : List Msg) (kv1 kv2 : List (Bytes × Bytes))
    (h1 : SetsFor 0 snap kv1) (h2 : StreamOf stream kv2) (s : State) (h : Steps (conf 0) (.init (some Cache.new) snap good stream) s) :
    ∃ kp c, kp <+: kv1 ++ kv2 ∧ s.cache = some c ∧
      ∀ k t, (c.get t k).2 =
        match lastVal k kp with
        | some v => .ok (canon v)
        | none => .err .keyNil := by
  obtain ⟨kp, c, a, _, b, d⟩ := replica_prefix (cf := conf 0) (setsFor_append h1 (setsFor_stream h2)) h
  exact ⟨kp, c, a, b, d⟩

/-- C89, full statement refuted: the master never showed `7` for `k`, the replica does. -/
theorem C89_violated : ¬ ∀ (stream : List Msg) (kvs : List (Bytes × Bytes)), StreamOf stream kvs →
    ∀ s, Steps (conf 0) (.init (some Cache.new) [] true stream) s →
      ∃ kp c, kp <+: kvs ∧ s.cache = some c ∧ ∀ k t, (c.get t k).2 =
        match lastVal k kp with
        | some v => .ok v
        | none => .err .keyNil := by
  intro h
  have hm : IsSet (command [b!"set", b!"k", b!"007"]) b!"k" b!"007" := ⟨b!"set", [], ⟨115, 101, 116, rfl, by simp⟩, rfl⟩
  obtain ⟨kp, c, hp, hc, hg⟩ := h [command [b!"set", b!"k", b!"007"]] [(b!"k", b!"007")] (.set hm .nil) _
    (((Steps.refl.tail (.loaded rfl rfl rfl)).tail (.recvSend rfl rfl (by decide) (by decide))).tail (.handled rfl rfl rfl rfl rfl))
  have hc : (setIn (some Cache.new) b!"k" b!"007").2 = some c := hc
  rw [setIn_some] at hc
  have hc : (Cache.new.set b!"k" b!"007").1 = c := Option.some.inj hc
  have hg := hg b!"k" 0
  rw [← hc] at hg
  have hv : ((Cache.new.set b!"k" b!"007").1.get 0 b!"k").2 = .ok b!"7" := by decide +kernel
  rw [hv] at hg
  rw [List.prefix_cons_iff] at hp
  rcases hp with rfl | ⟨kp', rfl, hp⟩
  · cases hg
  · rw [List.prefix_nil] at hp; subst hp
    revert hg; decide

theorem taken_mono {cf : Conf} {s t : State} (h : Steps cf s t) : s.taken <+: t.taken := by
  induction h with
  | refl => exact List.prefix_refl _
  | tail _ hs ih =>
    refine ih.trans ?_
    cases hs <;> first | exact List.prefix_refl _ | exact List.prefix_append _ _

/-- C89, the other half, for all streams: at any two moments of a run, the cache is the result of handling a first part of what
the master sent for its database, and the later part is no shorter. -/
theorem C89_monotone (cf : Conf) (c0 : Local) (snap : List Tagged) (good : Bool) (stream : List Msg) (s t : State)
    (h : Steps cf (.init c0 snap good stream) s) (h' : Steps cf s t) :
    ∃ p q : List Tagged, p <+: q ∧ q <+: snap ++ forwarded stream ∧
      s.cache = ((p.filter fun x => x.1 = cf.db).map Prod.snd).foldl (fun c m => (handle c (some m)).2) c0 ∧
      t.cache = ((q.filter fun x => x.1 = cf.db).map Prod.snd).foldl (fun c m => (handle c (some m)).2) c0 := by
  have hi := inv_steps (inv_init cf c0 snap good stream) h
  have hj := inv_steps hi h'
  exact ⟨s.taken, t.taken, taken_mono h', ⟨t.msgs ++ t.pending, by rw [← hj.fifo, List.append_assoc]⟩, hi.cache, hj.cache⟩

/-- The same as a user sees it, for streams of assignments: the later view is that of a later, or the same, moment of the master. -/
theorem C89_never_back_partial (snap : List Tagged) (good : Bool) (stream : List Msg) (kv1 kv2 : List (Bytes × Bytes))
    (h1 : SetsFor 0 snap kv1) (h2 : StreamOf stream kv2) (s t : State) (h : Steps (conf 0) (.init (some Cache.new) snap good stream) s)
    (h' : Steps (conf 0) s t) :
    ∃ kp kq c c', kp <+: kq ∧ kq <+: kv1 ++ kv2 ∧ s.cache = some c ∧ t.cache = some c' ∧
      (∀ k u, (c.get u k).2 = match lastVal k kp with
        | some v => .ok (canon v)
        | none => .err .keyNil) ∧
      ∀ k u, (c'.get u k).2 = match lastVal k kq with
        | some v => .ok (canon v)
        | none => .err .keyNil := by
  have hi := inv_steps (inv_init (conf 0) (some Cache.new) snap good stream) h
  obtain ⟨kq, c', a, b, d, e⟩ := replica_prefix (cf := conf 0) (setsFor_append h1 (setsFor_stream h2)) (h.trans h')
  obtain ⟨kp, f, g⟩ := setsFor_prefix b (taken_mono h')
  refine ⟨kp, kq, _, c', f, a, by rw [hi.cache, applied_sets g], d, fun k u => ?_, e⟩
  rw [get_after_sets Cache.new kp k u (by intro d hd; cases hd)]
  cases lastVal k kp <;> rfl

/-- C79, full statement refuted: the cache of a real client is not usable, and remains so in every
schedule; the first assignment for its database ends the process: no goroutine makes a step any more. -/
theorem C79_violated (snap : List Tagged) (good : Bool) (stream : List Msg) (s : State) (db : Int64)
    (h : Steps (conf db) (.init none snap good stream) s) :
    s.cache = none ∧ (∀ m k v, IsSet m k v → (db, m) ∈ s.taken → s.crashed = true ∧ ∀ t, ¬ Step (conf db) s t) := by
  have over : ∀ {s}, s.crashed = true → ∀ t, ¬ Step (conf db) s t := by
    intro s hs t ht
    cases ht <;> simp_all
  suffices hsuf : s.cache = none ∧ (∀ m k v, IsSet m k v → (db, m) ∈ s.taken → s.crashed = true) from
    ⟨hsuf.1, fun m k v hm hx => ⟨hsuf.2 m k v hm hx, over (hsuf.2 m k v hm hx)⟩⟩
  have hc : ∀ {s}, Steps (conf db) (.init none snap good stream) s → s.cache = none := by
    intro s h
    rw [(inv_steps (inv_init (conf db) none snap good stream) h).cache, applied]
    have : ∀ l : List Msg, l.foldl (fun c m => (handle c (some m)).2) none = none := by
      intro l
      induction l with
      | nil => rfl
      | cons m l ih =>
        have hn : (handle none (some m)).2 = none := by
          cases m with
          | array ms =>
            cases ms with
            | nil => rfl
            | cons a ms =>
              simp only [handle]
              split
              · cases ms with
                | nil => rfl
                | cons k ms => cases ms <;> rfl
              · split
                · split <;> rfl
                · split
                  · split <;> rfl
                  · rfl
          | nil | bulk | error | int | simple => rfl
        rw [List.foldl_cons, hn]; exact ih
    exact this _
  refine ⟨hc h, fun m k v hm => ?_⟩
  have hp : handle none (some m) = (.panic, none) := by
    obtain ⟨name, extra, hn, rfl⟩ := hm
    simp [handle, command, str, lower_setName hn, setIn]
  generalize hinit : State.init none snap good stream = s0 at h
  induction h with
  | refl => subst hinit; intro hx; cases hx
  | @tail t u hpre hstep ih =>
    subst hinit
    have hct := hc hpre
    cases hstep with
    | crash => intro _; rfl
    | @skip d m' q hcr hh hms hd =>
      intro hx
      rcases List.mem_append.mp hx with hx | hx
      · exact ih hx
      · simp only [List.mem_cons, List.not_mem_nil, or_false, Prod.mk.injEq] at hx
        exact absurd hx.1.symm hd
    | @handled d m' q c hcr hh hms hd hr =>
      intro hx
      rcases List.mem_append.mp hx with hx | hx
      · exact ih hx
      · simp only [List.mem_cons, List.not_mem_nil, or_false, Prod.mk.injEq] at hx
        rw [← hx.2, hct, hp] at hr; cases hr
    | @failed d m' q c e hcr hh hms hd hr =>
      intro hx
      rcases List.mem_append.mp hx with hx | hx
      · exact ih hx
      · simp only [List.mem_cons, List.not_mem_nil, or_false, Prod.mk.injEq] at hx
        rw [← hx.2, hct, hp] at hr; cases hr
    | zeroSkip => exact ih
    | zeroFailed => exact ih
    | report => exact ih
    | drain => exact ih
    | load => exact ih
    | loadFailed => exact ih
    | loaded => exact ih
    | recvPing => exact ih
    | recvSend => exact ih
    | recvErr => exact ih
    | close => exact ih
    | ackFailed => exact ih
    | ackReport => exact ih

/-- It does happen. -/
example : ∃ s, Steps (conf 0) (.init none [(0, command [b!"set", b!"a", b!"b"])] true []) s ∧ s.crashed = true :=
  ⟨_, (Steps.refl.tail (.load rfl rfl (by decide))).tail (.crash rfl rfl rfl rfl rfl), rfl⟩

/-- C79, as far as it holds, from the bytes of the master to `Get`: if the master sends a snapshot in
supported encodings (as in C65) that fits the buffer of the reader and whose keys in database 0 are
strings without deadlines, and if `stream` is what is received behind it and consists of
assignments and pings, then `New` succeeds, and with a usable cache, in every schedule, once
everything was taken `Get` shows for every key the value assigned last, up to the rewriting of
numbers.  Missing: the cache that `New` makes is not usable (`C79_violated`), deadlines, other
databases (C76), other encodings. -/
theorem C79_end_to_end_partial (ord : MapOrd) (hord : ∀ n l, (ord n l).Perm l) (hdr : Bytes) (hh : Header hdr) (items : List Item)
    (hs : ∀ i ∈ items, i.Supported) (hv : ∀ i ∈ items, i.Valid) (sum : Bytes)
    (hl : (Rdb.bytes (filePieces hdr items) ++ sum).length ≤ bufSize)
    (hstr : ∀ r ∈ meaning none 0 items, r.db = 0 → (∃ s, r.data = .str s) ∧ r.deadline = none)
    (w : World) (hd : w.dial = true) (hp : w.pingSent = true) (hsn : w.syncSent = true) (hc : w.create = true) (hro : w.reopen = true)
    (rest : Bytes) (hw : w.input.WF) (hi : w.input.flat = greeting (Rdb.bytes (filePieces hdr items) ++ sum) ++ rest) (o : Opts) :
    ∃ client snap r, new ord w o = (.ok (), client, snap, r) ∧ r.flat = rest ∧
      ∀ stream r' kvs, recvN stream.length r = (.ok stream, r') → StreamOf stream kvs →
        ∀ s, Steps (conf 0) (.init (some Cache.new) snap true stream) s → CaughtUp s →
          ∃ c, s.cache = some c ∧ ∀ k t, (c.get t k).2 =
            match lastVal k (stringsOf 0 (meaning none 0 items) ++ kvs) with
            | some v => .ok (canon v)
            | none => .err .keyNil := by
  obtain ⟨r, h1, h2, _⟩ := C85_snapshot_saved w (prepare o).addr (prepare o).rdbFile
    (by simp only [prepare]; split <;> simp_all) (by simp only [prepare]; split <;> simp_all) hd hp hsn hc _ rest
    (by simp only [bufSize] at hl; omega) hw hi
  obtain ⟨s', h3, h4⟩ := Rdb.C65_small_partial ord hord hdr hh items hs hv sum hl
  have hmr := Rdb.meaning_recs hs hv none 0 (by decide)
  refine ⟨⟨o, none⟩, s'.out.map tagged, r, ?_, h2, ?_⟩
  · have h3 : Rdb.load ord ⟨0, 0, [], 0, []⟩ ⟨[], [Rdb.bytes (filePieces hdr items) ++ sum]⟩ = (.ok (), s') := h3
    simp only [new, h1, hro, Option.getD_some, h3]
    simp
  · intro stream r' kvs _ hst s hsteps hcu
    have ha : SetsFor 0 (s'.out.map tagged ++ forwarded stream) (stringsOf 0 (meaning none 0 items) ++ kvs) := by
      refine setsFor_append ?_ (setsFor_stream hst)
      rw [h4]
      exact setsFor_snapshot 0 (by decide) _ (fun r hr => (hmr r hr).2.2) hstr
    have hi := inv_steps (inv_init (conf 0) (some Cache.new) (s'.out.map tagged) true stream) hsteps
    obtain ⟨e1, e2, e3⟩ := hcu
    have hpend : s.pending = [] := by
      simp only [State.pending, e2]
      rcases e3 with e3 | e3 | e3 <;> rw [e3] <;> rfl
    have htk : s.taken = s'.out.map tagged ++ forwarded stream := by
      rw [← hi.fifo, e1, hpend]; simp
    refine ⟨_, by rw [hi.cache, htk, show (conf 0).db = 0 from rfl, applied_sets ha], fun k t => ?_⟩
    rw [get_after_sets Cache.new _ k t (by intro d hd; cases hd)]
    cases lastVal k (stringsOf 0 (meaning none 0 items) ++ kvs) <;> rfl

/-! ### The replica does catch up -/

/-- How much is left to do. -/
def State.work (s : State) : Nat :=
  s.msgs.length +
  (match s.main with
   | .loading rest _ => 2 * rest.length + 1
   | _ => 0) +
  (match s.recv with
   | .off stream => 2 * stream.length
   | .reading rest => 2 * rest.length
   | _ => 0)

structure Running (cf : Conf) (s : State) : Prop where
  live : Live cf s
  opened : s.closed = false
  main : (∃ rest stream, s.main = .loading rest true ∧ s.recv = .off stream) ∨ (s.main = .returned ∧ ∃ rest, s.recv = .reading rest)

theorem running_progress {cf : Conf} (hcap : 0 < cf.cap) {c0 : Local} {all : List Tagged} (hg : Good cf.db all) {s : State}
    (hi : Inv cf c0 all s) (hr : Running cf s) : (CaughtUp s ∧ s.recv = .reading []) ∨ ∃ t, Step cf s t ∧ t.work < s.work ∧ Running cf t := by
  have hloop := hr.live.loop (.inl hr.opened)
  have hal := hr.live.alive
  cases hm : s.msgs with
  | cons x q =>
    right
    obtain ⟨d, m⟩ := x
    by_cases hd : d = cf.db
    · obtain ⟨c, hc⟩ := hr.live.usable
      obtain ⟨c', hc'⟩ := hg (d, m) (by rw [← hi.fifo, hm]; simp) hd c
      have st : Step cf s _ := .handled hal hloop hm hd (by rw [hc]; exact hc')
      exact ⟨_, st, by simp only [State.work, hm, List.length_cons]; omega, live_step hg hi hr.live st, hr.opened, hr.main⟩
    · have st : Step cf s _ := .skip hal hloop hm hd
      exact ⟨_, st, by simp only [State.work, hm, List.length_cons]; omega, live_step hg hi hr.live st, hr.opened, hr.main⟩
  | nil =>
    rcases hr.main with ⟨rest, stream, h1, h2⟩ | ⟨h1, rest, h2⟩
    · right
      cases rest with
      | nil =>
        have st : Step cf s _ := .loaded hal h1 h2
        exact ⟨_, st, by simp only [State.work, h1, h2]; simp, live_step hg hi hr.live st, hr.opened, .inr ⟨rfl, _, rfl⟩⟩
      | cons x rest =>
        have st : Step cf s _ := .load hal h1 (by rw [hm]; exact hcap)
        exact ⟨_, st, by simp only [State.work, h1, h2, List.length_append, List.length_cons, List.length_nil]; omega,
          live_step hg hi hr.live st, hr.opened, .inl ⟨_, _, rfl, h2⟩⟩
    · cases rest with
      | nil => exact .inl ⟨⟨hm, h1, .inl h2⟩, h2⟩
      | cons m rest =>
        right
        cases hp : isPing m with
        | true =>
          have st : Step cf s _ := .recvPing hal h2 hp
          exact ⟨_, st, by simp only [State.work, h1, h2, List.length_cons]; omega, live_step hg hi hr.live st, hr.opened, .inr ⟨h1, _, rfl⟩⟩
        | false =>
          have st : Step cf s _ := .recvSend hal h2 hp (by rw [hm]; exact hcap)
          exact ⟨_, st, by simp only [State.work, h1, h2, List.length_append, List.length_cons, List.length_nil]; omega,
            live_step hg hi hr.live st, hr.opened, .inr ⟨h1, _, rfl⟩⟩

theorem running_step {cf : Conf} {c0 : Local} {all : List Tagged} (hg : Good cf.db all) {s t : State} (hi : Inv cf c0 all s)
    (hr : Running cf s) (h : Step cf s t) : Running cf t ∨ t.recv = .closing := by
  have hl := live_step hg hi hr.live h
  obtain ⟨_, ho, hm⟩ := hr
  cases h with
  | skip | handled | failed | crash | zeroSkip | zeroFailed | report | drain | ackFailed | ackReport => exact .inl ⟨hl, ho, hm⟩
  | load _ h1 =>
    rcases hm with ⟨rest, stream, e1, e2⟩ | ⟨e1, _⟩
    · rw [e1] at h1; cases h1; exact .inl ⟨hl, ho, .inl ⟨_, _, rfl, e2⟩⟩
    · rw [e1] at h1; cases h1
  | loadFailed _ h1 =>
    rcases hm with ⟨rest, stream, e1, e2⟩ | ⟨e1, _⟩ <;> (rw [e1] at h1; cases h1)
  | loaded _ h1 h2 => exact .inl ⟨hl, ho, .inr ⟨rfl, _, rfl⟩⟩
  | recvPing _ h1 | recvSend _ h1 =>
    rcases hm with ⟨rest, stream, e1, e2⟩ | ⟨e1, rest, e2⟩
    · rw [e2] at h1; cases h1
    · exact .inl ⟨hl, ho, .inr ⟨e1, _, rfl⟩⟩
  | recvErr => exact .inr rfl
  | close _ h1 =>
    rcases hm with ⟨rest, stream, e1, e2⟩ | ⟨e1, rest, e2⟩ <;> (rw [e2] at h1; cases h1)

/-- C79, progress: with a usable cache and supported commands, from every moment of every schedule
at which the connection still stands there is a way on to a moment at which everything was taken and the connection still stands. -/
theorem C79_can_catch_up_partial (cf : Conf) (hcap : 0 < cf.cap) (c0 : Cache) (snap : List Tagged) (stream : List Msg)
    (hg : Good cf.db (snap ++ forwarded stream)) (s : State) (h : Steps cf (.init (some c0) snap true stream) s)
    (ho : s.recv ≠ .closing ∧ s.recv ≠ .done) : ∃ t, Steps cf s t ∧ CaughtUp t ∧ t.recv = .reading [] := by
  have hi0 := inv_init cf (some c0) snap true stream
  have trans : ∀ {a b c : State}, Steps cf a b → Steps cf b c → Steps cf a c := by
    intro a b c h1 h2
    induction h2 with
    | refl => exact h1
    | tail _ hs ih => exact ih.tail hs
  have hrun : Running cf s ∨ s.recv = .closing ∨ s.recv = .done := by
    generalize hinit : State.init (some c0) snap true stream = s0 at h
    induction h with
    | refl =>
      subst hinit
      exact .inl ⟨⟨rfl, ⟨c0, rfl⟩, fun _ => rfl⟩, rfl, .inl ⟨_, _, rfl, rfl⟩⟩
    | @tail t u hpre hst ih =>
      subst hinit
      by_cases ht : t.recv ≠ .closing ∧ t.recv ≠ .done
      · rcases ih ht with hr | hr | hr
        · rcases running_step hg (inv_steps hi0 hpre) hr hst with h | h
          · exact .inl h
          · exact .inr (.inl h)
        · exact absurd hr ht.1
        · exact absurd hr ht.2
      · have hcd : t.recv = .closing ∨ t.recv = .done := by
          by_cases h1 : t.recv = .closing
          · exact .inl h1
          · by_cases h2 : t.recv = .done
            · exact .inr h2
            · exact absurd ⟨h1, h2⟩ ht
        right
        cases hst with
        | skip | handled | failed | crash | zeroSkip | zeroFailed | report | drain | ackFailed | ackReport | load | loadFailed => exact hcd
        | loaded _ _ h1 | recvPing _ h1 | recvSend _ h1 | recvErr _ h1 => rcases hcd with e | e <;> (rw [e] at h1; cases h1)
        | close => exact .inr rfl
  have hr : Running cf s := by
    rcases hrun with h | h | h
    · exact h
    · exact absurd h ho.1
    · exact absurd h ho.2
  have hi := inv_steps hi0 h
  have key : ∀ n (s : State), s.work < n → Inv cf (some c0) (snap ++ forwarded stream) s → Running cf s → ∃ t, Steps cf s t ∧ CaughtUp t ∧ t.recv = .reading [] := by
    intro n
    induction n with
    | zero => intro s h; omega
    | succ n ih =>
      intro s hn hi hr
      rcases running_progress hcap hg hi hr with hc | ⟨t, h1, h2, h3⟩
      · exact ⟨s, .refl, hc⟩
      · obtain ⟨u, h4, h5⟩ := ih t (by omega) (inv_step hi h1) h3
        exact ⟨u, trans (Steps.refl.tail h1) h4, h5⟩
  exact key _ s (Nat.lt_succ_self _) hi hr

/-! ### A run from the bytes to the cache -/

/-- A snapshot with a string in database 0 and a set in database 3. -/
def endItems : List Item :=
  [.select .b6 0, .entry (.raw .b6 b!"a") (.str (.raw .b6 b!"x")), .entry (.raw .b6 b!"b") (.str (.int8 7)),
   .select .b6 3, .entry (.raw .b6 b!"s") (.set .b6 [.raw .b6 b!"m"])]

/-- A ping and an assignment. -/
def endStream : List Msg := [command [b!"PING"], command [b!"SET", b!"a", b!"y"]]

/-- A master that sends all that at once. -/
def endWorld : World :=
  ⟨true, true, true, true, true,
    ⟨[], [greeting (Rdb.bytes (filePieces b!"REDIS0009" endItems) ++ [1, 2, 3, 4, 5, 6, 7, 8]) ++ (endStream.map ser).flatten]⟩⟩

/-- All hypotheses of `C79_end_to_end_partial` and `C79_can_catch_up_partial` can be met at once, and
then the replica shows the values of the master. -/
example : ∃ client snap r s c, new Rdb.idOrd endWorld ⟨[], [], 0⟩ = (.ok (), client, snap, r) ∧
    Steps (conf 0) (.init (some Cache.new) snap true endStream) s ∧ s.cache = some c ∧
    (c.get 0 b!"a").2 = .ok b!"y" ∧ (c.get 0 b!"b").2 = .ok b!"7" ∧ (c.get 0 b!"s").2 = .err .keyNil := by
  have hs : ∀ i ∈ endItems, i.Supported := by
    simp [endItems, Item.Supported, StrEnc.Supported, Rdb.LenEnc.Supported, Val.Supported, StrEnc.value]
  have hv : ∀ i ∈ endItems, i.Valid := by
    simp [endItems, Item.Valid, StrEnc.Valid, Rdb.LenEnc.limit, Val.Valid, Rdb.Signed]
  have hm : meaning none 0 endItems =
      [⟨0, b!"a", .str b!"x", none⟩, ⟨0, b!"b", .str b!"7", none⟩, ⟨3, b!"s", .set [b!"m"], none⟩] := by
    simp [endItems, meaning, StrEnc.value, Val.data]; decide +kernel
  obtain ⟨client, snap, r, h1, h2, h3⟩ := C79_end_to_end_partial Rdb.idOrd Rdb.idOrd_perm b!"REDIS0009" rfl endItems hs hv
    [1, 2, 3, 4, 5, 6, 7, 8] (by decide +kernel) (by rw [hm]; simp) endWorld rfl rfl rfl rfl rfl (endStream.map ser).flatten
    (by simp [endWorld, Rd.WF]) (by simp [endWorld, Rd.flat]) ⟨[], [], 0⟩
  have hst : StreamOf endStream [(b!"a", b!"y")] := .ping (.set ⟨b!"SET", [], ⟨83, 69, 84, rfl, by simp⟩, rfl⟩ .nil)
  have hsnap : snap = [(0, command [b!"set", b!"a", b!"x"]), (0, command [b!"set", b!"b", b!"7"]), (3, command [b!"sAdd", b!"s", b!"m"])] := by
    have := congrArg (fun x => x.2.2.1) h1
    simp only at this
    rw [← this]
    decide +kernel
  have hr : ∃ r', recvN endStream.length r = (.ok endStream, r') := by
    have := congrArg (fun x => x.2.2.2) h1
    simp only at this
    rw [← this]
    exact ⟨_, Prod.ext (by decide +kernel) rfl⟩
  have hset : ∀ k v : Bytes, IsSet (command [b!"set", k, v]) k v := fun k v => ⟨b!"set", [], ⟨115, 101, 116, rfl, by simp⟩, rfl⟩
  have hg : Good 0 (snap ++ forwarded endStream) := by
    rw [hsnap]
    exact setsFor_good (setsFor_append (.mine (hset _ _) (.mine (hset _ _) (.other (by decide) .nil))) (setsFor_stream hst))
  obtain ⟨s, h4, h5, _⟩ := C79_can_catch_up_partial (conf 0) (by decide) Cache.new snap endStream hg _ .refl (by constructor <;> (intro h; cases h))
  obtain ⟨r', hr⟩ := hr
  obtain ⟨c, h6, h7⟩ := h3 endStream r' _ hr hst s h4 h5
  refine ⟨client, snap, r, s, c, h1, h4, h6, ?_, ?_, ?_⟩
  · rw [h7, hm]; decide +kernel
  · rw [h7, hm]; decide +kernel
  · rw [h7, hm]; decide +kernel

end Verif.Repl

import Verif.Repl.Disk
/-!
# C109: what the replica tells the master

Source: redis/replication.go:98-118 (`ack`, `Ack`), :163-169 (`SetReplicationId`,
`SetReplicationOffset`), :249-260 (their calls in `Load`).
-/
namespace Verif.Repl

open Verif.Resp
open Verif.Rdb (Item Header Holds MapOrd LState filePieces loadLoop)

/-! ## The position in the snapshot -/

/-- The identity and the position of the master, as the records of a snapshot leave them. -/
def position : Bytes × Int64 → List Item → Bytes × Int64
  | p, [] => p
  | p, .aux k v :: is =>
    if k.value = b!"repl-id" then position (v.value, p.2) is
    else if k.value = b!"repl-offset" then position (p.1, (atoi v.value).getD p.2) is
    else position p is
  | p, _ :: is => position p is

theorem loop_position {ord : MapOrd} (hord : ∀ n l, (ord n l).Perm l) {items : List Item} (hs : ∀ i ∈ items, i.Supported)
    (hv : ∀ i ∈ items, i.Valid) {rest : Bytes} {r : Rd} (h : Holds (items.flatMap Item.pieces ++ [.one 255]) rest r)
    {fuel : Nat} (hf : items.length < fuel) {s : LState} :
    ∃ s', loadLoop ord fuel s r = (.ok (), s') ∧ (s'.id, s'.offset) = position (s.id, s.offset) items := by
  induction items generalizing r fuel s with
  | nil =>
    cases fuel with
    | zero => simp at hf
    | succ fuel =>
      obtain ⟨r1, h1, h⟩ := Holds.byte h
      exact ⟨s, by simp [loadLoop, Rdb.loadRec, h1, LState.apply], rfl⟩
  | cons it items ih =>
    cases fuel with
    | zero => simp at hf
    | succ fuel =>
      simp only [List.flatMap_cons, List.append_assoc] at h
      obtain ⟨r1, h1, g⟩ := Rdb.loadRec_at hord s.out.length (hs it (by simp)) (hv it (by simp)) h
      have hv1 := hv it (by simp)
      have hs' := fun i h => hs i (List.mem_cons_of_mem _ h)
      have hv' := fun i h => hv i (List.mem_cons_of_mem _ h)
      have hf' : items.length < fuel := by simp at hf; omega
      simp only [loadLoop, h1]
      cases it with
      | expireS t => exact ih hs' hv' g hf' (s := { s with expires := UInt64.ofNat (1000 * t) })
      | expireMs t => exact ih hs' hv' g hf' (s := { s with expires := UInt64.ofNat t })
      | freq b => exact ih hs' hv' g hf'
      | idle l k => exact ih hs' hv' g hf'
      | select l k => exact ih hs' hv' g hf' (s := { s with db := Int64.ofNat k })
      | resize l1 n1 l2 n2 => exact ih hs' hv' g hf'
      | aux k v =>
        simp only [Rdb.recOf, LState.apply, position]
        by_cases hk : k.value = b!"repl-id"
        · rw [if_pos hk, if_pos hk]
          exact ih hs' hv' g hf' (s := { s with id := v.value })
        · rw [if_neg hk, if_neg hk]
          by_cases hk2 : k.value = b!"repl-offset"
          · rw [if_pos hk2, if_pos hk2]
            obtain ⟨x, hx⟩ := Option.isSome_iff_exists.mp (hv1.2.2 hk2)
            simp only [hx]
            exact ih hs' hv' g hf' (s := { s with offset := x })
          · rw [if_neg hk2, if_neg hk2]
            exact ih hs' hv' g hf'
      | entry k v =>
        simp only [Rdb.recOf, LState.apply]
        obtain ⟨s', g1, g2⟩ := ih hs' hv' g hf' (s := (s.send (Rdb.recreate k.value v.data)).sendExpire k.value)
        refine ⟨s', g1, ?_⟩
        rw [g2]
        have : ∀ t : LState, ((t.sendExpire k.value).id, (t.sendExpire k.value).offset) = (t.id, t.offset) := by
          intro t
          unfold LState.sendExpire
          split <;> rfl
        exact congrArg (position · items) (this _)

theorem load_position {ord : MapOrd} (hord : ∀ n l, (ord n l).Perm l) {hdr : Bytes} (hh : Header hdr) {items : List Item}
    (hs : ∀ i ∈ items, i.Supported) (hv : ∀ i ∈ items, i.Valid) {rest : Bytes} {r : Rd} (h : Holds (filePieces hdr items) rest r)
    (s : LState) : ∃ s', Rdb.load ord s r = (.ok (), s') ∧ (s'.id, s'.offset) = position (s.id, s.offset) items := by
  obtain ⟨r1, h1, h2⟩ := Holds.read h
  rw [hh] at h1
  have hl := Rdb.items_length items
  have hfl := congrArg List.length h2.flat
  simp only [Rdb.bytes_append, List.length_append] at hfl
  obtain ⟨s', g1, g2⟩ := loop_position hord hs hv h2 (fuel := r1.flat.length + 1) (by omega) (s := { s with expires := 0 })
  exact ⟨s', by simp only [Rdb.load, h1, g1], g2⟩

/-- No record says anything about `name`. -/
def Silent (name : Bytes) (items : List Item) : Prop := ∀ k v, .aux k v ∈ items → k.value ≠ name

theorem position_silent_offset {items : List Item} (h : Silent b!"repl-offset" items) (p : Bytes × Int64) :
    (position p items).2 = p.2 := by
  induction items generalizing p with
  | nil => rfl
  | cons i items ih =>
    have ih := ih (fun k v hm => h k v (List.mem_cons_of_mem _ hm))
    cases i with
    | aux k v =>
      have hk := h k v (by simp)
      simp only [position, if_neg hk]
      split <;> exact ih _
    | _ => exact ih p

theorem position_silent_id {items : List Item} (h : Silent b!"repl-id" items) (p : Bytes × Int64) :
    (position p items).1 = p.1 := by
  induction items generalizing p with
  | nil => rfl
  | cons i items ih =>
    have ih := ih (fun k v hm => h k v (List.mem_cons_of_mem _ hm))
    cases i with
    | aux k v =>
      have hk := h k v (by simp)
      simp only [position, if_neg hk]
      split <;> exact ih _
    | _ => exact ih p

theorem position_append (p : Bytes × Int64) (pre post : List Item) : position p (pre ++ post) = position (position p pre) post := by
  induction pre generalizing p with
  | nil => rfl
  | cons i pre ih =>
    cases i with
    | aux k v =>
      simp only [List.cons_append, position]
      split
      · exact ih _
      · split <;> exact ih _
    | _ => exact ih p

/-- C109: the last record `repl-offset` of a supported snapshot (as in C65) is the position `Load`
leaves for the replica, wherever it stands in the file. -/
theorem C109_offset (ord : MapOrd) (hord : ∀ n l, (ord n l).Perm l) (hdr : Bytes) (hh : Header hdr) (pre post : List Item)
    (k v : Rdb.StrEnc) (hs : ∀ i ∈ pre ++ .aux k v :: post, i.Supported) (hv : ∀ i ∈ pre ++ .aux k v :: post, i.Valid) (rest : Bytes) (r : Rd)
    (h : Holds (filePieces hdr (pre ++ .aux k v :: post)) rest r) (s : LState)
    (hk : k.value = b!"repl-offset") (n : Int64) (hn : v.value = itoa n) (hlast : Silent b!"repl-offset" post) :
    ∃ s', Rdb.load ord s r = (.ok (), s') ∧ s'.offset = n := by
  obtain ⟨s', h1, h2⟩ := load_position hord hh hs hv h s
  refine ⟨s', h1, ?_⟩
  have := congrArg Prod.snd h2
  rw [position_append, position, if_neg (by rw [hk]; decide), if_pos hk, position_silent_offset hlast, hn, atoi_itoa] at this
  exact this

/-- C109: likewise the identity of the master. -/
theorem C109_id (ord : MapOrd) (hord : ∀ n l, (ord n l).Perm l) (hdr : Bytes) (hh : Header hdr) (pre post : List Item)
    (k v : Rdb.StrEnc) (hs : ∀ i ∈ pre ++ .aux k v :: post, i.Supported) (hv : ∀ i ∈ pre ++ .aux k v :: post, i.Valid) (rest : Bytes) (r : Rd)
    (h : Holds (filePieces hdr (pre ++ .aux k v :: post)) rest r) (s : LState)
    (hk : k.value = b!"repl-id") (hlast : Silent b!"repl-id" post) :
    ∃ s', Rdb.load ord s r = (.ok (), s') ∧ s'.id = v.value := by
  obtain ⟨s', h1, h2⟩ := load_position hord hh hs hv h s
  refine ⟨s', h1, ?_⟩
  have := congrArg Prod.fst h2
  rw [position_append, position, if_pos hk, position_silent_id hlast] at this
  exact this

/-- A snapshot with identity, position, and a key between and behind them. -/
def ackItems : List Item :=
  [.aux (.raw .b6 b!"repl-id") (.raw .b6 b!"f00"), .entry (.raw .b6 b!"a") (.str (.raw .b6 b!"x")),
   .aux (.raw .b6 b!"repl-offset") (.raw .b6 b!"1400"), .entry (.raw .b6 b!"b") (.str (.raw .b6 b!"y"))]

example : (∀ i ∈ ackItems, i.Supported) ∧ (∀ i ∈ ackItems, i.Valid) ∧
    Holds (filePieces b!"REDIS0009" ackItems) [] (Rdb.file (Rdb.bytes (filePieces b!"REDIS0009" ackItems) ++ [])) ∧
    position ([], 0) ackItems = (b!"f00", 1400) ∧ b!"1400" = itoa 1400 := by
  refine ⟨?_, ?_, Rdb.holds_small _ _ (by decide +kernel), by decide +kernel, by decide +kernel⟩
  · simp [ackItems, Item.Supported, Rdb.StrEnc.Supported, Rdb.LenEnc.Supported, Rdb.Val.Supported, Rdb.StrEnc.value]
  · simp [ackItems, Item.Valid, Rdb.StrEnc.Valid, Rdb.Val.Valid, Rdb.LenEnc.limit, Rdb.StrEnc.value]
    decide +kernel

/-! ## Acknowledging -/

/-- `(*Replication).ack` (redis/replication.go:98-110): the request it sends. -/
def ackMsg (offset : Int64) : Msg := command [b!"ReplConf", b!"ack", itoa offset]

/-- The goroutines with `repl.Offset` and what `Ack` has sent.  Nothing but `Load` writes
`repl.Offset`, and `Ack` begins when `Load` is done (xxcache.go:50-54). -/
structure AState where
  st : State
  offset : Int64
  acked : List Msg

/-- One step of the goroutines, or one tick of `Ack` (redis/replication.go:112-118). -/
inductive AStep (cf : Conf) : AState → AState → Prop
  | other {a : AState} {s} : Step cf a.st s → AStep cf a { a with st := s }
  | tick {a : AState} : a.st.crashed = false → a.st.ack = .idle →
      AStep cf a { a with acked := a.acked ++ [ackMsg a.offset] }

inductive ASteps (cf : Conf) : AState → AState → Prop
  | refl {a} : ASteps cf a a
  | tail {a b c} : ASteps cf a b → AStep cf b c → ASteps cf a c

/-- C109, as far as it holds: in every schedule and at every moment, all that was sent is the
position of the snapshot, by the protocol's own rules.  Missing: `C109_violated`. -/
theorem C109_acks_partial (cf : Conf) (c : Local) (snap : List Tagged) (good : Bool) (stream : List Msg) (n : Int64) (a : AState)
    (h : ASteps cf ⟨.init c snap good stream, n, []⟩ a) :
    ∀ m ∈ a.acked, specCommand (ser m) = some ([b!"ReplConf", b!"ack", itoa n], []) := by
  have : a.offset = n ∧ ∀ m ∈ a.acked, m = ackMsg n := by
    generalize hi : (⟨.init c snap good stream, n, []⟩ : AState) = a0 at h
    induction h with
    | refl => subst hi; exact ⟨rfl, by simp⟩
    | tail _ hs ih =>
      obtain ⟨h1, h2⟩ := ih
      cases hs with
      | other _ => exact ⟨h1, h2⟩
      | tick _ _ =>
        refine ⟨h1, fun m hm => ?_⟩
        rcases List.mem_append.mp hm with hm | hm
        · exact h2 m hm
        · rw [List.mem_singleton.mp hm, h1]
  intro m hm
  rw [this.2 m hm]
  have := C47_binary_safe [b!"ReplConf", b!"ack", itoa n] []
  rwa [List.append_nil] at this

/-- Nothing is acknowledged before the snapshot is loaded and `New` returns without error. -/
theorem C109_after_load_partial (cf : Conf) (c : Local) (snap : List Tagged) (good : Bool) (stream : List Msg) (n : Int64) (a : AState)
    (h : ASteps cf ⟨.init c snap good stream, n, []⟩ a) (ha : a.acked ≠ []) : a.st.main = .returned := by
  have : (a.st.ack ≠ .off → a.st.main = .returned) ∧ (a.acked ≠ [] → a.st.main = .returned) := by
    clear ha
    generalize hi : (⟨.init c snap good stream, n, []⟩ : AState) = a0 at h
    induction h with
    | refl => subst hi; exact ⟨fun h => absurd rfl h, fun h => absurd rfl h⟩
    | tail _ hs ih =>
      obtain ⟨h1, h2⟩ := ih
      cases hs with
      | tick _ hk =>
        have := h1 (by rw [hk]; simp)
        exact ⟨h1, fun _ => this⟩
      | other hs =>
        have keep : ∀ {s t : State}, Step cf s t → s.main = .returned → t.main = .returned := by
          intro s t hs hm
          cases hs <;> first | exact hm | simp_all
        have on : ∀ {s t : State}, Step cf s t → t.ack ≠ .off → s.ack ≠ .off ∨ t.main = .returned := by
          intro s t hs hk
          cases hs <;> first | exact .inl hk | simp_all
        refine ⟨fun hk => ?_, fun hk => keep hs (h2 hk)⟩
        rcases on hs hk with hk | hk
        · exact keep hs (h1 hk)
        · exact hk
  exact this.2 ha

/-- C109, full statement refuted: the master sent an assignment and the replica applied it, still
the position it acknowledges is that of the snapshot, not that many bytes further. -/
theorem C109_violated : ¬ ∀ (n : Int64) (stream : List Msg) (a : AState), ASteps (conf 0) ⟨.init (some Cache.new) [] true stream, n, []⟩ a →
    CaughtUp a.st → ∀ m, a.acked.getLast? = some m → m = ackMsg (n + Int64.ofNat (stream.flatMap ser).length) := by
  intro h
  have hm : IsSet (command [b!"set", b!"k", b!"v"]) b!"k" b!"v" := ⟨b!"set", [], ⟨115, 101, 116, rfl, by simp⟩, rfl⟩
  have := h 0 [command [b!"set", b!"k", b!"v"]] _
    ((((ASteps.refl.tail (.other (.loaded rfl rfl rfl))).tail (.other (.recvSend rfl rfl (by decide) (by decide)))).tail
      (.other (.handled rfl rfl rfl rfl rfl))).tail (.tick rfl rfl)) ⟨rfl, rfl, .inl rfl⟩ _ rfl
  revert this
  decide +kernel

theorem offset_const {cf : Conf} {x a : AState} (h : ASteps cf x a) : a.offset = x.offset := by
  induction h with
  | refl => rfl
  | tail _ hs ih => cases hs <;> exact ih

/-- What is still to be received is the end of the stream. -/
theorem rest_suffix {cf : Conf} {c : Local} {snap : List Tagged} {good : Bool} {stream : List Msg} {n : Int64} {a : AState}
    (h : ASteps cf ⟨.init c snap good stream, n, []⟩ a) :
    (∀ rest, a.st.recv = .off rest → rest = stream) ∧ ∀ rest, a.st.recv = .reading rest → rest <:+ stream := by
  generalize hi : (⟨.init c snap good stream, n, []⟩ : AState) = a0 at h
  induction h with
  | refl =>
    subst hi
    exact ⟨fun rest h => by simp [State.init] at h; exact h.symm, fun rest h => by simp [State.init] at h⟩
  | tail _ hs ih =>
    obtain ⟨h1, h2⟩ := ih
    cases hs with
    | tick _ _ => exact ⟨h1, h2⟩
    | other hs =>
      cases hs with
      | loaded _ _ hr => exact ⟨fun rest h => by simp at h, fun rest h => by simp at h; subst h; rw [h1 _ hr]; exact List.suffix_refl _⟩
      | recvPing _ hr _ => exact ⟨fun rest h => by simp at h, fun rest h => by simp at h; subst h; exact (List.suffix_cons _ _).trans (h2 _ hr)⟩
      | recvSend _ hr _ _ => exact ⟨fun rest h => by simp at h, fun rest h => by simp at h; subst h; exact (List.suffix_cons _ _).trans (h2 _ hr)⟩
      | recvErr _ _ _ => exact ⟨fun rest h => by simp at h, fun rest h => by simp at h⟩
      | close _ _ => exact ⟨fun rest h => by simp at h, fun rest h => by simp at h⟩
      | _ => exact ⟨h1, h2⟩

theorem advance_zero {n : Int64} {L : Nat} (hl : L < 2 ^ 64) (h : n = n + Int64.ofNat L) : L = 0 := by
  have h1 : Int64.ofNat L = 0 := by
    have := congrArg (fun z => z - n) h
    simpa [Int64.add_comm n, Int64.add_sub_cancel] using this.symm
  have h2 := congrArg Int64.toBitVec h1
  have h3 : (BitVec.ofNat 64 L) = 0#64 := h2
  have := congrArg BitVec.toNat h3
  simp at this
  omega

/-- C109, exactly: while the replica receives the stream (`got` so far, of fewer than 2^64 bytes), an acknowledgement that it sends carries
the position it has reached if and only if it has received nothing since the snapshot, not even a ping. -/
theorem C109_exact (cf : Conf) (c : Local) (snap : List Tagged) (good : Bool) (stream : List Msg) (n : Int64) (a : AState)
    (h : ASteps cf ⟨.init c snap good stream, n, []⟩ a) (rest : List Msg) (hr : a.st.recv = .reading rest) :
    ∃ got, stream = got ++ rest ∧ ∀ a', AStep cf a a' → ∀ m, a'.acked = a.acked ++ [m] → (got.flatMap ser).length < 2 ^ 64 →
      (specCommand (ser m) = some ([b!"ReplConf", b!"ack", itoa (n + Int64.ofNat (got.flatMap ser).length)], []) ↔ got = []) := by
  obtain ⟨got, hg⟩ := (rest_suffix h).2 rest hr
  refine ⟨got, hg.symm, fun a' hs m hm hl => ?_⟩
  have ho : a.offset = n := offset_const h
  have hm : m = ackMsg n := by
    cases hs with
    | other _ => simp at hm
    | tick _ _ => simp [ho] at hm; exact hm.symm
  have hc := C47_binary_safe [b!"ReplConf", b!"ack", itoa n] []
  rw [List.append_nil] at hc
  rw [hm, show specCommand (ser (ackMsg n)) = some ([b!"ReplConf", b!"ack", itoa n], []) from hc]
  constructor
  · intro he
    have he := (Prod.mk.inj (Option.some.inj he)).1
    have he := itoa_inj (List.cons.inj (List.cons.inj (List.cons.inj he).2).2).1
    have h0 := advance_zero hl he
    cases got with
    | nil => rfl
    | cons x xs =>
      have hp := ser_length_pos x
      simp only [List.flatMap_cons, List.length_append] at h0
      omega
  · intro he
    subst he
    simp

/-- With a stream that says nothing the acknowledged position is right. -/
example : ASteps (conf 0) ⟨.init (some Cache.new) [] true [], 1400, []⟩
    ⟨{ State.init (some Cache.new) [] true [] with main := .returned, recv := .reading [], ack := .idle }, 1400, [ackMsg 1400]⟩ :=
  (ASteps.refl.tail (.other (.loaded rfl rfl rfl))).tail (.tick rfl rfl)

end Verif.Repl

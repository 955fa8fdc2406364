import Verif.Repl.PropsEnd
import Verif.Repl.PropsHandle
/-!
# What the replica shows, whatever the master sends (C75, C79, C89)

The theorems of `PropsEnd` are about streams of assignments.  Here the snapshot and the stream are arbitrary: values of other
types, deadlines, SELECT, unknown and malformed commands.  What `Get` shows depends on the assignments among them and on
nothing else.
-/
namespace Verif.Repl
open Verif.Resp Verif.Rdb

/-- The assignment in a message, if it is one: SET in any mixture of cases, a key, a value; the rest does not matter. -/
def assignment : Msg → Option (Bytes × Bytes)
  | .array (a :: k :: v :: _) => if (str a).map lowerLetter = b!"set" then some (str k, str v) else none
  | _ => none

/-- The assignments for a database, in order. -/
def assignments (db : Int64) (l : List Tagged) : List (Bytes × Bytes) :=
  l.filterMap fun x => if x.1 = db then assignment x.2 else none

/-- What a user reads who sees these assignments. -/
def view (kvs : List (Bytes × Bytes)) (k : Bytes) : Res Bytes :=
  match lastVal k kvs with
  | some v => .ok (canon v)
  | none => .err .keyNil

theorem assignment_iff (m : Msg) (k v : Bytes) : assignment m = some (k, v) ↔ AssignsTo (some m) k v := by
  constructor
  · intro h
    unfold assignment at h
    split at h
    · rename_i a x y ms
      split at h
      · cases h
        exact ⟨a, x, y, ms, rfl, setName_of_lower ‹_›, rfl, rfl⟩
      · cases h
    · cases h
  · rintro ⟨a, x, y, ms, h, ha, rfl, rfl⟩
    cases h
    have := lower_setName ha
    simp only [lower] at this
    simp [assignment, this]

theorem handle_any (c : Cache) (m : Msg) :
    (handle (some c) (some m)).2 = some (match assignment m with | some p => (c.set p.1 p.2).1 | none => c) := by
  obtain ⟨_, h2, h3⟩ := C74_exact c (some m)
  cases h : assignment m with
  | some p =>
    obtain ⟨k, v⟩ := p
    exact h2 k v ((assignment_iff m k v).mp h) 0
  | none =>
    refine h3 fun k v hk => ?_
    rw [(assignment_iff m k v).mpr hk] at h
    cases h

theorem applied_any (db : Int64) (l : List Tagged) (c : Cache) :
    applied db (some c) l = some (run c ((assignments db l).map fun p => (0, .set p.1 p.2))) := by
  induction l generalizing c with
  | nil => rfl
  | cons x l ih =>
    simp only [applied, assignments] at ih ⊢
    by_cases hd : x.1 = db
    · simp only [List.filter_cons, hd, decide_true, if_true, List.map_cons, List.foldl_cons, handle_any, ih, List.filterMap_cons]
      cases assignment x.2 <;> rfl
    · simp only [List.filter_cons, hd, decide_false, List.filterMap_cons, if_false, Bool.false_eq_true]
      exact ih c

theorem assignments_append (db : Int64) (a b : List Tagged) : assignments db (a ++ b) = assignments db a ++ assignments db b := by
  simp [assignments]

theorem assignments_prefix {db : Int64} {a b : List Tagged} (h : a <+: b) : assignments db a <+: assignments db b := by
  obtain ⟨x, rfl⟩ := h
  rw [assignments_append]
  exact List.prefix_append _ _

theorem applied_view (db : Int64) (l : List Tagged) :
    ∃ c, applied db (some Cache.new) l = some c ∧ ∀ k t, (c.get t k).2 = view (assignments db l) k := by
  refine ⟨_, applied_any db l Cache.new, fun k t => ?_⟩
  rw [get_after_sets Cache.new _ k t (by intro d hd; cases hd), view]
  cases lastVal k (assignments db l) <;> rfl

/-- A heartbeat is no assignment. -/
theorem ping_no_assignment {m : Msg} (h : isPing m = true) : assignment m = none := by
  cases ha : assignment m with
  | none => rfl
  | some p =>
    obtain ⟨a, x, y, ms, hm, ⟨b, c, d, hs, hb, _⟩, _⟩ := (assignment_iff m p.1 p.2).mp ha
    cases hm
    have hb : ¬ lowerLetter b = 112 := by rcases hb with rfl | rfl <;> decide
    have e : str (.array (a :: x :: y :: ms)) = b :: c :: d :: 32 :: strAll (x :: y :: ms) := by
      simp [str, strAll, hs]
    simp [isPing, e, hb] at h

theorem assignments_forwarded (stream : List Msg) : assignments 0 (forwarded stream) = stream.filterMap assignment := by
  induction stream with
  | nil => rfl
  | cons m stream ih =>
    simp only [assignments, forwarded] at ih ⊢
    cases hp : isPing m with
    | true => simp only [List.filter_cons, hp, Bool.not_true, Bool.false_eq_true, if_false, ih, List.filterMap_cons, ping_no_assignment hp]
    | false => simp only [List.filter_cons, hp, Bool.not_false, if_true, List.map_cons, List.filterMap_cons, ih]

/-- The assignments a client of database `db` gets to see: those for it in the snapshot and, since the stream is taken to belong to
database 0 (C76), all or none of the stream. -/
def arrived (db : Int64) (snap : List Tagged) (stream : List Msg) : List (Bytes × Bytes) :=
  assignments db snap ++ if db = 0 then stream.filterMap assignment else []

theorem assignments_all (db : Int64) (snap : List Tagged) (stream : List Msg) :
    assignments db (snap ++ forwarded stream) = arrived db snap stream := by
  rw [assignments_append, arrived]
  congr 1
  split
  · rename_i h
    rw [h, assignments_forwarded]
  · rename_i h
    simp only [assignments, forwarded, List.filterMap_eq_nil_iff, List.mem_map]
    rintro x ⟨m, _, rfl⟩
    simp [Ne.symm h]

/-! ## C89 -/

/-- C89 without any restriction on what the master sends: with a usable cache, in every schedule, `Get` shows at every moment
the last values of a first part of the assignments among what was sent for the database - in the canonical text - and at a later
moment those of a first part that is no shorter.  Nothing else that is sent is ever visible. -/
theorem C89_exact (cf : Conf) (snap : List Tagged) (good : Bool) (stream : List Msg) (s t : State)
    (h : Steps cf (.init (some Cache.new) snap good stream) s) (h' : Steps cf s t) :
    ∃ kp kq c c', kp <+: kq ∧ kq <+: arrived cf.db snap stream ∧ s.cache = some c ∧ t.cache = some c' ∧
      (∀ k u, (c.get u k).2 = view kp k) ∧ ∀ k u, (c'.get u k).2 = view kq k := by
  have hi := inv_steps (inv_init cf (some Cache.new) snap good stream) h
  have hj := inv_steps hi h'
  obtain ⟨c, a1, a2⟩ := applied_view cf.db s.taken
  obtain ⟨c', b1, b2⟩ := applied_view cf.db t.taken
  rw [← assignments_all]
  exact ⟨_, _, c, c', assignments_prefix (taken_mono h'),
    assignments_prefix ⟨t.msgs ++ t.pending, by rw [← hj.fifo, List.append_assoc]⟩, hi.cache.trans a1, hj.cache.trans b1, a2, b2⟩

/-- C89, nothing is made up: a value `Get` shows was given to that key, in the snapshot or later. -/
theorem C89_no_invention (cf : Conf) (snap : List Tagged) (good : Bool) (stream : List Msg) (s : State)
    (h : Steps cf (.init (some Cache.new) snap good stream) s) (c : Cache) (hc : s.cache = some c) (u : Int) (k x : Bytes)
    (hg : (c.get u k).2 = .ok x) :
    ∃ m v, ((cf.db, m) ∈ snap ∨ cf.db = 0 ∧ m ∈ stream) ∧ AssignsTo (some m) k v ∧ x = canon v := by
  obtain ⟨kp, _, c1, _, hp, hq, e1, _, e3, _⟩ := C89_exact cf snap good stream s s h .refl
  cases e1.symm.trans hc
  rw [e3] at hg
  simp only [view] at hg
  cases hl : lastVal k kp with
  | none => rw [hl] at hg; cases hg
  | some v =>
    rw [hl] at hg
    simp only [GoRes.ok.injEq] at hg
    have hmem : ∀ {l : List (Bytes × Bytes)}, lastVal k l = some v → (k, v) ∈ l := by
      intro l
      induction l with
      | nil => intro h; cases h
      | cons z l ih =>
        obtain ⟨j, w⟩ := z
        intro h
        simp only [lastVal] at h
        cases hl : lastVal k l with
        | some y => rw [hl] at h; cases h; exact List.mem_cons_of_mem _ (ih hl)
        | none =>
          rw [hl] at h
          by_cases e : j = k
          · simp only [e, if_true, Option.some.injEq] at h; rw [e, h]; exact List.mem_cons_self
          · simp [e] at h
    have hin := (hp.trans hq).subset (hmem hl)
    rcases List.mem_append.mp hin with hin | hin
    · simp only [assignments, List.mem_filterMap] at hin
      obtain ⟨⟨d, m⟩, hx, hy⟩ := hin
      by_cases hd : d = cf.db
      · subst hd
        simp only [if_true] at hy
        exact ⟨m, v, .inl hx, (assignment_iff m k v).mp hy, hg.symm⟩
      · simp [hd] at hy
    · by_cases hd : cf.db = 0
      · rw [if_pos hd, List.mem_filterMap] at hin
        obtain ⟨m, hx, hy⟩ := hin
        exact ⟨m, v, .inr ⟨hd, hx⟩, (assignment_iff m k v).mp hy, hg.symm⟩
      · rw [if_neg hd] at hin
        cases hin

/-! ## C79 -/

theorem caught_up_taken {cf : Conf} {c : Local} {snap : List Tagged} {good : Bool} {stream : List Msg} {s : State}
    (h : Steps cf (.init c snap good stream) s) (hc : CaughtUp s) : s.taken = snap ++ forwarded stream := by
  have hi := inv_steps (inv_init cf c snap good stream) h
  obtain ⟨e1, e2, e3⟩ := hc
  have hp : s.pending = [] := by
    simp only [State.pending, e2]
    rcases e3 with e3 | e3 | e3 <;> rw [e3] <;> rfl
  rw [← hi.fifo, e1, hp]
  simp

/-- C79, exactly what a replica that has caught up shows, whatever the master sent: the last value assigned to the key, in
the snapshot or behind it, in the canonical text; and nothing where there was no assignment.  So a value the key got in any
other way is missing. -/
theorem C79_exact (cf : Conf) (snap : List Tagged) (good : Bool) (stream : List Msg) (s : State)
    (h : Steps cf (.init (some Cache.new) snap good stream) s) (hc : CaughtUp s) :
    ∃ c, s.cache = some c ∧ ∀ k u, (c.get u k).2 = view (arrived cf.db snap stream) k := by
  have hi := inv_steps (inv_init cf (some Cache.new) snap good stream) h
  obtain ⟨c, a1, a2⟩ := applied_view cf.db s.taken
  rw [caught_up_taken h hc, assignments_all] at a2
  exact ⟨c, hi.cache.trans a1, a2⟩

theorem no_assignment {name : Bytes} {args : List Bytes} (h : lower name ≠ b!"set") : assignment (command (name :: args)) = none := by
  match args with
  | [] => rfl
  | [_] => rfl
  | k :: v :: args =>
    simp only [lower] at h
    simp [command, assignment, str, h]

/-- The assignments in the commands of a snapshot are its strings; deadlines and other types make none. -/
theorem assignments_snapshot (db : Nat) (hdb : db < 2 ^ 63) (recs : List KeyRec) (hr : ∀ r ∈ recs, r.db < 2 ^ 63) :
    assignments (Int64.ofNat db) ((recs.flatMap keyCmds).map tagged) = stringsOf db recs := by
  induction recs with
  | nil => rfl
  | cons r recs ih =>
    have ih := ih (fun x hx => hr x (List.mem_cons_of_mem _ hx))
    rw [List.flatMap_cons, List.map_append, assignments_append, ih]
    have hne : Int64.ofNat r.db = Int64.ofNat db ↔ r.db = db := Rdb.ofNat_inj (hr r List.mem_cons_self) hdb
    have htail : assignments (Int64.ofNat db) ((match r.deadline with
        | some t => [(Int64.ofNat r.db, [b!"pExpire", r.key, natText t])]
        | none => []).map tagged) = [] := by
      cases r.deadline with
      | none => rfl
      | some t =>
        have : assignment (command [b!"pExpire", r.key, natText t]) = none := no_assignment (by decide +kernel)
        simp [assignments, tagged, this]
    have e : keyCmds r = [(Int64.ofNat r.db, recreate r.key r.data)] ++ (match r.deadline with
        | some t => [(Int64.ofNat r.db, [b!"pExpire", r.key, natText t])]
        | none => []) := rfl
    rw [e, List.map_append, assignments_append, htail, List.append_nil]
    have hno : ∀ name args, lower name ≠ b!"set" → assignments (Int64.ofNat db) [tagged (Int64.ofNat r.db, name :: args)] = [] := by
      intro name args h
      simp [assignments, tagged, no_assignment h]
    have key : assignments (Int64.ofNat db) ([(Int64.ofNat r.db, recreate r.key r.data)].map tagged) =
        match r.data with
        | .str s => if r.db = db then [(r.key, s)] else []
        | _ => [] := by
      cases hd : r.data with
      | str s =>
        have : assignment (command [b!"set", r.key, s]) = some (r.key, s) := by
          have e : (b!"set").map lowerLetter = b!"set" := by decide +kernel
          simp [command, assignment, str, e]
        simp only [recreate, List.map_cons, List.map_nil, assignments, tagged, hne, List.filterMap_cons, List.filterMap_nil]
        split <;> simp_all
      | list vs => exact hno b!"rPush" _ (by decide +kernel)
      | set vs => exact hno b!"sAdd" _ (by decide +kernel)
      | zset vs => exact hno b!"zAdd" _ (by decide +kernel)
      | hash vs => exact hno b!"hmSet" _ (by decide +kernel)
    rw [key, stringsOf]
    cases r.data with
    | str s => simp only; split <;> rfl
    | _ => rfl

/-- C79 from the bytes of the master to `Get`, for snapshots with values of all types, with deadlines and several databases, and for
whatever follows them: with a usable cache, in every schedule, once everything was taken `Get` shows the strings of database 0 of
the snapshot and what was assigned behind it, and nothing else.  Missing: the cache that `New` makes is not usable
(`C79_violated`); values of other types and deadlines do not arrive; encodings that `Load` does not support (C65). -/
theorem C79_all_types_partial (ord : MapOrd) (hord : ∀ n l, (ord n l).Perm l) (hdr : Bytes) (hh : Header hdr) (items : List Item)
    (hs : ∀ i ∈ items, i.Supported) (hv : ∀ i ∈ items, i.Valid) (sum : Bytes)
    (hl : (Rdb.bytes (filePieces hdr items) ++ sum).length ≤ bufSize)
    (w : World) (hd : w.dial = true) (hp : w.pingSent = true) (hsn : w.syncSent = true) (hc : w.create = true) (hro : w.reopen = true)
    (rest : Bytes) (hw : w.input.WF) (hi : w.input.flat = greeting (Rdb.bytes (filePieces hdr items) ++ sum) ++ rest) (o : Opts) :
    ∃ client snap r, new ord w o = (.ok (), client, snap, r) ∧ r.flat = rest ∧
      ∀ stream r', recvN stream.length r = (.ok stream, r') →
        ∀ s, Steps (conf 0) (.init (some Cache.new) snap true stream) s → CaughtUp s →
          ∃ c, s.cache = some c ∧ ∀ k t, (c.get t k).2 =
            match lastVal k (stringsOf 0 (meaning none 0 items) ++ stream.filterMap assignment) with
            | some v => .ok (canon v)
            | none => .err .keyNil := by
  obtain ⟨r, h1, h2, _⟩ := C85_snapshot_saved w (prepare o).addr (prepare o).rdbFile
    (by simp only [prepare]; split <;> simp_all) (by simp only [prepare]; split <;> simp_all) hd hp hsn hc _ rest
    (by simp only [bufSize] at hl; omega) hw hi
  obtain ⟨s', h3, h4⟩ := Rdb.C65_small_partial ord hord hdr hh items hs hv sum hl
  have hmr := Rdb.meaning_recs hs hv none 0 (by decide)
  refine ⟨⟨o, none⟩, s'.out.map tagged, r, ?_, h2, ?_⟩
  · have h3 : Rdb.load ord ⟨0, 0, [], 0, []⟩ ⟨[], [Rdb.bytes (filePieces hdr items) ++ sum]⟩ = (.ok (), s') := h3
    simp only [new, h1, hro, Option.getD_some, h3]
    simp
  · intro stream r' _ s hsteps hcu
    obtain ⟨c, e1, e2⟩ := C79_exact (conf 0) _ true stream s hsteps hcu
    refine ⟨c, e1, fun k t => ?_⟩
    rw [e2 k t, show (conf 0).db = 0 from rfl, arrived, if_pos rfl, h4]
    rw [show assignments 0 _ = assignments (Int64.ofNat 0) _ from rfl, assignments_snapshot 0 (by decide) _ (fun r hr => (hmr r hr).2.2)]
    rfl

/-- A hash in the snapshot; then SELECT, an assignment and INCR. -/
def mixedSnap : List Tagged := [(0, command [b!"hmSet", b!"h", b!"f", b!"1"]), (1, command [b!"set", b!"a", b!"1"])]
def mixedStream : List Msg := [command [b!"SELECT", b!"0"], command [b!"SET", b!"a", b!"007"], command [b!"INCR", b!"a"]]

/-- The replica catches up with it, and shows the assignment and nothing else. -/
example : ∃ s c, Steps (conf 0) (.init (some Cache.new) mixedSnap true mixedStream) s ∧ CaughtUp s ∧ s.crashed = false ∧ s.cache = some c ∧
    (c.get 0 b!"a").2 = .ok b!"7" ∧ (c.get 0 b!"h").2 = .err .keyNil := by
  have h1 := Steps.refl (cf := conf 0) (s := .init (some Cache.new) mixedSnap true mixedStream)
  have h2 := ((h1.tail (.load rfl rfl (by decide))).tail (.load rfl rfl (by decide))).tail (.loaded rfl rfl rfl)
  have h3 := (h2.tail (.handled rfl rfl rfl rfl rfl)).tail (.skip rfl rfl rfl (by decide))
  have h4 := ((h3.tail (.recvSend rfl rfl (by decide +kernel) (by decide))).tail (.failed rfl rfl rfl rfl rfl)).tail (.report rfl rfl (by decide))
  have h5 := (h4.tail (.drain rfl rfl rfl)).tail (.recvSend rfl rfl (by decide +kernel) (by decide))
  have h6 := (h5.tail (.handled rfl rfl rfl rfl rfl)).tail (.recvSend rfl rfl (by decide +kernel) (by decide))
  have h7 := (h6.tail (.failed rfl rfl rfl rfl rfl)).tail (.report rfl rfl (by decide))
  obtain ⟨c, e1, e2⟩ := C79_exact _ _ _ _ _ h7 ⟨rfl, rfl, .inl rfl⟩
  exact ⟨_, c, h7, ⟨rfl, rfl, .inl rfl⟩, rfl, e1, by rw [e2]; decide +kernel, by rw [e2]; decide +kernel⟩

end Verif.Repl

import Verif.Rdb.Damage

/-! # Properties of loading a snapshot (C65 - C69) -/

namespace Verif.Rdb

open Verif.Resp

/-- The state in which `Load` begins, with nothing sent. -/
def LState.init : LState := ⟨0, 0, [], 0, []⟩

/-- Go visits the map in the order of the list. -/
def idOrd : MapOrd := fun _ l => l

theorem idOrd_perm : ∀ n l, (idOrd n l).Perm l := fun _ _ => .refl _

/-! ## C65: one command per key -/

theorem LenEnc.pieces_pos (l : LenEnc) (n : Nat) : 0 < (bytes (l.pieces n)).length := by cases l <;> simp [LenEnc.pieces, Piece.bytes]

theorem Item.pieces_pos (i : Item) : 0 < (bytes i.pieces).length := by
  cases i <;> simp [Item.pieces, Piece.bytes]

theorem items_length (items : List Item) : items.length ≤ (bytes (items.flatMap Item.pieces)).length := by
  induction items with
  | nil => simp
  | cons i items ih =>
    have := i.pieces_pos
    simp only [List.flatMap_cons, bytes_append, List.length_append, List.length_cons]; omega

theorem load_at {ord : MapOrd} (hord : ∀ n l, (ord n l).Perm l) {hdr : Bytes} (hh : Header hdr) {items : List Item}
    (hs : ∀ i ∈ items, i.Supported) (hv : ∀ i ∈ items, i.Valid) {rest : Bytes} {r : Rd} (h : Holds (filePieces hdr items) rest r)
    {s : LState} {db : Nat} (hdb : s.db = Int64.ofNat db) :
    ∃ s', load ord s r = (.ok (), s') ∧ s'.out = s.out ++ (meaning none db items).flatMap keyCmds := by
  obtain ⟨r1, h1, h2⟩ := Holds.read h
  rw [hh] at h1
  have hl := items_length items
  have hfl := congrArg List.length h2.flat
  simp only [bytes_append, List.length_append] at hfl
  obtain ⟨s', g1, g2⟩ := loop_at hord hs hv h2 (fuel := r1.flat.length + 1) (by omega) (s := { s with expires := 0 }) (e := none) (db := db)
    (by simp) rfl hdb
  exact ⟨s', by simp only [load, h1, g1], g2⟩

/-- C65, full statement refuted: the empty string is a key in Redis; a file with such a key is
rejected. -/
theorem C65_violated : ¬ ∀ (hdr : Bytes) (items : List Item), Header hdr → (∀ i ∈ items, i.Valid) →
    (load idOrd .init (file (bytes (filePieces hdr items)))).1 = .ok () := by
  intro h
  have := h b!"REDIS0009" [.entry (.raw .b6 []) (.str (.raw .b6 b!"v"))] rfl
    (by simp [Item.Valid, StrEnc.Valid, Val.Valid, LenEnc.limit])
  revert this
  decide +kernel

/-- C65 for files made of supported records (`Item.Supported`; non-empty keys, lengths of one or two
bytes, strings, sets, quicklists, ziplist lists and hashes of small elements, integer sets, one-field
zipmaps), of which no plain string crosses the end of a block: whatever the order in which Go visits
maps, loading succeeds and sends exactly the commands that recreate the keys, in the order of the
file, each with its database and followed by the deadline if there is one.  Missing: the other
records, see C62, C63, C64, C68, C70, C71, C72. -/
theorem C65_supported_partial (ord : MapOrd) (hord : ∀ n l, (ord n l).Perm l) (hdr : Bytes) (hh : Header hdr) (items : List Item)
    (hs : ∀ i ∈ items, i.Supported) (hv : ∀ i ∈ items, i.Valid) (rest : Bytes) (r : Rd) (h : Holds (filePieces hdr items) rest r)
    (s : LState) (db : Nat) (hdb : s.db = Int64.ofNat db) :
    ∃ s', load ord s r = (.ok (), s') ∧
      s'.out = s.out ++ (meaning none db items).flatMap fun k =>
        (Int64.ofNat k.db, recreate k.key k.data) ::
          (match k.deadline with
           | some t => [(Int64.ofNat k.db, [b!"pExpire", k.key, natText t])]
           | none => []) := load_at hord hh hs hv h hdb

/-- C65 for a file that fits into the buffer: no condition on blocks is left. -/
theorem C65_small_partial (ord : MapOrd) (hord : ∀ n l, (ord n l).Perm l) (hdr : Bytes) (hh : Header hdr) (items : List Item)
    (hs : ∀ i ∈ items, i.Supported) (hv : ∀ i ∈ items, i.Valid) (sum : Bytes)
    (hl : (bytes (filePieces hdr items) ++ sum).length ≤ bufSize) :
    ∃ s', load ord .init (file (bytes (filePieces hdr items) ++ sum)) = (.ok (), s') ∧
      s'.out = (meaning none 0 items).flatMap keyCmds := by
  have := load_at hord hh hs hv (holds_small (filePieces hdr items) sum hl) (s := .init) (db := 0) rfl
  simpa [LState.init, file] using this

/-- A file with strings, a deadline, a second database and an integer set. -/
def sampleItems : List Item :=
  [.aux (.raw .b6 b!"redis-ver") (.raw .b6 b!"5.0"), .select .b6 0, .resize .b6 2 .b6 1,
   .expireMs 1700000000000, .entry (.raw .b6 b!"a") (.str (.int8 (-5))),
   .select .b6 3, .entry (.raw .b6 b!"b") (.intset (.raw .b6 (encIntset 2 [1, 300])) 2 [1, 300]),
   .entry (.raw .b6 b!"c") (.set .b6 [.raw .b6 b!"x", .int16 777])]

theorem sampleItems_ok : (∀ i ∈ sampleItems, i.Supported) ∧ (∀ i ∈ sampleItems, i.Valid) := by
  constructor
  · simp [sampleItems, Item.Supported, StrEnc.Supported, LenEnc.Supported, Val.Supported, IntsOk, StrEnc.value]
  · simp [sampleItems, Item.Valid, StrEnc.Valid, LenEnc.limit, Val.Valid, Signed, StrEnc.value]
    decide

example : ∃ s', load idOrd .init (file (bytes (filePieces b!"REDIS0009" sampleItems) ++ [1, 2, 3, 4, 5, 6, 7, 8])) = (.ok (), s') ∧
    s'.out = [(0, [b!"set", b!"a", b!"-5"]), (0, [b!"pExpire", b!"a", b!"1700000000000"]),
      (3, [b!"sAdd", b!"b", b!"1", b!"300"]), (3, [b!"sAdd", b!"c", b!"x", b!"777"])] := by
  obtain ⟨s', h1, h2⟩ := C65_small_partial idOrd idOrd_perm b!"REDIS0009" rfl sampleItems sampleItems_ok.1 sampleItems_ok.2
    [1, 2, 3, 4, 5, 6, 7, 8] (by decide +kernel)
  exact ⟨s', h1, by rw [h2]; decide +kernel⟩

/-! ## C66: deadlines -/

/-- C66, full statement refuted: a deadline in seconds is multiplied in 32 bits. -/
theorem C66_violated : ¬ ∀ (t : Nat), 0 < t → t < 2 ^ 32 →
    (load idOrd .init (file (bytes (filePieces b!"REDIS0009" [.expireS t, .entry (.raw .b6 b!"k") (.str (.raw .b6 b!"v"))])))).2.out =
      [(0, [b!"set", b!"k", b!"v"]), (0, [b!"pExpire", b!"k", natText (1000 * t)])] := by
  intro h
  have := h 1700000000 (by decide) (by decide)
  revert this
  decide +kernel

/-- C66 for deadlines in milliseconds, and in seconds while they fit 32 bits as milliseconds (up to
1970-02-19): one expire command, behind the command of the next key and for that key, with the
recorded time in milliseconds; none for the keys around it.  Missing: `C66_violated`, and
`C66_violated_relative` in Rdb/PropsDeadline. -/
theorem C66_next_key_partial (ord : MapOrd) (hord : ∀ n l, (ord n l).Perm l) (hdr : Bytes) (hh : Header hdr) (e : Item) (t : Nat)
    (he : e = .expireMs t ∨ ∃ u, e = .expireS u ∧ t = 1000 * u ∧ t < 2 ^ 32) (ht : 0 < t ∧ t < 2 ^ 63) (k k' : StrEnc) (v v' : Val)
    (items : List Item) (hs : ∀ i ∈ [e, .entry k v, .entry k' v'] ++ items, i.Supported)
    (hv : ∀ i ∈ [e, .entry k v, .entry k' v'] ++ items, i.Valid) (rest : Bytes) (r : Rd)
    (h : Holds (filePieces hdr ([e, .entry k v, .entry k' v'] ++ items)) rest r) :
    ∃ s', load ord .init r = (.ok (), s') ∧
      s'.out = [(0, recreate k.value v.data), (0, [b!"pExpire", k.value, natText t]), (0, recreate k'.value v'.data)] ++
        (meaning none 0 items).flatMap keyCmds := by
  obtain ⟨s', h1, h2⟩ := load_at hord hh hs hv h (s := .init) (db := 0) rfl
  refine ⟨s', h1, ?_⟩
  rw [h2]
  rcases he with rfl | ⟨u, rfl, rfl, _⟩ <;> simp [LState.init, meaning, keyCmds]

example : ∃ s', load idOrd .init (file (bytes (filePieces b!"REDIS0009" ([.expireMs 5000, .entry (.raw .b6 b!"a") (.str (.raw .b6 b!"1")),
      .entry (.raw .b6 b!"b") (.str (.raw .b6 b!"2"))] ++ [])) ++ [])) = (.ok (), s') ∧
    s'.out = [(0, recreate b!"a" (.str b!"1")), (0, [b!"pExpire", b!"a", natText 5000]), (0, recreate b!"b" (.str b!"2"))] ++ [] :=
  C66_next_key_partial idOrd idOrd_perm b!"REDIS0009" rfl (.expireMs 5000) 5000 (.inl rfl) (by omega) (.raw .b6 b!"a") (.raw .b6 b!"b")
    (.str (.raw .b6 b!"1")) (.str (.raw .b6 b!"2")) []
    (by simp [Item.Supported, StrEnc.Supported, LenEnc.Supported, Val.Supported, StrEnc.value])
    (by simp [Item.Valid, StrEnc.Valid, LenEnc.limit, Val.Valid])
    [] _ (holds_small _ _ (by decide +kernel))

/-! ## C67: damaged files -/

theorem loadRec_shrinks {ord : MapOrd} {n : Nat} {r r1 : Rd} {x : Rec} (hw : r.WF) (h : loadRec ord n r = (.ok x, r1)) :
    r1.flat.length < r.flat.length ∧ r1.WF := by
  obtain ⟨h1, h2⟩ := readByte_flat r hw
  rw [loadRec_eq] at h
  rcases hb : readByte r with ⟨y, r2⟩
  rw [hb] at h h1 h2
  cases y with
  | err e => cases h
  | panic => cases h
  | ok b =>
    rw [andThen_ok] at h
    have hm := ((nice_recTail ord n b).mono r2 h2).length_le
    have hw2 := (nice_recTail ord n b).wf r2 h2
    rw [h] at hm hw2
    cases hf : r.flat with
    | nil => rw [hf] at h1; simp [flatByte] at h1
    | cons c cs =>
      rw [hf] at h1
      simp [flatByte] at h1
      simp only at hm
      rw [← h1.2]
      exact ⟨by simp; omega, hw2⟩

theorem loadLoop_not_stuck {ord : MapOrd} {fuel : Nat} {s : LState} {r : Rd} (hw : r.WF) (hf : r.flat.length < fuel) :
    (loadLoop ord fuel s r).1 ≠ .err .stuck := by
  induction fuel generalizing s r with
  | zero => omega
  | succ fuel ih =>
    have hl := (nice_loadRec ord s.out.length).live r hw
    simp only [loadLoop]
    rcases hx : loadRec ord s.out.length r with ⟨y, r1⟩
    rw [hx] at hl
    cases y with
    | err e => simpa using hl
    | panic => simp
    | ok x =>
      obtain ⟨h1, h2⟩ := loadRec_shrinks hw hx
      simp only
      cases hap : s.apply x with
      | next s1 => exact ih h2 (by omega)
      | ret s1 => simp
      | fail s1 e =>
        simp only
        cases x with
        | aux k v =>
          simp only [LState.apply] at hap
          split at hap
          · cases hap
          · split at hap
            · split at hap
              · cases hap
              · cases hap; simp
            · cases hap
        | entry key o => cases o <;> cases hap
        | expire t => cases hap
        | ignored => cases hap
        | eof => cases hap
        | select db => cases hap

/-- C67, termination: on every file, read in any blocks, the bound on the number of turns in the
model is never reached: every turn of the loop reads at least a byte. -/
theorem C67_terminates_partial (ord : MapOrd) (s : LState) (r : Rd) (hw : r.WF) : (load ord s r).1 ≠ .err .stuck := by
  have h1 := (nice_read 9).live r hw
  have h2 := (nice_read 9).wf r hw
  simp only [load]
  rcases hx : Resp.read 9 r with ⟨y, r1⟩
  rw [hx] at h1 h2
  cases y with
  | err e => simpa using h1
  | panic => simp
  | ok d => exact loadLoop_not_stuck h2 (by omega)

/-- C67, full statement refuted: this file is accepted, though it contains no end marker. -/
theorem C67_violated : ¬ ∀ (f : Bytes), (load idOrd .init (file f)).1 = .ok () → (255 : UInt8) ∈ f := by
  intro h
  have := h (b!"REDIS0009" ++ [6, 1, 107]) (by decide +kernel)
  revert this
  decide +kernel

/-- C67, another way it fails: after a record of a module or a stream all the rest of the file is
ignored and success is reported. -/
theorem C67_violated_rest (hdr : Bytes) (hh : Header hdr) (t : UInt8) (ht : t = 6 ∨ t = 7) (rest : Bytes)
    (hl : (hdr ++ ([t, 1, 107] ++ rest)).length ≤ bufSize) : (load idOrd .init (file (hdr ++ ([t, 1, 107] ++ rest)))).1 = .ok () := by
  have h := holds_small [.raw hdr, .one t, .one 1, .raw [107]] rest (by simpa [Piece.bytes] using hl)
  have e : file (hdr ++ ([t, 1, 107] ++ rest)) = ⟨[], [bytes [.raw hdr, .one t, .one 1, .raw [107]] ++ rest]⟩ := by
    simp [file, Piece.bytes]
  rw [e]
  obtain ⟨r1, h1, h⟩ := Holds.read h
  rw [hh] at h1
  obtain ⟨r2, h2, h⟩ := Holds.byte h
  obtain ⟨r3, h3, h⟩ := loadString_at (e := .raw .b6 [107]) (ps := []) (.inl rfl) (by simp [StrEnc.Valid, LenEnc.limit]) h
  have hn : ¬ ([107] : Bytes) = [] := by simp
  simp only [load, h1]
  simp only [loadLoop, loadRec, h2, andThen_ok]
  rcases ht with rfl | rfl
  · rw [if_neg (by decide), if_neg (by decide), if_neg (by decide), if_neg (by decide), if_neg (by decide), if_neg (by decide),
      if_neg (by decide), if_neg (by decide), if_neg (by decide), h3]
    simp [StrEnc.value, loadObj, LState.apply]
  · rw [if_neg (by decide), if_neg (by decide), if_neg (by decide), if_neg (by decide), if_neg (by decide), if_neg (by decide),
      if_neg (by decide), if_neg (by decide), if_neg (by decide), h3]
    simp [StrEnc.value, loadObj, LState.apply]

example : (load idOrd .init (file (b!"REDIS0009" ++ ([7, 1, 107] ++ [0, 1, 97, 1, 98, 255])))).1 = .ok () :=
  C67_violated_rest b!"REDIS0009" rfl 7 (.inr rfl) _ (by decide)

/-- The loop went from one state to another, reading whole records. -/
inductive Trace (ord : MapOrd) : LState → Rd → LState → Rd → Prop where
  | nil (s : LState) (r : Rd) : Trace ord s r s r
  | cons {s s1 s2 : LState} {r r1 r2 : Rd} {x : Rec} : loadRec ord s.out.length r = (.ok x, r1) → s.apply x = .next s1 →
      Trace ord s1 r1 s2 r2 → Trace ord s r s2 r2

theorem andThen_eq_ok {α β : Type} {x : RRes α × Rd} {f : α → Rd → RRes β × Rd} {b : β} {r : Rd} (h : andThen x f = (.ok b, r)) :
    ∃ a r1, x = (.ok a, r1) ∧ f a r1 = (.ok b, r) := by
  obtain ⟨y, r1⟩ := x
  cases y with
  | ok a => exact ⟨a, r1, rfl, h⟩
  | err e => cases h
  | panic => cases h

/-- Only four type bytes end the loop. -/
theorem recTail_kind {ord : MapOrd} {n : Nat} {op : UInt8} {r r1 : Rd} {x : Rec} (h : recTail ord n op r = (.ok x, r1)) :
    (x = .eof ↔ op = 255) ∧ ((∃ k, x = .entry k .stop) ↔ op = 6 ∨ op = 7 ∨ op = 15) := by
  unfold recTail at h
  by_cases c1 : op = 253
  · subst c1; rw [if_pos rfl] at h
    obtain ⟨a, r2, _, h⟩ := andThen_eq_ok h
    cases h; simp
  rw [if_neg c1] at h
  by_cases c2 : op = 252
  · subst c2; rw [if_pos rfl] at h
    obtain ⟨a, r2, _, h⟩ := andThen_eq_ok h
    cases h; simp
  rw [if_neg c2] at h
  by_cases c3 : op = 249
  · subst c3; rw [if_pos rfl] at h
    obtain ⟨a, r2, _, h⟩ := andThen_eq_ok h
    cases h; simp
  rw [if_neg c3] at h
  by_cases c4 : op = 248
  · subst c4; rw [if_pos rfl] at h
    obtain ⟨a, r2, _, h⟩ := andThen_eq_ok h
    cases h; simp
  rw [if_neg c4] at h
  by_cases c5 : op = 255
  · subst c5; rw [if_pos rfl] at h
    cases h; simp
  rw [if_neg c5] at h
  by_cases c6 : op = 254
  · subst c6; rw [if_pos rfl] at h
    obtain ⟨a, r2, _, h⟩ := andThen_eq_ok h
    cases h; simp
  rw [if_neg c6] at h
  by_cases c7 : op = 251
  · subst c7; rw [if_pos rfl] at h
    obtain ⟨a, r2, _, h⟩ := andThen_eq_ok h
    obtain ⟨a, r2, _, h⟩ := andThen_eq_ok h
    cases h; simp
  rw [if_neg c7] at h
  by_cases c8 : op = 250
  · subst c8; rw [if_pos rfl] at h
    obtain ⟨a, r2, _, h⟩ := andThen_eq_ok h
    obtain ⟨a, r2, _, h⟩ := andThen_eq_ok h
    cases h; simp
  rw [if_neg c8] at h
  by_cases c9 : op = 247
  · subst c9; rw [if_pos rfl] at h
    obtain ⟨a, r2, _, h⟩ := andThen_eq_ok h
    obtain ⟨a, r2, _, h⟩ := andThen_eq_ok h
    split at h
    · obtain ⟨a, r2, _, h⟩ := andThen_eq_ok h
      obtain ⟨a, r2, _, h⟩ := andThen_eq_ok h
      split at h
      · cases h; simp
      · cases h
    · cases h
  rw [if_neg c9] at h
  obtain ⟨key, r2, _, h⟩ := andThen_eq_ok h
  split at h
  · cases h
  obtain ⟨o, r3, ho, h⟩ := andThen_eq_ok h
  cases h
  refine ⟨by simp [c5], ?_⟩
  have key : o = .stop ↔ op = 6 ∨ op = 7 ∨ op = 15 := by
    unfold loadObj at ho
    by_cases d0 : op = 0
    · subst d0; rw [if_pos rfl] at ho
      obtain ⟨a, r2, _, ho⟩ := andThen_eq_ok ho
      cases ho; simp
    rw [if_neg d0] at ho
    by_cases d1 : op = 1
    · subst d1; rw [if_pos rfl] at ho
      obtain ⟨a, r2, _, ho⟩ := andThen_eq_ok ho
      obtain ⟨a, r2, _, ho⟩ := andThen_eq_ok ho
      cases ho; simp
    rw [if_neg d1] at ho
    by_cases d2 : op = 2
    · subst d2; rw [if_pos rfl] at ho
      obtain ⟨a, r2, _, ho⟩ := andThen_eq_ok ho
      obtain ⟨a, r2, _, ho⟩ := andThen_eq_ok ho
      cases ho; simp
    rw [if_neg d2] at ho
    by_cases d3 : op = 3 ∨ op = 5
    · rw [if_pos d3] at ho
      obtain ⟨a, r2, _, ho⟩ := andThen_eq_ok ho
      obtain ⟨a, r2, _, ho⟩ := andThen_eq_ok ho
      cases ho
      rcases d3 with rfl | rfl <;> simp
    rw [if_neg d3] at ho
    by_cases d4 : op = 4
    · subst d4; rw [if_pos rfl] at ho
      obtain ⟨a, r2, _, ho⟩ := andThen_eq_ok ho
      obtain ⟨a, r2, _, ho⟩ := andThen_eq_ok ho
      cases ho; simp
    rw [if_neg d4] at ho
    by_cases d5 : op = 14
    · subst d5; rw [if_pos rfl] at ho
      obtain ⟨a, r2, _, ho⟩ := andThen_eq_ok ho
      obtain ⟨a, r2, _, ho⟩ := andThen_eq_ok ho
      cases ho; simp
    rw [if_neg d5] at ho
    by_cases d6 : op = 9
    · subst d6; rw [if_pos rfl] at ho
      obtain ⟨a, r2, _, ho⟩ := andThen_eq_ok ho
      obtain ⟨a, r2, _, ho⟩ := andThen_eq_ok ho
      cases ho; simp
    rw [if_neg d6] at ho
    by_cases d7 : op = 11
    · subst d7; rw [if_pos rfl] at ho
      obtain ⟨a, r2, _, ho⟩ := andThen_eq_ok ho
      obtain ⟨a, r2, _, ho⟩ := andThen_eq_ok ho
      cases ho; simp
    rw [if_neg d7] at ho
    by_cases d8 : op = 12
    · subst d8; rw [if_pos rfl] at ho
      obtain ⟨a, r2, _, ho⟩ := andThen_eq_ok ho
      obtain ⟨a, r2, _, ho⟩ := andThen_eq_ok ho
      cases ho; simp
    rw [if_neg d8] at ho
    by_cases d9 : op = 13
    · subst d9; rw [if_pos rfl] at ho
      obtain ⟨a, r2, _, ho⟩ := andThen_eq_ok ho
      obtain ⟨a, r2, _, ho⟩ := andThen_eq_ok ho
      cases ho; simp
    rw [if_neg d9] at ho
    by_cases d10 : op = 10
    · subst d10; rw [if_pos rfl] at ho
      obtain ⟨a, r2, _, ho⟩ := andThen_eq_ok ho
      obtain ⟨a, r2, _, ho⟩ := andThen_eq_ok ho
      cases ho; simp
    rw [if_neg d10] at ho
    by_cases d11 : op = 15
    · subst d11; rw [if_pos rfl] at ho
      obtain ⟨a, r2, _, ho⟩ := andThen_eq_ok ho
      cases ho; simp
    rw [if_neg d11] at ho
    by_cases d12 : op = 6 ∨ op = 7
    · rw [if_pos d12] at ho
      cases ho
      rcases d12 with rfl | rfl <;> simp
    rw [if_neg d12] at ho
    cases ho
    constructor
    · intro h; cases h
    · rintro (h | h | h)
      · exact absurd (.inl h) d12
      · exact absurd (.inr h) d12
      · exact absurd h d11
  rw [← key]
  constructor
  · rintro ⟨k, hk⟩; cases hk; rfl
  · intro h; subst h; exact ⟨_, rfl⟩

theorem apply_ret {s s1 : LState} {x : Rec} (h : s.apply x = .ret s1) : x = .eof ∨ ∃ k, x = .entry k .stop := by
  cases x with
  | eof => exact .inl rfl
  | entry k o =>
    cases o with
    | stop => exact .inr ⟨k, rfl⟩
    | cmd a => cases h
    | unknown => cases h
  | aux k v =>
    simp only [LState.apply] at h
    split at h
    · cases h
    · split at h
      · split at h <;> cases h
      · cases h
  | expire t => cases h
  | ignored => cases h
  | select db => cases h

theorem loadLoop_ok {ord : MapOrd} {fuel : Nat} {s s' : LState} {r : Rd} (hw : r.WF) (h : loadLoop ord fuel s r = (.ok (), s')) :
    ∃ s1 r1 b rest, Trace ord s r s1 r1 ∧ r1.flat = b :: rest ∧ (b = 255 ∨ b = 6 ∨ b = 7 ∨ b = 15) := by
  induction fuel generalizing s r with
  | zero => cases h
  | succ fuel ih =>
    simp only [loadLoop] at h
    rcases hx : loadRec ord s.out.length r with ⟨y, r1⟩
    rw [hx] at h
    cases y with
    | err e => cases h
    | panic => cases h
    | ok x =>
      simp only at h
      obtain ⟨_, h2⟩ := loadRec_shrinks hw hx
      cases hap : s.apply x with
      | next s1 =>
        rw [hap] at h
        obtain ⟨s2, r2, b, rest, t1, t2, t3⟩ := ih h2 h
        exact ⟨s2, r2, b, rest, .cons hx hap t1, t2, t3⟩
      | fail s1 e => rw [hap] at h; cases h
      | ret s1 =>
        rw [loadRec_eq] at hx
        obtain ⟨op, r2, hb, ht⟩ := andThen_eq_ok hx
        obtain ⟨k1, k2⟩ := recTail_kind ht
        obtain ⟨g1, _⟩ := readByte_flat r hw
        rw [hb] at g1
        have : ∃ rest, r.flat = op :: rest := by
          cases hf : r.flat with
          | nil => rw [hf] at g1; simp [flatByte] at g1
          | cons c cs => rw [hf] at g1; simp [flatByte] at g1; exact ⟨cs, by rw [g1.1]⟩
        obtain ⟨rest, hrest⟩ := this
        refine ⟨s, r, op, rest, .nil _ _, hrest, ?_⟩
        rcases apply_ret hap with hx | hx
        · exact .inl (k1.mp hx)
        · rcases k2.mp hx with h | h | h <;> simp [h]

/-- C67: on every file, if loading succeeds then the loop, having read whole records, reached the
end marker or the record of a module (types 6, 7) or of a stream (15).  Missing: `C67_violated`. -/
theorem C67_marker_partial (ord : MapOrd) (s s' : LState) (r : Rd) (hw : r.WF) (h : load ord s r = (.ok (), s')) :
    ∃ hdr r0 s1 r1 b rest, Resp.read 9 r = (.ok hdr, r0) ∧ Trace ord { s with expires := 0 } r0 s1 r1 ∧ r1.flat = b :: rest ∧
      (b = 255 ∨ b = 6 ∨ b = 7 ∨ b = 15) := by
  have h2 := (nice_read 9).wf r hw
  simp only [load] at h
  rcases hx : Resp.read 9 r with ⟨y, r1⟩
  rw [hx] at h h2
  cases y with
  | err e => cases h
  | panic => cases h
  | ok d =>
    obtain ⟨s1, r2, b, rest, t1, t2, t3⟩ := loadLoop_ok h2 h
    exact ⟨d, r1, s1, r2, b, rest, rfl, t1, t2, t3⟩

example : ∃ s', load idOrd .init (file (b!"REDIS0009" ++ [255])) = (.ok (), s') :=
  ⟨(load idOrd .init (file (b!"REDIS0009" ++ [255]))).2, by decide +kernel⟩

theorem trace_at {ord : MapOrd} (hord : ∀ n l, (ord n l).Perm l) {items : List Item} (hs : ∀ i ∈ items, i.Supported)
    (hv : ∀ i ∈ items, i.Valid) {rest : Bytes} {r : Rd} (h : Holds (items.flatMap Item.pieces ++ [.one 255]) rest r) (s : LState) :
    ∃ s1 r1 r2, Trace ord s r s1 r1 ∧ loadRec ord s1.out.length r1 = (.ok .eof, r2) ∧ r2.flat = rest := by
  induction items generalizing r s with
  | nil =>
    obtain ⟨r1, h1, h2⟩ := Holds.byte h
    exact ⟨s, r, r1, .nil _ _, by simp [loadRec, h1], by simpa using h2.flat⟩
  | cons it items ih =>
    simp only [List.flatMap_cons, List.append_assoc] at h
    obtain ⟨r1, h1, g⟩ := loadRec_at hord s.out.length (hs it (by simp)) (hv it (by simp)) h
    have hn : ∃ s1, s.apply (recOf it) = .next s1 := by
      have hv1 := hv it (by simp)
      cases it with
      | aux k v =>
        simp only [recOf, LState.apply]
        by_cases hk : k.value = b!"repl-id"
        · rw [if_pos hk]; exact ⟨_, rfl⟩
        · rw [if_neg hk]
          by_cases hk2 : k.value = b!"repl-offset"
          · rw [if_pos hk2]
            obtain ⟨x, hx⟩ := Option.isSome_iff_exists.mp (hv1.2.2 hk2)
            simp only [hx]
            exact ⟨_, rfl⟩
          · rw [if_neg hk2]; exact ⟨_, rfl⟩
      | expireS t => exact ⟨_, rfl⟩
      | expireMs t => exact ⟨_, rfl⟩
      | freq b => exact ⟨_, rfl⟩
      | idle l k => exact ⟨_, rfl⟩
      | select l k => exact ⟨_, rfl⟩
      | resize l1 n1 l2 n2 => exact ⟨_, rfl⟩
      | entry k v => exact ⟨_, rfl⟩
    obtain ⟨s1, hs1⟩ := hn
    obtain ⟨s2, r2, r3, t1, t2, t3⟩ := ih (fun i h => hs i (List.mem_cons_of_mem _ h)) (fun i h => hv i (List.mem_cons_of_mem _ h)) g s1
    exact ⟨s2, r2, r3, .cons h1 hs1 t1, t2, t3⟩

/-- Nothing can be loaded from the end of a file. -/
theorem loadLoop_empty {ord : MapOrd} {fuel : Nat} {s : LState} {r : Rd} (hw : r.WF) (h : r.flat = []) :
    (loadLoop ord fuel s r).1 ≠ .ok () := by
  cases fuel with
  | zero => simp [loadLoop]
  | succ fuel =>
    obtain ⟨g1, _⟩ := readByte_flat r hw
    rw [h] at g1
    rcases hb : readByte r with ⟨y, r1⟩
    rw [hb] at g1
    simp [flatByte] at g1
    simp [loadLoop, loadRec, hb, g1.1]

theorem loadLoop_cut {ord : MapOrd} {s s1 : LState} {r r1 r2 r' : Rd} (ht : Trace ord s r s1 r1)
    (he : loadRec ord s1.out.length r1 = (.ok .eof, r2)) (h2 : r2.flat = []) (hw : r.WF) (hw' : r'.WF) (h : Tr r' r) (fuel : Nat) :
    (loadLoop ord fuel s r').1 ≠ .ok () := by
  induction ht generalizing r' fuel with
  | nil s r =>
    cases fuel with
    | zero => simp [loadLoop]
    | succ fuel =>
      rcases readByte_tr h with ⟨b, t', t, e1, e2, e3⟩ | ⟨t', e1⟩
      · rw [loadRec_eq, e2, andThen_ok] at he
        have hb := (recTail_kind he).1.mp rfl
        subst hb
        simp [recTail] at he
        subst he
        have := e3.flat
        rw [h2] at this
        simp at this
      · simp [loadLoop, loadRec, e1]
  | @cons s sa sb r ra rb x hx hap _ ih =>
    cases fuel with
    | zero => simp [loadLoop]
    | succ fuel =>
      rcases readByte_tr h with ⟨b, t', t, e1, e2, e3⟩ | ⟨t', e1⟩
      · have wt' : t'.WF := by have := (readByte_flat r' hw').2; rw [e1] at this; exact this
        have wt : t.WF := by have := (readByte_flat r hw).2; rw [e2] at this; exact this
        have hxx := hx
        rw [loadRec_eq, e2, andThen_ok] at hx
        have hk := recTail_kind hx
        have hc := (nice_recTail ord s.out.length b).cut t' t wt' wt e3
        have hwt := (nice_recTail ord s.out.length b).wf t' wt'
        rw [hx] at hc
        have hl : loadRec ord s.out.length r' = recTail ord s.out.length b t' := by rw [loadRec_eq, e1, andThen_ok]
        simp only [loadLoop, hl]
        rcases hy : recTail ord s.out.length b t' with ⟨y, u⟩
        rw [hy] at hc hwt
        cases y with
        | err e => simp
        | panic => simp
        | ok x' =>
          rcases hc with ⟨a, c1, c2, c3⟩ | hc | hc
          · simp only [GoRes.ok.injEq] at c1 c2
            subst c1 c2
            simp only [hap]
            exact ih he (loadRec_shrinks hw hxx).2 hwt c3 fuel
          · exact absurd rfl (hc x')
          · have hk' := recTail_kind hy
            simp only
            cases hap' : s.apply x' with
            | next s1 => exact loadLoop_empty hwt hc
            | fail s1 e => simp
            | ret s1 =>
              exfalso
              rcases apply_ret hap' with e | e
              · rw [hk.1.mpr (hk'.1.mp e)] at hap
                cases hap
              · obtain ⟨k, hk3⟩ := hk.2.mpr (hk'.2.mp e)
                rw [hk3] at hap
                cases hap
      · simp [loadLoop, loadRec, e1]

/-- C67 for a supported file (as in `C65_supported_partial`) that was cut off anywhere, even within
the header or just before the end marker: loading never reports success. -/
theorem C67_truncated_partial (ord : MapOrd) (hord : ∀ n l, (ord n l).Perm l) (hdr : Bytes) (hh : Header hdr) (items : List Item)
    (hs : ∀ i ∈ items, i.Supported) (hv : ∀ i ∈ items, i.Valid) (h : Holds (filePieces hdr items) [] (file (bytes (filePieces hdr items))))
    (p q : Bytes) (hp : bytes (filePieces hdr items) = p ++ q) (hq : q ≠ []) (s : LState) : (load ord s (file p)).1 ≠ .ok () := by
  have ht : Tr (file p) (file (p ++ q)) := .inl ⟨rfl, p, q, rfl, rfl, hq⟩
  rw [hp] at h
  obtain ⟨r1, h1, h2⟩ := Holds.read h
  rw [hh] at h1
  obtain ⟨s1, r2, r3, t1, t2, t3⟩ := trace_at hord hs hv h2 { s with expires := 0 }
  have hc := (nice_read 9).cut _ _ (file_wf p) (file_wf _) ht
  have hw := (nice_read 9).wf _ (file_wf p)
  rw [h1] at hc
  simp only [load]
  rcases hy : Resp.read 9 (file p) with ⟨y, u⟩
  rw [hy] at hc hw
  cases y with
  | err e => simp
  | panic => simp
  | ok d =>
    rcases hc with ⟨a, c1, c2, c3⟩ | hc | hc
    · exact loadLoop_cut t1 t2 t3 h2.wf hw c3 _
    · exact absurd rfl (hc d)
    · exact loadLoop_empty hw hc

example (p q : Bytes) (hp : bytes (filePieces b!"REDIS0009" sampleItems) = p ++ q) (hq : q ≠ []) :
    (load idOrd .init (file p)).1 ≠ .ok () :=
  C67_truncated_partial idOrd idOrd_perm b!"REDIS0009" rfl sampleItems sampleItems_ok.1 sampleItems_ok.2
    (by have := holds_small (filePieces b!"REDIS0009" sampleItems) [] (by decide +kernel); simpa [file] using this) p q hp hq _

/-! ## C68: the right commands -/

theorem pairs_pairs (vs : List (Bytes × Bytes)) : pairs (vs.flatMap fun p => [p.1, p.2]) = vs := by
  induction vs with
  | nil => rfl
  | cons v vs ih => simp [pairs, ih]

theorem flat_even (vs : List (Bytes × Bytes)) : (vs.flatMap fun p => [p.1, p.2]).length % 2 = 0 := by
  induction vs with
  | nil => rfl
  | cons v vs ih => simp only [List.flatMap_cons, List.length_append, List.length_cons, List.length_nil]; omega

/-- Whether a value has elements. -/
def Data.NonEmpty : Data → Prop
  | .str _ => True
  | .list vs | .set vs => vs ≠ []
  | .zset vs => vs ≠ []
  | .hash vs => vs ≠ []

/-- Executing `recreate` where the key is absent creates the value, and changes no other key. -/
theorem exec_recreate (now : Int) (d : SDb) (key : Bytes) (hk : d.val key = none) (x : Data) (hne : x.NonEmpty)
    (hz : ∀ vs, x ≠ .zset vs) : (exec now d (recreate key x)).val = upd d.val key (some x.live) := by
  cases x with
  | str s =>
    have hl : lower b!"set" = b!"set" := by decide
    simp only [recreate, exec, hl, if_true, Data.live]
  | list vs =>
    have hl : lower b!"rPush" = b!"rpush" := by decide
    cases vs with
    | nil => exact absurd rfl hne
    | cons v vs =>
      simp only [recreate, exec, hl, Data.live]
      rw [if_neg (by decide), if_pos trivial]
      simp only [hk]
  | set vs =>
    have hl : lower b!"sAdd" = b!"sadd" := by decide
    cases vs with
    | nil => exact absurd rfl hne
    | cons v vs =>
      simp only [recreate, exec, hl, Data.live]
      rw [if_neg (by decide), if_neg (by decide), if_neg (by decide), if_pos trivial]
      simp only [hk]
  | zset vs => exact absurd rfl (hz vs)
  | hash vs =>
    have hl : lower b!"hmSet" = b!"hmset" := by decide
    cases vs with
    | nil => exact absurd rfl hne
    | cons v vs =>
      have he := flat_even (v :: vs)
      have hp := pairs_pairs (v :: vs)
      simp only [List.flatMap_cons, List.cons_append, List.nil_append] at he hp
      simp only [recreate, exec, hl, Data.live, List.flatMap_cons, List.cons_append, List.nil_append]
      rw [if_neg (by decide), if_neg (by decide), if_neg (by decide), if_neg (by decide), if_pos trivial, if_pos he]
      simp only [hk, hp]

theorem scoreAll_ok (m : Bytes → Option F64) (vs : List (Bytes × F64)) (hn : ∀ v ∈ vs, v.2.isNaN = false) :
    scoreAll m (vs.map fun p => (formatFloat p.2, p.1)) = some (fun k => ((vs.reverse.find? (·.1 = k)).map (·.2)).or (m k)) := by
  induction vs generalizing m with
  | nil => simp [scoreAll]
  | cons v vs ih =>
    simp only [List.map_cons, scoreAll, parseFloat_formatFloat (hn v (by simp))]
    rw [ih _ (fun v h => hn v (by simp [h]))]
    congr 1
    funext k
    simp only [List.reverse_cons, List.find?_append]
    cases hf : vs.reverse.find? (·.1 = k) with
    | some y => simp
    | none =>
      by_cases hk : v.1 = k
      · simp [hk, upd]
      · have hk' : k ≠ v.1 := fun e => hk e.symm
        simp [hk, upd, hk']

/-- The same for sorted sets. -/
theorem exec_recreate_zset (now : Int) (d : SDb) (key : Bytes) (hk : d.val key = none) (vs : List (Bytes × F64)) (hne : vs ≠ [])
    (hn : ∀ v ∈ vs, v.2.isNaN = false) : (exec now d (recreate key (.zset vs))).val = upd d.val key (some (Data.live (.zset vs))) := by
  have hl : lower b!"zAdd" = b!"zadd" := by decide
  have he := flat_even (vs.map fun p => (formatFloat p.2, p.1))
  have hp := pairs_pairs (vs.map fun p => (formatFloat p.2, p.1))
  have hs := scoreAll_ok (fun _ => none) vs hn
  simp only [List.flatMap_map] at he hp
  cases vs with
  | nil => exact absurd rfl hne
  | cons v vs =>
    simp only [List.flatMap_cons, List.cons_append, List.nil_append] at he hp
    simp only [recreate, exec, hl, Data.live, List.flatMap_cons, List.cons_append, List.nil_append]
    rw [if_neg (by decide), if_neg (by decide), if_neg (by decide), if_neg (by decide), if_neg (by decide), if_pos trivial, if_pos he]
    simp only [hk, hp, hs]
    simp

/-- C68, full statement refuted: a list in the plain encoding comes back reversed. -/
theorem C68_violated : ¬ ∀ (v : Val), v.Valid → ∃ args r', loadObj idOrd 0 v.tag b!"k" (file (bytes v.pieces)) = (.ok (.cmd args), r') ∧
    (exec 0 .empty args).val b!"k" = some v.data.live := by
  intro h
  obtain ⟨args, r', h1, h2⟩ := h (.list .b6 [.raw .b6 b!"a", .raw .b6 b!"b"]) (by simp [Val.Valid, StrEnc.Valid, LenEnc.limit])
  have e : (loadObj idOrd 0 1 b!"k" (file (bytes (Val.pieces (.list .b6 [.raw .b6 b!"a", .raw .b6 b!"b"]))))).1 =
      .ok (.cmd [b!"lPush", b!"k", b!"a", b!"b"]) := by decide +kernel
  have h1' := congrArg Prod.fst h1
  rw [show Val.tag (.list .b6 [.raw .b6 b!"a", .raw .b6 b!"b"]) = 1 from rfl, e] at h1'
  simp only [GoRes.ok.injEq, Obj.cmd.injEq] at h1'
  subst h1'
  simp [exec, SDb.empty, upd, lower, lowerLetter, Data.live, Val.data, StrEnc.value] at h2

/-- C68, how it fails for lists: every list in the plain encoding comes back reversed. -/
theorem C68_violated_list (now : Int) (d : SDb) (key : Bytes) (hk : d.val key = none) (l : LenEnc) (hl : l.Supported) (vs : List StrEnc)
    (hs : ∀ v ∈ vs, v.Supported) (hv : Val.Valid (.list l vs)) (ps : List Piece) (rest : Bytes) (r : Rd)
    (h : Holds (Val.pieces (.list l vs) ++ ps) rest r) :
    ∃ args r', loadObj idOrd 0 1 key r = (.ok (.cmd args), r') ∧
      (exec now d args).val key = some (.list (vs.map (·.value)).reverse) := by
  obtain ⟨v1, v2, v3⟩ := hv
  simp only [Val.pieces, List.append_assoc] at h
  obtain ⟨r1, h1, h⟩ := loadLen_at hl v2 h
  obtain ⟨r2, h2, h⟩ := loadStrings_at hs v3 h
  refine ⟨b!"lPush" :: key :: vs.map (·.value), r2, by simp [loadObj, h1, h2], ?_⟩
  have hlo : lower b!"lPush" = b!"lpush" := by decide
  cases vs with
  | nil => exact absurd rfl v1
  | cons v vs =>
    simp only [List.map_cons, exec, hlo]
    rw [if_neg (by decide), if_neg (by decide), if_pos trivial]
    simp [hk]

/-- C68, how it fails for hashes: a hash in the plain encoding becomes a `zAdd` of its fields and
values; if some field in it is no number, a server rejects it and the key does not exist. -/
theorem C68_violated_hash (now : Int) (d : SDb) (key : Bytes) (hk : d.val key = none) (l : LenEnc) (hl : l.Supported)
    (vs : List (StrEnc × StrEnc)) (hs : ∀ v ∈ vs, v.1.Supported ∧ v.2.Supported) (hv : Val.Valid (.hash l vs))
    (hf : ∃ v ∈ vs, parseFloat v.1.value = none) (ps : List Piece) (rest : Bytes) (r : Rd)
    (h : Holds (Val.pieces (.hash l vs) ++ ps) rest r) :
    ∃ args r', loadObj idOrd 0 4 key r = (.ok (.cmd args), r') ∧ (exec now d args).val key = none := by
  obtain ⟨v1, v2, v3⟩ := hv
  simp only [Val.pieces, List.append_assoc] at h
  obtain ⟨r1, h1, h⟩ := loadLen_at hl v2 h
  obtain ⟨r2, h2, h⟩ := loadPairs_at hs v3 h
  refine ⟨b!"zAdd" :: key :: vs.flatMap (fun p => [p.1.value, p.2.value]), r2, by simp [loadObj, h1, h2], ?_⟩
  have hlo : lower b!"zAdd" = b!"zadd" := by decide
  have hp := pairs_pairs (vs.map fun p => (p.1.value, p.2.value))
  have he := flat_even (vs.map fun p => (p.1.value, p.2.value))
  simp only [List.flatMap_map] at hp he
  have hsc : ∀ (vs : List (StrEnc × StrEnc)) (m : Bytes → Option F64), (∃ v ∈ vs, parseFloat v.1.value = none) →
      scoreAll m (vs.map fun p => (p.1.value, p.2.value)) = none := by
    intro vs
    induction vs with
    | nil => intro m h; simp at h
    | cons v vs ih =>
      intro m h
      simp only [List.map_cons, scoreAll]
      cases hpf : parseFloat v.1.value with
      | none => rfl
      | some x =>
        obtain ⟨w, hw, hw2⟩ := h
        rcases List.mem_cons.mp hw with rfl | hw
        · rw [hpf] at hw2; cases hw2
        · exact ih _ ⟨w, hw, hw2⟩
  have hsc := hsc vs (fun _ => none) hf
  cases vs with
  | nil => exact absurd rfl v1
  | cons v vs =>
    simp only [List.flatMap_cons, List.cons_append, List.nil_append] at hp he
    simp only [List.flatMap_cons, List.cons_append, List.nil_append, exec, hlo]
    rw [if_neg (by decide), if_neg (by decide), if_neg (by decide), if_neg (by decide), if_neg (by decide), if_pos trivial, if_pos he]
    simp only [hk, hp, hsc]

/-- C68, how it fails for sorted sets in the text encoding: members and scores are swapped in the
command; if some member is no number, a server rejects it and the key does not exist. -/
theorem C68_violated_zset (now : Int) (d : SDb) (key : Bytes) (hk : d.val key = none) (l : LenEnc) (hl : l.Supported)
    (vs : List (StrEnc × Bytes)) (hs : ∀ v ∈ vs, v.1.Supported) (hv : Val.Valid (.zset l vs))
    (hf : ∃ v ∈ vs, parseFloat v.1.value = none) (ps : List Piece) (rest : Bytes) (r : Rd)
    (h : Holds (Val.pieces (.zset l vs) ++ ps) rest r) :
    ∃ args r', loadObj idOrd 0 3 key r = (.ok (.cmd args), r') ∧ (exec now d args).val key = none := by
  obtain ⟨v1, v2, v3⟩ := hv
  simp only [Val.pieces, List.append_assoc] at h
  obtain ⟨r1, h1, h⟩ := loadLen_at hl v2 h
  obtain ⟨r2, h2, h⟩ := loadScored_at hs v3 h
  refine ⟨b!"zAdd" :: key :: vs.flatMap (fun p => [p.1.value, formatFloat ((parseFloat p.2).getD F64.nan)]), r2, by simp [loadObj, h1, h2], ?_⟩
  have hlo : lower b!"zAdd" = b!"zadd" := by decide
  have hp := pairs_pairs (vs.map fun p => (p.1.value, formatFloat ((parseFloat p.2).getD F64.nan)))
  have he := flat_even (vs.map fun p => (p.1.value, formatFloat ((parseFloat p.2).getD F64.nan)))
  simp only [List.flatMap_map] at hp he
  have hsc : ∀ (vs : List (StrEnc × Bytes)) (m : Bytes → Option F64), (∃ v ∈ vs, parseFloat v.1.value = none) →
      scoreAll m (vs.map fun p => (p.1.value, formatFloat ((parseFloat p.2).getD F64.nan))) = none := by
    intro vs
    induction vs with
    | nil => intro m h; simp at h
    | cons v vs ih =>
      intro m h
      simp only [List.map_cons, scoreAll]
      cases hpf : parseFloat v.1.value with
      | none => rfl
      | some x =>
        obtain ⟨w, hw, hw2⟩ := h
        rcases List.mem_cons.mp hw with rfl | hw
        · rw [hpf] at hw2; cases hw2
        · exact ih _ ⟨w, hw, hw2⟩
  have hsc := hsc vs (fun _ => none) hf
  cases vs with
  | nil => exact absurd rfl v1
  | cons v vs =>
    simp only [List.flatMap_cons, List.cons_append, List.nil_append] at hp he
    simp only [List.flatMap_cons, List.cons_append, List.nil_append, exec, hlo]
    rw [if_neg (by decide), if_neg (by decide), if_neg (by decide), if_neg (by decide), if_neg (by decide), if_pos trivial, if_pos he]
    simp only [hk, hp, hsc]

theorem Val.data_nonEmpty {v : Val} (hv : v.Valid) : v.data.NonEmpty := by
  have hp : ∀ (z : List (Bytes × ZVal)), z ≠ [] → z.length % 2 = 0 → pairs (z.map (·.2.value)) ≠ [] := by
    intro z h1 h2
    match z with
    | [] => exact absurd rfl h1
    | [a] => simp at h2
    | a :: b :: z => simp [pairs]
  cases v with
  | str v => trivial
  | list l vs => simpa [Val.data, Data.NonEmpty] using hv.1
  | set l vs => simpa [Val.data, Data.NonEmpty] using hv.1
  | zset l vs => simpa [Val.data, Data.NonEmpty] using hv.1
  | zset2 l vs => simpa [Val.data, Data.NonEmpty] using hv.1
  | hash l vs => simpa [Val.data, Data.NonEmpty] using hv.1
  | quicklist l ns =>
    have h := hv.2.1
    intro e
    apply h
    simp only [List.flatMap_eq_nil_iff, List.map_eq_nil_iff] at e ⊢
    exact e
  | zipmap e cnt m => simpa [Val.data, Data.NonEmpty] using hv.1
  | ziplist e hdr z => simpa [Val.data, Data.NonEmpty] using hv.1
  | intset e w xs => simpa [Val.data, Data.NonEmpty] using hv.1
  | hashZiplist e hdr z => exact hp z hv.1 hv.2.1
  | zsetZiplist e hdr z =>
    intro h
    exact hp z hv.1 hv.2.1 (by simpa using h)

theorem Val.not_zset {v : Val} (hs : v.Supported) (vs : List (Bytes × F64)) : v.data ≠ .zset vs := by
  cases v <;> simp_all [Val.data, Val.Supported]

/-- C68 for strings, sets, quicklists, ziplist lists and hashes of small elements, integer sets and
one-field zipmaps: the record is turned into a command which, executed by a server without that key,
creates exactly the value and changes no other key.  Missing: plain lists, hashes and sorted sets
(`C68_violated_list`, `_hash`, `_zset`), and what C70, C71, C72 exclude. -/
theorem C68_supported_partial (ord : MapOrd) (hord : ∀ n l, (ord n l).Perm l) (n : Nat) (key : Bytes) (v : Val) (hs : v.Supported)
    (hv : v.Valid) (ps : List Piece) (rest : Bytes) (r : Rd) (h : Holds (v.pieces ++ ps) rest r) :
    ∃ args r', loadObj ord n v.tag key r = (.ok (.cmd args), r') ∧ Holds ps rest r' ∧
      ∀ (now : Int) (d : SDb), d.val key = none → (exec now d args).val = upd d.val key (some v.data.live) := by
  obtain ⟨r', h1, h2⟩ := loadObj_at hord n (key := key) hs hv h
  exact ⟨_, r', h1, h2, fun now d hk => exec_recreate now d key hk _ (Val.data_nonEmpty hv) (Val.not_zset hs)⟩

/-- A list of "x" and 4. -/
def sampleZip : List (Bytes × ZVal) := [([0], .str6 b!"x"), ([3], .imm 4)]

/-- The record of that list. -/
def sampleList : Val := .ziplist (.raw .b6 (encZiplist (List.replicate 10 0) sampleZip)) (List.replicate 10 0) sampleZip

example : ∃ args r', loadObj idOrd 0 10 b!"k" (file (bytes (sampleList.pieces ++ []) ++ [])) = (.ok (.cmd args), r') ∧ Holds [] [] r' ∧
      ∀ (now : Int) (d : SDb), d.val b!"k" = none → (exec now d args).val = upd d.val b!"k" (some (.list [b!"x", b!"4"])) :=
  C68_supported_partial idOrd idOrd_perm 0 b!"k" sampleList ⟨.inl rfl, by simp [ZShort, sampleZip]⟩
    ⟨by simp [sampleZip], by simp only [StrEnc.Valid, LenEnc.limit]; decide, rfl, by simp [ZlValid, PrevField, ZVal.Valid, sampleZip]⟩ [] [] _
    (holds_small _ _ (by decide +kernel))

example : ∃ args r', loadObj idOrd 0 1 b!"k" (file (bytes (Val.pieces (.list .b6 [.raw .b6 b!"a", .raw .b6 b!"b"]) ++ []) ++ [])) =
      (.ok (.cmd args), r') ∧ (exec 5 .empty args).val b!"k" = some (.list [b!"b", b!"a"]) :=
  C68_violated_list 5 .empty b!"k" rfl .b6 (.inl rfl) [.raw .b6 b!"a", .raw .b6 b!"b"] (by simp [StrEnc.Supported, LenEnc.Supported])
    (by simp [Val.Valid, StrEnc.Valid, LenEnc.limit]) [] [] _ (holds_small _ _ (by decide +kernel))

example : ∃ args r', loadObj idOrd 0 4 b!"k" (file (bytes (Val.pieces (.hash .b6 [(.raw .b6 b!"a", .raw .b6 b!"b")]) ++ []) ++ [])) =
      (.ok (.cmd args), r') ∧ (exec 5 .empty args).val b!"k" = none :=
  C68_violated_hash 5 .empty b!"k" rfl .b6 (.inl rfl) [(.raw .b6 b!"a", .raw .b6 b!"b")] (by simp [StrEnc.Supported, LenEnc.Supported])
    (by simp [Val.Valid, StrEnc.Valid, LenEnc.limit]) ⟨_, List.mem_singleton.mpr rfl, by decide +kernel⟩ [] [] _ (holds_small _ _ (by decide +kernel))

example : ∃ args r', loadObj idOrd 0 3 b!"k" (file (bytes (Val.pieces (.zset .b6 [(.raw .b6 b!"a", b!"1.5")]) ++ []) ++ [])) =
      (.ok (.cmd args), r') ∧ (exec 5 .empty args).val b!"k" = none :=
  C68_violated_zset 5 .empty b!"k" rfl .b6 (.inl rfl) [(.raw .b6 b!"a", b!"1.5")] (by simp [StrEnc.Supported, LenEnc.Supported])
    ⟨by simp, by decide, by simp [StrEnc.Valid, LenEnc.limit]; decide +kernel⟩ ⟨_, List.mem_singleton.mpr rfl, by decide +kernel⟩ [] [] _
    (holds_small _ _ (by decide +kernel))

/-! ## The whole snapshot, executed by a server -/

/-- What a server that starts empty holds in database `db` after executing the commands for it. -/
def replay (now : Int) (db : Nat) (d : SDb) (cmds : List Sent) : SDb :=
  ((cmds.filter (·.1 = Int64.ofNat db)).map (·.2)).foldl (exec now) d

theorem exec_pexpire_val (now : Int) (d : SDb) (k t : Bytes) : (exec now d [b!"pExpire", k, t]).val = d.val := by
  have hl : lower b!"pExpire" = b!"pexpire" := by decide
  simp only [exec, hl]
  rw [if_neg (by decide), if_neg (by decide), if_neg (by decide), if_neg (by decide), if_neg (by decide), if_neg (by decide), if_pos trivial]
  split <;> rfl

theorem ofNat_inj {a b : Nat} (ha : a < 2 ^ 63) (hb : b < 2 ^ 63) : Int64.ofNat a = Int64.ofNat b ↔ a = b := by
  constructor
  · intro h
    have := congrArg Int64.toInt h
    rw [Int64.toInt_ofNat_of_lt ha, Int64.toInt_ofNat_of_lt hb] at this
    omega
  · intro h; rw [h]

theorem replay_recs (now : Int) (db : Nat) (hdb : db < 2 ^ 63) (recs : List KeyRec)
    (hd : recs.Pairwise fun a b => a.db ≠ b.db ∨ a.key ≠ b.key) (hne : ∀ k ∈ recs, k.data.NonEmpty ∧ (∀ vs, k.data ≠ .zset vs) ∧ k.db < 2 ^ 63)
    (d : SDb) (hk : ∀ k ∈ recs, k.db = db → d.val k.key = none) (key : Bytes) :
    (replay now db d (recs.flatMap keyCmds)).val key =
      match recs.find? (fun k => k.db = db ∧ k.key = key) with
      | some k => some k.data.live
      | none => d.val key := by
  induction recs generalizing d with
  | nil => rfl
  | cons k recs ih =>
    obtain ⟨hd1, hd2⟩ := List.pairwise_cons.mp hd
    obtain ⟨n1, n2, n3⟩ := hne k (by simp)
    have hne' := fun k h => hne k (List.mem_cons_of_mem _ h)
    have split : replay now db d ((k :: recs).flatMap keyCmds) = replay now db (replay now db d (keyCmds k)) (recs.flatMap keyCmds) := by
      simp [replay, List.filter_append, List.foldl_append]
    rw [split]
    by_cases hkd : k.db = db
    · have hval : (replay now db d (keyCmds k)).val = upd d.val k.key (some k.data.live) := by
        have h1 := exec_recreate now d k.key (hk k (by simp) hkd) k.data n1 n2
        unfold keyCmds
        cases k.deadline with
        | none => simp [replay, hkd, h1]
        | some t => simp [replay, hkd, exec_pexpire_val, h1]
      have hk' : ∀ x ∈ recs, x.db = db → (replay now db d (keyCmds k)).val x.key = none := by
        intro x hx hxd
        rw [hval]
        have : x.key ≠ k.key := by
          rcases hd1 x hx with h | h
          · exact absurd (hkd.trans hxd.symm) h
          · exact fun e => h e.symm
        simp only [upd, this, if_false]
        exact hk x (by simp [hx]) hxd
      rw [ih hd2 hne' _ hk', hval, List.find?_cons]
      by_cases hkk : k.key = key
      · subst hkk
        have hno : recs.find? (fun x => x.db = db ∧ x.key = k.key) = none := by
          rw [List.find?_eq_none]
          intro x hx
          rcases hd1 x hx with h | h
          · simp only [decide_eq_true_eq, not_and]; intro e; exact absurd (hkd.trans e.symm) h
          · simp only [decide_eq_true_eq, not_and]; intro _ e; exact h e.symm
        rw [hno]; simp [hkd]
      · have hkk' : key ≠ k.key := fun e => hkk e.symm
        simp [hkk, hkk', upd]
    · have hval : replay now db d (keyCmds k) = d := by
        have : ¬ Int64.ofNat k.db = Int64.ofNat db := fun e => hkd ((ofNat_inj n3 hdb).mp e)
        unfold keyCmds
        cases k.deadline with
        | none => simp [replay, this]
        | some t => simp [replay, this]
      rw [hval, ih hd2 hne' d (fun x hx => hk x (by simp [hx])), List.find?_cons]
      simp [hkd]

theorem meaning_recs {items : List Item} (hs : ∀ i ∈ items, i.Supported) (hv : ∀ i ∈ items, i.Valid) (e : Option Nat) (db : Nat)
    (hdb : db < 2 ^ 63) : ∀ k ∈ meaning e db items, k.data.NonEmpty ∧ (∀ vs, k.data ≠ .zset vs) ∧ k.db < 2 ^ 63 := by
  induction items generalizing e db with
  | nil => simp [meaning]
  | cons it items ih =>
    have hs' := fun i h => hs i (List.mem_cons_of_mem _ h)
    have hv' := fun i h => hv i (List.mem_cons_of_mem _ h)
    have hs1 := hs it (by simp)
    have hv1 := hv it (by simp)
    cases it with
    | expireS t => exact ih hs' hv' _ _ hdb
    | expireMs t => exact ih hs' hv' _ _ hdb
    | freq b => exact ih hs' hv' _ _ hdb
    | idle l n => exact ih hs' hv' _ _ hdb
    | select l n =>
      have h1 := limit_lt hs1
      have hv1 : n < l.limit := hv1
      exact ih hs' hv' _ _ (by omega)
    | resize l1 n1 l2 n2 => exact ih hs' hv' _ _ hdb
    | aux k v => exact ih hs' hv' _ _ hdb
    | entry k v =>
      intro x hx
      rcases List.mem_cons.mp hx with rfl | hx
      · exact ⟨Val.data_nonEmpty hv1.2, Val.not_zset hs1.2.2, hdb⟩
      · exact ih hs' hv' _ _ hdb x hx

/-- C65 and C68 together, for supported files as in `C65_supported_partial` with no key twice: a server
that starts empty and executes the commands sent for a database holds exactly the keys of the
snapshot in that database, with their values. -/
theorem C65_replayed_partial (ord : MapOrd) (hord : ∀ n l, (ord n l).Perm l) (hdr : Bytes) (hh : Header hdr) (items : List Item)
    (hs : ∀ i ∈ items, i.Supported) (hv : ∀ i ∈ items, i.Valid)
    (hd : (meaning none 0 items).Pairwise fun a b => a.db ≠ b.db ∨ a.key ≠ b.key) (rest : Bytes) (r : Rd)
    (h : Holds (filePieces hdr items) rest r) (now : Int) (db : Nat) (hdb : db < 2 ^ 63) :
    ∃ s', load ord .init r = (.ok (), s') ∧ ∀ key, (replay now db .empty s'.out).val key =
      ((meaning none 0 items).find? (fun k => k.db = db ∧ k.key = key)).map (·.data.live) := by
  obtain ⟨s', h1, h2⟩ := load_at hord hh hs hv h (s := .init) (db := 0) rfl
  refine ⟨s', h1, fun key => ?_⟩
  rw [h2, show LState.init.out = [] from rfl, List.nil_append, replay_recs now db hdb _ hd (meaning_recs hs hv none 0 (by decide)) .empty
    (fun _ _ _ => rfl)]
  cases (meaning none 0 items).find? (fun k => k.db = db ∧ k.key = key) <;> rfl

example : ∃ s', load idOrd .init (file (bytes (filePieces b!"REDIS0009" sampleItems) ++ [])) = (.ok (), s') ∧
    ∀ key, (replay 0 3 .empty s'.out).val key =
      ((meaning none 0 sampleItems).find? (fun k => k.db = 3 ∧ k.key = key)).map (·.data.live) :=
  C65_replayed_partial idOrd idOrd_perm b!"REDIS0009" rfl sampleItems sampleItems_ok.1 sampleItems_ok.2
    (by simp [sampleItems, meaning, StrEnc.value]) [] _ (holds_small _ _ (by decide +kernel)) 0 3 (by decide)

/-! ## C69: scores -/

/-- C69, full statement refuted: plus infinity is read as 1. -/
theorem C69_violated : ¬ ∀ (d : DblEnc) (x : F64), d.value = some x → (∀ y, d ≠ .binary y) →
    (loadDouble (file (bytes d.pieces))).1 = .ok x := by
  intro h
  have := h .posInf _ rfl (by simp)
  revert this
  decide +kernel

/-- C69, how it fails: the three special values are read as 1, 1 and -1, in whatever blocks. -/
theorem C69_violated_tags (r : Rd) (hw : r.WF) (rest : Bytes) :
    (r.flat = bytes (DblEnc.pieces .nan) ++ rest → (loadDouble r).1 = .ok (F64.ofInt 1)) ∧
    (r.flat = bytes (DblEnc.pieces .posInf) ++ rest → (loadDouble r).1 = .ok (F64.ofInt 1)) ∧
    (r.flat = bytes (DblEnc.pieces .negInf) ++ rest → (loadDouble r).1 = .ok (F64.ofInt (-1))) := by
  refine ⟨fun h => ?_, fun h => ?_, fun h => ?_⟩ <;>
    (obtain ⟨r', h1, _⟩ := readByte_at hw h
     simp [loadDouble, h1, minusOne, plusOne])

/-- C69, how it fails: every binary score is read as 0. -/
theorem C69_violated_binary (x : F64) (r : Rd) (hw : r.WF) (rest : Bytes) (h : r.flat = bytes (DblEnc.pieces (.binary x)) ++ rest) :
    (loadBinaryDouble r).1 = .ok F64.zero := by
  obtain ⟨r', h1, _⟩ := (readFullAux_flat (n := 8) hw (Nat.le_refl 8)).1 (by rw [h]; simp [DblEnc.pieces, Piece.bytes, leInt_length])
  simp [loadBinaryDouble, readFull, h1]

/-- C69 for scores as text: the number of the text, whatever the blocks, and nothing more is read.
Missing: the special values and binary scores (`C69_violated_tags`, `C69_violated_binary`). -/
theorem C69_text_partial (t : Bytes) (hl : t.length < 253) (x : F64) (hx : parseFloat t = some x) (r : Rd) (hw : r.WF) (rest : Bytes)
    (h : r.flat = bytes (DblEnc.pieces (.text t)) ++ rest) : ∃ r', loadDouble r = (.ok x, r') ∧ r'.flat = rest := by
  have hh : Holds (DblEnc.pieces (.text t)) rest r := by
    refine holds_tiny _ rest r hw h ?_ ?_
    · intro bs hb; simp [DblEnc.pieces] at hb
    · intro p hp
      simp only [DblEnc.pieces, List.mem_cons, List.not_mem_nil, or_false] at hp
      rcases hp with rfl | rfl <;> simp [Piece.bytes, bufSize]; omega
  obtain ⟨r', h1, h2⟩ := loadDouble_text hl hh
  rw [hx] at h1
  exact ⟨r', h1, by simpa using h2.flat⟩

/-- C69 for numbers written as their shortest text. -/
theorem C69_round_trip_partial (x : F64) (hn : x.isNaN = false) (hl : (formatFloat x).length < 253) (r : Rd) (hw : r.WF) (rest : Bytes)
    (h : r.flat = bytes (DblEnc.pieces (.text (formatFloat x))) ++ rest) : ∃ r', loadDouble r = (.ok x, r') ∧ r'.flat = rest :=
  C69_text_partial _ hl x (parseFloat_formatFloat hn) r hw rest h

example : ∃ x r', parseFloat b!"-12.5" = some x ∧ loadDouble ⟨[], [[5, 45, 49], [50, 46, 53, 7]]⟩ = (.ok x, r') ∧ r'.flat = [7] := by
  obtain ⟨x, hx⟩ := Option.isSome_iff_exists.mp (show (parseFloat b!"-12.5").isSome by decide +kernel)
  obtain ⟨r', h⟩ := C69_text_partial b!"-12.5" (by decide) x hx ⟨[], [[5, 45, 49], [50, 46, 53, 7]]⟩ (by simp [Rd.WF]) [7] (by decide)
  exact ⟨x, r', hx, h⟩

end Verif.Rdb

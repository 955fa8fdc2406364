import Verif.Rdb.PropsExact

/-! # Auxiliary data of modules in a snapshot (C129)

Format: byte 247, the module's id, the opcode 2 and a number saying when the data are to be loaded, the values, the
opcode 0. `Load` reads it at replication.go:262-283.
-/

namespace Verif.Rdb

open Verif.Resp

/-- A value a module saved: opcodes 1 to 5 of the format. -/
inductive MVal where
  | sint (l : LenEnc) (n : Nat)
  | uint (l : LenEnc) (n : Nat)
  /-- four bytes -/
  | float (bits : Nat)
  /-- eight bytes -/
  | double (bits : Nat)
  | str (s : StrEnc)

/-- The encoded value. -/
def MVal.pieces : MVal → List Piece
  | .sint l n => .one 1 :: l.pieces n
  | .uint l n => .one 2 :: l.pieces n
  | .float b => [.one 3, .full (leInt 4 b)]
  | .double b => [.one 4, .full (leInt 8 b)]
  | .str s => .one 5 :: s.pieces

/-- A record of a snapshot that may hold data of modules. -/
inductive MItem where
  | plain (i : Item)
  | module (lid : LenEnc) (id : Nat) (lw : LenEnc) (when : Nat) (vals : List MVal)

/-- The encoded record. -/
def MItem.pieces : MItem → List Piece
  | .plain i => i.pieces
  | .module lid id lw w vals =>
    .one 247 :: (lid.pieces id ++ (.one 2 :: (lw.pieces w ++ (vals.flatMap MVal.pieces ++ [.one 0]))))

/-- A well-formed record that Load reads, apart from the values of modules. -/
def MItem.Good : MItem → Prop
  | .plain i => i.Supported ∧ i.Valid
  | .module lid id lw w _ => id < lid.limit ∧ w < lw.limit

/-- A record of a module that saved something. -/
def MItem.holdsData : MItem → Bool
  | .plain _ => false
  | .module _ _ _ _ vals => !vals.isEmpty

/-- The other records. -/
def plainItems (ms : List MItem) : List Item :=
  ms.filterMap fun | .plain i => some i | .module .. => none

/-- A file: header, records, end marker. -/
def mfilePieces (hdr : Bytes) (ms : List MItem) : List Piece := .raw hdr :: (ms.flatMap MItem.pieces ++ [.one 255])

theorem loadLen_any {l : LenEnc} {n : Nat} (hn : n < l.limit) {ps : List Piece} {rest : Bytes} {r : Rd}
    (h : Holds (l.pieces n ++ ps) rest r) : ∃ k r', loadLen r = (.ok (k, false), r') ∧ Holds ps rest r' := by
  by_cases hl : l.Supported
  · exact ⟨_, loadLen_at hl hn h⟩
  · exact ⟨_, loadLen_wide hl h⟩

theorem loadLen_one {b : UInt8} (hb : b.toNat < 64) {ps : List Piece} {rest : Bytes} {r : Rd}
    (h : Holds (.one b :: ps) rest r) : ∃ r', loadLen r = (.ok (b.toNat, false), r') ∧ Holds ps rest r' :=
  loadLen_at (l := .b6) (.inl rfl) (n := b.toNat) hb (by simpa [LenEnc.pieces] using h)

theorem MVal.head (v : MVal) : ∃ b ps, v.pieces = .one b :: ps ∧ b.toNat < 64 ∧ b.toNat ≠ 0 := by
  cases v <;> exact ⟨_, _, rfl, by decide, by decide⟩

/-- C129, what becomes of one record of a module: it is skipped, with nothing else read, if and only if the module saved
nothing; otherwise reading fails. -/
theorem C129_record_exact (ord : MapOrd) (n : Nat) (lid lw : LenEnc) (id w : Nat) (vals : List MVal) (hi : id < lid.limit)
    (hw : w < lw.limit) (ps : List Piece) (rest : Bytes) (r : Rd)
    (h : Holds (MItem.pieces (.module lid id lw w vals) ++ ps) rest r) :
    (vals = [] → ∃ r', loadRec ord n r = (.ok .ignored, r') ∧ Holds ps rest r') ∧
    (vals ≠ [] → (loadRec ord n r).1 = .err .syntaxErr) := by
  simp only [MItem.pieces, List.cons_append, List.append_assoc] at h
  obtain ⟨r1, h1, h⟩ := Holds.byte h
  obtain ⟨k, r2, h2, h⟩ := loadLen_any hi h
  obtain ⟨r3, h3, h⟩ := loadLen_one (by decide) h
  obtain ⟨k', r4, h4, h⟩ := loadLen_any hw h
  have h3' : loadLen r2 = (.ok (2, false), r3) := h3
  constructor
  · rintro rfl
    simp only [List.flatMap_nil, List.nil_append] at h
    obtain ⟨r5, h5, h⟩ := loadLen_one (by decide) h
    have h5' : loadLen r4 = (.ok (0, false), r5) := h5
    exact ⟨r5, by simp [loadRec, h1, h2, h3', h4, h5'], h⟩
  · intro hne
    cases vals with
    | nil => exact absurd rfl hne
    | cons v vals =>
      obtain ⟨b, qs, e, hb, hb0⟩ := v.head
      simp only [List.flatMap_cons, e, List.cons_append] at h
      obtain ⟨r5, h5, h⟩ := loadLen_one hb h
      simp [loadRec, h1, h2, h3', h4, h5, hb0]

/-- One turn of the loop for a supported record, with what it adds. -/
theorem step_at {ord : MapOrd} (hord : ∀ n l, (ord n l).Perm l) {it : Item} (hs1 : it.Supported) (hv1 : it.Valid)
    {ps : List Piece} {rest : Bytes} {r : Rd} (h : Holds (it.pieces ++ ps) rest r) {s : LState} {e : Option Nat} {db : Nat}
    (hp : ∀ t, e = some t → 0 < t ∧ t < 2 ^ 63) (he : s.expires = pend e) (hdb : s.db = Int64.ofNat db) :
    ∃ r1 s1 e1 db1 out, loadRec ord s.out.length r = (.ok (recOf it), r1) ∧ s.apply (recOf it) = .next s1 ∧ Holds ps rest r1 ∧
      (∀ t, e1 = some t → 0 < t ∧ t < 2 ^ 63) ∧ s1.expires = pend e1 ∧ s1.db = Int64.ofNat db1 ∧
      s1.out = s.out ++ out.flatMap keyCmds ∧ ∀ l, meaning e db (it :: l) = out ++ meaning e1 db1 l := by
  obtain ⟨r1, h1, g⟩ := loadRec_at hord s.out.length hs1 hv1 h
  cases it with
  | expireS t =>
    have hv1 : 0 < t ∧ t < 2 ^ 32 := hv1
    exact ⟨r1, { s with expires := UInt64.ofNat (1000 * t) }, some (1000 * t), db, [], h1, rfl, g,
      by intro x hx; simp at hx; subst hx; exact ⟨by omega, by omega⟩, rfl, hdb, by simp, fun _ => rfl⟩
  | expireMs t =>
    exact ⟨r1, { s with expires := UInt64.ofNat t }, some t, db, [], h1, rfl, g,
      by intro x hx; simp at hx; subst hx; exact hv1, rfl, hdb, by simp, fun _ => rfl⟩
  | freq b => exact ⟨r1, s, e, db, [], h1, rfl, g, hp, he, hdb, by simp, fun _ => rfl⟩
  | idle l k => exact ⟨r1, s, e, db, [], h1, rfl, g, hp, he, hdb, by simp, fun _ => rfl⟩
  | select l k => exact ⟨r1, { s with db := Int64.ofNat k }, e, k, [], h1, rfl, g, hp, he, rfl, by simp, fun _ => rfl⟩
  | resize l1 n1 l2 n2 => exact ⟨r1, s, e, db, [], h1, rfl, g, hp, he, hdb, by simp, fun _ => rfl⟩
  | aux k v =>
    simp only [recOf, LState.apply]
    by_cases hk : k.value = b!"repl-id"
    · rw [if_pos hk]
      exact ⟨r1, { s with id := v.value }, e, db, [], h1, rfl, g, hp, he, hdb, by simp, fun _ => rfl⟩
    · rw [if_neg hk]
      by_cases hk2 : k.value = b!"repl-offset"
      · rw [if_pos hk2]
        obtain ⟨x, hx⟩ := Option.isSome_iff_exists.mp (hv1.2.2 hk2)
        simp only [hx]
        exact ⟨r1, { s with offset := x }, e, db, [], h1, rfl, g, hp, he, hdb, by simp, fun _ => rfl⟩
      · rw [if_neg hk2]
        exact ⟨r1, s, e, db, [], h1, rfl, g, hp, he, hdb, by simp, fun _ => rfl⟩
  | entry k v =>
    simp only [recOf, LState.apply]
    cases e with
    | none =>
      have h0 : (s.send (recreate k.value v.data)).sendExpire k.value = s.send (recreate k.value v.data) := by
        have he0 : s.expires = 0 := he
        simp only [LState.sendExpire, LState.send, he0]
        rw [if_neg (by decide)]
      exact ⟨r1, s.send (recreate k.value v.data), none, db, [⟨db, k.value, v.data, none⟩], h1, by rw [h0], g, by simp, he, hdb,
        by simp [LState.send, keyCmds, hdb], fun _ => rfl⟩
    | some t =>
      obtain ⟨t1, t2⟩ := hp t rfl
      refine ⟨r1, ((s.send (recreate k.value v.data)).sendExpire k.value), none, db, [⟨db, k.value, v.data, some t⟩], h1, rfl, g, by simp,
        ?_, ?_, ?_, fun _ => rfl⟩ <;> rw [sendExpire_some t1 t2 (by exact he)]
      · rfl
      · exact hdb
      · simp [LState.send, keyCmds, hdb]

theorem mloop_at {ord : MapOrd} (hord : ∀ n l, (ord n l).Perm l) {ms : List MItem} (hg : ∀ m ∈ ms, m.Good)
    {rest : Bytes} {r : Rd} (h : Holds (ms.flatMap MItem.pieces ++ [.one 255]) rest r)
    {fuel : Nat} (hf : ms.length < fuel) {s : LState} {e : Option Nat} {db : Nat}
    (hp : ∀ t, e = some t → 0 < t ∧ t < 2 ^ 63) (he : s.expires = pend e) (hdb : s.db = Int64.ofNat db) :
    ∃ s', loadLoop ord fuel s r = (if ms.any MItem.holdsData then .err .syntaxErr else .ok (), s') ∧
      s'.out = s.out ++ (meaning e db (plainItems (ms.takeWhile fun m => !m.holdsData))).flatMap keyCmds := by
  induction ms generalizing r fuel s e db with
  | nil =>
    cases fuel with
    | zero => simp at hf
    | succ fuel =>
      obtain ⟨r1, h1, h⟩ := Holds.byte h
      exact ⟨s, by simp [loadLoop, loadRec, h1, LState.apply], by simp [plainItems, meaning]⟩
  | cons m ms ih =>
    cases fuel with
    | zero => simp at hf
    | succ fuel =>
      simp only [List.flatMap_cons, List.append_assoc] at h
      have hg' := fun i h => hg i (List.mem_cons_of_mem _ h)
      have hf' : ms.length < fuel := by simp at hf; omega
      cases m with
      | plain it =>
        have hgi : it.Supported ∧ it.Valid := hg (.plain it) (by simp)
        obtain ⟨r1, s1, e1, db1, out, h1, ha, g, hp1, he1, hdb1, ho, hm⟩ := step_at hord hgi.1 hgi.2 h hp he hdb
        obtain ⟨s', g1, g2⟩ := ih hg' g hf' hp1 he1 hdb1
        refine ⟨s', ?_, ?_⟩
        · simp only [loadLoop, h1, ha, g1, List.any_cons, MItem.holdsData, Bool.false_or]
        · rw [g2, ho]
          simp [MItem.holdsData, plainItems, hm]
      | module lid id lw w vals =>
        have hgi : id < lid.limit ∧ w < lw.limit := hg (.module lid id lw w vals) (by simp)
        obtain ⟨k1, k2⟩ := C129_record_exact ord s.out.length lid lw id w vals hgi.1 hgi.2 _ rest r h
        cases vals with
        | nil =>
          obtain ⟨r1, h1, g⟩ := k1 rfl
          obtain ⟨s', g1, g2⟩ := ih hg' g hf' hp he hdb
          refine ⟨s', ?_, ?_⟩
          · simp only [loadLoop, h1, LState.apply, g1]
            simp [MItem.holdsData]
          · rw [g2]
            simp [MItem.holdsData, plainItems]
        | cons v vals =>
          have k := k2 (by simp)
          rcases hr : loadRec ord s.out.length r with ⟨x, r1⟩
          rw [hr] at k
          simp only at k
          subst k
          exact ⟨s, by simp [loadLoop, hr, MItem.holdsData], by simp [MItem.holdsData, plainItems, meaning]⟩

theorem MItem.pieces_pos (i : MItem) : 0 < (bytes i.pieces).length := by
  cases i with
  | plain i => exact i.pieces_pos
  | module => simp [MItem.pieces, Piece.bytes]

theorem mitems_length (ms : List MItem) : ms.length ≤ (bytes (ms.flatMap MItem.pieces)).length := by
  induction ms with
  | nil => simp
  | cons i ms ih =>
    have := i.pieces_pos
    simp only [List.flatMap_cons, bytes_append, List.length_append, List.length_cons]; omega

/-- C129, exactly where it holds: a file of supported records and records of modules is loaded if and only if no module saved
anything. The commands sent are those of the keys before the first record with data of a module - all keys if there is none.
(The condition on blocks is that of `C65_supported_partial`.) -/
theorem C129_file_exact (ord : MapOrd) (hord : ∀ n l, (ord n l).Perm l) (hdr : Bytes) (hh : Header hdr) (ms : List MItem)
    (hg : ∀ m ∈ ms, m.Good) (rest : Bytes) (r : Rd) (h : Holds (mfilePieces hdr ms) rest r)
    (s : LState) (db : Nat) (hdb : s.db = Int64.ofNat db) :
    ∃ s', load ord s r = (if ms.any MItem.holdsData then .err .syntaxErr else .ok (), s') ∧
      s'.out = s.out ++ (meaning none db (plainItems (ms.takeWhile fun m => !m.holdsData))).flatMap keyCmds := by
  obtain ⟨r1, h1, h2⟩ := Holds.read h
  rw [hh] at h1
  have hl := mitems_length ms
  have hfl := congrArg List.length h2.flat
  simp only [bytes_append, List.length_append] at hfl
  obtain ⟨s', g1, g2⟩ := mloop_at hord hg h2 (fuel := r1.flat.length + 1) (by omega) (s := { s with expires := 0 }) (e := none) (db := db)
    (by simp) rfl hdb
  exact ⟨s', by simp only [load, h1, g1], g2⟩

/-- C129, full statement refuted: a file that holds a key and one number saved by a module is rejected. -/
theorem C129_violated : ¬ ∀ (hdr : Bytes) (ms : List MItem), Header hdr → (∀ m ∈ ms, m.Good) →
    (load idOrd .init (file (bytes (mfilePieces hdr ms)))).1 = .ok () := by
  intro h
  have := h b!"REDIS0009" [.module .b64 7 .b6 1 [.uint .b6 5], .plain (.entry (.raw .b6 b!"k") (.str (.raw .b6 b!"v")))] rfl
    (by simp [MItem.Good, Item.Supported, Val.Supported, StrEnc.Supported, LenEnc.Supported, Item.Valid, StrEnc.Valid, StrEnc.value,
      Val.Valid, LenEnc.limit])
  revert this
  decide +kernel

/-- C129 for modules that saved nothing: their records change nothing. The file loads, and the commands are those of the file
without them. Missing: records with values (`C129_violated`). -/
theorem C129_empty_partial (ord : MapOrd) (hord : ∀ n l, (ord n l).Perm l) (hdr : Bytes) (hh : Header hdr) (ms : List MItem)
    (hg : ∀ m ∈ ms, m.Good) (hd : ∀ m ∈ ms, m.holdsData = false) (rest rest' : Bytes) (r r' : Rd) (h : Holds (mfilePieces hdr ms) rest r)
    (h' : Holds (filePieces hdr (plainItems ms)) rest' r') (s : LState) (db : Nat) (hdb : s.db = Int64.ofNat db) :
    (load ord s r).1 = .ok () ∧ (load ord s r').1 = .ok () ∧ (load ord s r).2.out = (load ord s r').2.out := by
  obtain ⟨s1, h1, h2⟩ := C129_file_exact ord hord hdr hh ms hg rest r h s db hdb
  have hpl : ∀ i ∈ plainItems ms, i.Supported ∧ i.Valid := by
    intro i hi
    obtain ⟨m, hm, e⟩ := List.mem_filterMap.mp hi
    cases m with
    | plain j => simp at e; subst e; exact hg _ hm
    | module => simp at e
  obtain ⟨s2, h3, h4⟩ := load_at hord hh (fun i hi => (hpl i hi).1) (fun i hi => (hpl i hi).2) h' hdb
  have hany : ms.any MItem.holdsData = false := by
    rw [List.any_eq_false]; intro m hm; simp [hd m hm]
  have htw : ms.takeWhile (fun m => !m.holdsData) = ms := by
    clear h h' h1 h2 h4 hpl hany hg
    induction ms with
    | nil => rfl
    | cons m ms ih => simp [hd m (by simp), ih fun m hm => hd m (by simp [hm])]
  rw [hany] at h1
  rw [htw] at h2
  rw [h1, h3]
  exact ⟨rfl, rfl, by rw [h2, h4]⟩

/-- A module that saved nothing, between a deadline and its key, and another record. -/
def sampleModules (vals : List MVal) : List MItem :=
  [.plain (.entry (.raw .b6 b!"a") (.str (.raw .b6 b!"1"))), .plain (.expireMs 77), .module .b64 (2 ^ 60 + 1) .b6 1 vals,
   .plain (.entry (.raw .b6 b!"b") (.str (.raw .b6 b!"2")))]

theorem sampleModules_good (vals : List MVal) : ∀ m ∈ sampleModules vals, m.Good := by
  simp [sampleModules, MItem.Good, Item.Supported, Val.Supported, StrEnc.Supported, LenEnc.Supported, Item.Valid, StrEnc.Valid,
    StrEnc.value, Val.Valid, LenEnc.limit]

example : ∃ s', load idOrd .init (file (bytes (mfilePieces b!"REDIS0009" (sampleModules [])))) = (.ok (), s') ∧
    s'.out = [(0, [b!"set", b!"a", b!"1"]), (0, [b!"set", b!"b", b!"2"]), (0, [b!"pExpire", b!"b", b!"77"])] := by
  obtain ⟨s', h1, h2⟩ := C129_file_exact idOrd idOrd_perm b!"REDIS0009" rfl (sampleModules []) (sampleModules_good []) [] _
    (by have := holds_small (mfilePieces b!"REDIS0009" (sampleModules [])) [] (by decide +kernel); simpa [file] using this) .init 0 rfl
  exact ⟨s', h1, by rw [h2]; decide +kernel⟩

example : ∃ s', load idOrd .init (file (bytes (mfilePieces b!"REDIS0009" (sampleModules [.double 5, .str (.raw .b6 b!"x")])))) =
    (.err .syntaxErr, s') ∧ s'.out = [(0, [b!"set", b!"a", b!"1"])] := by
  obtain ⟨s', h1, h2⟩ := C129_file_exact idOrd idOrd_perm b!"REDIS0009" rfl (sampleModules [.double 5, .str (.raw .b6 b!"x")])
    (sampleModules_good _) [] _
    (by have := holds_small (mfilePieces b!"REDIS0009" (sampleModules [.double 5, .str (.raw .b6 b!"x")])) [] (by decide +kernel)
        simpa [file] using this) .init 0 rfl
  exact ⟨s', h1, by rw [h2]; decide +kernel⟩

end Verif.Rdb

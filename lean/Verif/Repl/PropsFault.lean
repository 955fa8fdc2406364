import Verif.Rdb.PropsFault
import Verif.Repl.Model
import Verif.Resp.PropsExact
/-!
# C139: damage in what the master sends makes `New` fail, not the process
-/
namespace Verif.Repl
open Verif.Resp

theorem readByte_calm (r : Rd) : (readByte r).1 ≠ .panic := by
  unfold readByte
  split
  · simp
  · split
    · simp
    · split <;> simp

theorem readLine_calm (r : Rd) : (readLine r).1 ≠ .panic := by
  unfold readLine
  split
  · simp
  · split <;> simp
  · simp
  · simp

theorem readInt_calm (r : Rd) : (readInt r).1 ≠ .panic := by
  unfold readInt
  rcases h : readLine r with ⟨y, r1⟩
  cases y with
  | ok l => simp only [andThen]; split <;> simp
  | err e => simp [andThen]
  | panic => exact absurd (by rw [h]) (readLine_calm r)

theorem copyN_calm (n : Nat) (r : Rd) : (copyN n r).1 ≠ .panic := by
  induction n generalizing r with
  | zero => simp [copyN]
  | succ n ih =>
    rw [copyN]
    split
    · exact ih _
    · simp
    · rename_i h; exact absurd (by rw [h]) (readByte_calm r)

/-- Receiving the snapshot never panics. -/
theorem readWithWriter_calm (r : Rd) : (readWithWriter r).1 ≠ .panic := by
  unfold readWithWriter
  split
  · simp
  · rename_i h; exact absurd (by rw [h]) (readByte_calm r)
  · split
    · split
      · simp
      · rename_i h; exact absurd (by rw [h]) (readInt_calm _)
      · split
        · simp
        · simp
        · rename_i h; exact absurd (by rw [h]) (copyN_calm _ _)
    · split
      · split
        · simp
        · simp
        · rename_i h; exact absurd (by rw [h]) (readLine_calm _)
      · split
        · split
          · simp
          · simp
          · rename_i h; exact absurd (by rw [h]) (readInt_calm _)
        · simp

theorem sync_calm (w : World) (r : Rd) : (sync w r).1 ≠ .panic := by
  unfold sync
  split
  · simp
  split
  · simp
  split
  · simp
  · simp
  · rename_i h; exact absurd (by rw [h]) (readWithWriter_calm r)

/-- Synchronizing panics only while it reads the answer to the PING. -/
theorem syncWithRedis_panic (w : World) (addr f : Bytes) : (syncWithRedis w addr f).1 = .panic ↔
    f ≠ [] ∧ addr ≠ [] ∧ w.dial = true ∧ w.pingSent = true ∧ (readMessage w.input).1 = .panic := by
  unfold syncWithRedis
  by_cases h1 : f = []
  · simp [h1]
  by_cases h2 : addr = []
  · simp [h1, h2]
  by_cases h3 : w.dial = false
  · simp [h1, h2, h3]
  rw [if_neg h1, if_neg h2, if_neg h3]
  simp only [ne_eq, h1, not_false_eq_true, h2, (by simpa using h3 : w.dial = true), true_and]
  unfold ping
  by_cases h4 : w.pingSent = false
  · simp [h4]
  rw [if_neg h4]
  simp only [(by simpa using h4 : w.pingSent = true), true_and]
  rcases hm : readMessage w.input with ⟨y, r⟩
  cases y with
  | ok m =>
    simp only
    by_cases h5 : str m = b!"PONG"
    · simp only [h5, if_true]; simp [sync_calm w r]
    · simp [h5]
  | err e => simp
  | panic => simp

/-- C139 for `New`, exactly: it ends the process if and only if the answer to its PING makes `ReadMessage` panic (C49), or the
snapshot was received and read back and has damage of the kinds of `C139_exact`. -/
theorem C139_new_exact (ord : Rdb.MapOrd) (w : World) (o : Opts) : (new ord w o).1 = .panic ↔
    (w.dial = true ∧ w.pingSent = true ∧ (readMessage w.input).1 = .panic) ∨
    ∃ f r, syncWithRedis w (prepare o).addr (prepare o).rdbFile = (.ok (), f, r) ∧ w.reopen = true ∧
      Rdb.FaultReached ord ⟨0, 0, [], 0, []⟩ ⟨[], [f.getD []]⟩ := by
  have ha : (prepare o).addr ≠ [] := by unfold prepare; dsimp only; split <;> simp_all
  have hf : (prepare o).rdbFile ≠ [] := by unfold prepare; dsimp only; split <;> simp_all
  have hs := syncWithRedis_panic w (prepare o).addr (prepare o).rdbFile
  simp only [ne_eq, ha, hf, not_false_eq_true, true_and] at hs
  rw [← hs]
  unfold new
  dsimp only
  rcases hx : syncWithRedis w (prepare o).addr (prepare o).rdbFile with ⟨y, f, r⟩
  cases y with
  | err e => simp
  | panic => simp
  | ok u =>
    cases u
    simp only [reduceCtorEq, false_or, Prod.mk.injEq, true_and]
    by_cases hr : w.reopen = false
    · simp [hr]
    rw [if_neg hr]
    have hl := Rdb.C139_exact ord ⟨0, 0, [], 0, []⟩ ⟨[], [f.getD []]⟩ (by simp [Rd.WF])
    constructor
    · intro h
      refine ⟨f, r, ⟨rfl, rfl⟩, by simpa using hr, hl.1 ?_⟩
      rcases hy : Rdb.load ord ⟨0, 0, [], 0, []⟩ ⟨[], [f.getD []]⟩ with ⟨z, s⟩
      rw [hy] at h
      cases z with
      | ok u => cases h
      | err e => cases h
      | panic => rfl
    · rintro ⟨f', r', ⟨rfl, rfl⟩, _, h⟩
      have h := hl.2 h
      rcases hy : Rdb.load ord ⟨0, 0, [], 0, []⟩ ⟨[], [f.getD []]⟩ with ⟨z, s⟩
      rw [hy] at h
      cases h; rfl

/-- C139 is false for `New` even before the snapshot: whatever the options, if the master answers the PING with a bulk header of a
length below -1, the process ends. -/
theorem C139_violated_ping (ord : Rdb.MapOrd) (w : World) (o : Opts) (hd : w.dial = true) (hp : w.pingSent = true)
    (line rest : Bytes) (n : Int64) (h10 : (10 : UInt8) ∉ line) (hl : line.length + 2 ≤ bufSize) (hn : atoi line = some n)
    (hneg : n.toInt < -1) (hw : w.input.WF) (hf : w.input.flat = b!"$" ++ line ++ crlf ++ rest) : (new ord w o).1 = .panic :=
  (C139_new_exact ord w o).2 (.inl ⟨hd, hp, (C49_exact line rest n h10 hl hn w.input hw hf).2 (.inl hneg)⟩)

/-- C139 is false for `New` also after a proper PONG: supported records and then a key that is cut off within its two-byte length. -/
theorem C139_violated_new (ord : Rdb.MapOrd) (hord : ∀ n l, (ord n l).Perm l) (w : World) (o : Opts) (hdr : Bytes)
    (hh : hdr.length = 9) (items : List Rdb.Item) (hs : ∀ i ∈ items, i.Supported) (hv : ∀ i ∈ items, i.Valid) (op : UInt8)
    (hop : op.toNat < 247) (d : Bytes) (hd : Rdb.StrFault d) (f : Bytes) (r : Rd)
    (hf : Rdb.Holds (.raw hdr :: items.flatMap Rdb.Item.pieces) (op :: d) ⟨[], [f]⟩)
    (hsync : syncWithRedis w (prepare o).addr (prepare o).rdbFile = (.ok (), some f, r)) (hr : w.reopen = true) :
    (new ord w o).1 = .panic :=
  (C139_new_exact ord w o).2 (.inr ⟨some f, r, hsync, hr,
    (Rdb.C139_exact ord _ _ hf.wf).1 (Rdb.C139_violated ord hord _ hdr hh items hs hv op hop d hd _ hf)⟩)

/-- A world that sends such an answer to the PING, and one that sends such a snapshot. -/
example : (new Rdb.idOrd ⟨true, true, true, true, true, ⟨[], [b!"$-2\r\n"]⟩⟩ ⟨[], [], 0⟩).1 = .panic :=
  C139_violated_ping _ _ _ rfl rfl b!"-2" [] (-2) (by decide) (by decide) (by decide) (by decide) (by simp [Rd.WF]) rfl

example : (new Rdb.idOrd ⟨true, true, true, true, true, ⟨[], [b!"+PONG\r\n$11\r\nREDIS0009" ++ [0, 0x41]]⟩⟩ ⟨[], [], 0⟩).1 = .panic :=
  C139_violated_new _ (fun _ _ => .refl _) _ _ b!"REDIS0009" rfl [] (by simp) (by simp) 0 (by decide) [0x41]
    (.inl ⟨_, rfl, by decide⟩) (b!"REDIS0009" ++ [0, 0x41]) ⟨[], [[]]⟩
    (Rdb.holds_small [.raw b!"REDIS0009"] [0, 0x41] (by simp [Rdb.bytes, Rdb.Piece.bytes, bufSize])) (by decide +kernel) rfl

/-- C139 for `New`: if the answer to the PING does not make `ReadMessage` panic and the file, after whole records, ends or
goes on with the end marker, `New` does not panic. -/
theorem C139_new_partial (ord : Rdb.MapOrd) (w : World) (o : Opts) (hp : (readMessage w.input).1 ≠ .panic)
    (hf : ∀ f r, syncWithRedis w (prepare o).addr (prepare o).rdbFile = (.ok (), f, r) →
      ∃ hdr r0 s1 r1, Resp.read 9 ⟨[], [f.getD []]⟩ = (.ok hdr, r0) ∧ Rdb.Trace ord ⟨0, 0, [], 0, []⟩ r0 s1 r1 ∧
        (r1.flat.length ≤ 1 ∨ ∃ rest, r1.flat = 255 :: rest)) :
    (new ord w o).1 ≠ .panic := by
  rw [Ne, C139_new_exact]
  rintro (⟨_, _, h⟩ | ⟨f, r, h1, _, h2⟩)
  · exact hp h
  · obtain ⟨hdr, r0, s1, r1, g1, g2, g3⟩ := hf f r h1
    exact Rdb.C139_boundary_partial ord ⟨0, 0, [], 0, []⟩ s1 ⟨[], [f.getD []]⟩ r0 r1 hdr (by simp [Rd.WF]) g1 g2 g3
      ((Rdb.C139_exact ord _ _ (by simp [Rd.WF])).2 h2)

end Verif.Repl

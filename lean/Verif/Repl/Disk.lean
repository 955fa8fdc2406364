import Verif.Repl.PropsEnd
import Verif.Resp.PropsWriter
/-!
# C108: connecting when the disk may fail

`SyncWithRedis` and `New` again (redis/replication.go:44-74, 134-155, xxcache.go:31-61), now with a
file whose writes may fail (`Resp/Writer`).  With a disk that works this is `Repl.new`
(`C108_new_working`).
-/
namespace Verif.Repl

open Verif.Resp
open Verif.Rdb (Item Header Holds KeyRec MapOrd LState meaning filePieces keyCmds)

/-- The errors of `New`, the disk included. -/
inductive DErr where
  | new (e : NErr)
  | write
deriving DecidableEq

/-- `(*Replication).sync` (redis/replication.go:134-155) onto a file with the write outcomes `net`. -/
def syncOn (w : World) (net : List (Option Nat)) (r : Rd) : GoRes DErr Unit × Option Bytes × Rd :=
  if w.syncSent = false then (.err (.new (.sync .send)), none, r)
  else if w.create = false then (.err (.new (.sync .create)), none, r)
  else
    match saveTo r net with
    | (.ok _, f, r) => (.ok (), some f, r)
    | (.err (.read e), f, r) => (.err (.new (.sync (.read e))), some f, r)
    | (.err .write, f, r) => (.err .write, some f, r)
    | (.panic, f, r) => (.panic, some f, r)

/-- `(*Replication).SyncWithRedis` (redis/replication.go:44-74), likewise. -/
def syncWithRedisOn (w : World) (net : List (Option Nat)) (addr rdbFile : Bytes) : GoRes DErr Unit × Option Bytes × Rd :=
  if rdbFile = [] then (.err (.new (.sync .noFile)), none, w.input)
  else if addr = [] then (.err (.new (.sync .noAddr)), none, w.input)
  else if w.dial = false then (.err (.new (.sync .dial)), none, w.input)
  else
    match ping w w.input with
    | (.ok (), r) => syncOn w net r
    | (.err e, r) => (.err (.new (.sync e)), none, r)
    | (.panic, r) => (.panic, none, r)

/-- The sequential part of `New` (xxcache.go:31-61), likewise: the result, the messages of `Load`,
and what the master sends behind the snapshot. -/
def newOn (ord : MapOrd) (w : World) (net : List (Option Nat)) (o : Opts) : GoRes DErr Unit × List Tagged × Rd :=
  let o := prepare o
  match syncWithRedisOn w net o.addr o.rdbFile with
  | (.err e, _, r) => (.err e, [], r)
  | (.panic, _, r) => (.panic, [], r)
  | (.ok (), f, r) =>
    if w.reopen = false then (.err (.new .open_), [], r)
    else
      match Rdb.load ord ⟨0, 0, [], 0, []⟩ ⟨[], [f.getD []]⟩ with
      | (.ok (), s) => (.ok (), s.out.map tagged, r)
      | (.err e, s) => (.err (.new (.load e)), s.out.map tagged, r)
      | (.panic, s) => (.panic, s.out.map tagged, r)

/-- The errors of `SyncWithRedis` as errors of `New`. -/
def lift : GoRes SErr Unit → GoRes DErr Unit
  | .ok x => .ok x
  | .err e => .err (.new (.sync e))
  | .panic => .panic

theorem syncOn_nil (w : World) (r : Rd) : syncOn w [] r = (lift (sync w r).1, (sync w r).2) := by
  by_cases h1 : w.syncSent = false
  · simp [syncOn, sync, h1, lift]
  · by_cases h2 : w.create = false
    · simp [syncOn, sync, h1, h2, lift]
    · simp only [syncOn, sync, if_neg h1, if_neg h2, C108_working_disk]
      rcases readWithWriter r with ⟨x, f, r'⟩
      cases x <;> rfl

theorem syncWithRedisOn_nil (w : World) (a f : Bytes) :
    syncWithRedisOn w [] a f = (lift (syncWithRedis w a f).1, (syncWithRedis w a f).2) := by
  by_cases h1 : f = []
  · simp [syncWithRedisOn, syncWithRedis, h1, lift]
  · by_cases h2 : a = []
    · simp [syncWithRedisOn, syncWithRedis, h1, h2, lift]
    · by_cases h3 : w.dial = false
      · simp [syncWithRedisOn, syncWithRedis, h1, h2, h3, lift]
      · simp only [syncWithRedisOn, syncWithRedis, if_neg h1, if_neg h2, if_neg h3]
        rcases ping w w.input with ⟨x, r⟩
        cases x with
        | ok u => exact syncOn_nil w r
        | err e => rfl
        | panic => rfl

/-- With a disk that works, this is the model used elsewhere. -/
theorem C108_new_working (ord : MapOrd) (w : World) (o : Opts) :
    newOn ord w [] o = ((match (new ord w o).1 with
      | .ok x => .ok x
      | .err e => .err (.new e)
      | .panic => .panic), (new ord w o).2.2.1, (new ord w o).2.2.2) := by
  simp only [newOn, new, syncWithRedisOn_nil]
  rcases syncWithRedis w (prepare o).addr (prepare o).rdbFile with ⟨x, f, r⟩
  cases x with
  | err e => rfl
  | panic => rfl
  | ok u =>
    simp only [lift]
    by_cases h : w.reopen = false
    · simp [h]
    · simp only [if_neg h]
      rcases Rdb.load ord ⟨0, 0, [], 0, []⟩ ⟨[], [f.getD []]⟩ with ⟨y, s⟩
      cases y <;> rfl

/-- C108, as far as it holds: for a supported snapshot (as in C65), whatever the disk does, if `New`
succeeds then it has loaded every key of the snapshot; a snapshot that was not saved completely is
found out by loading it at the latest.  Missing: `SyncWithRedis` itself does not notice
(`C108_violated`), and files that are not supported (C67). -/
theorem C108_new_partial (ord : MapOrd) (hord : ∀ n l, (ord n l).Perm l) (hdr : Bytes) (hh : Header hdr) (items : List Item)
    (hs : ∀ i ∈ items, i.Supported) (hv : ∀ i ∈ items, i.Valid) (sum : Bytes)
    (hb : ∀ t, t <+: sum → Holds (filePieces hdr items) t (Rdb.file (Rdb.bytes (filePieces hdr items) ++ t)))
    (hl : (Rdb.bytes (filePieces hdr items) ++ sum).length < 2 ^ 63)
    (w : World) (rest : Bytes) (hw : w.input.WF) (hi : w.input.flat = greeting (Rdb.bytes (filePieces hdr items) ++ sum) ++ rest)
    (o : Opts) (net : List (Option Nat)) (snap : List Tagged) (r : Rd) (h : newOn ord w net o = (.ok (), snap, r)) :
    snap = ((meaning none 0 items).flatMap keyCmds).map tagged ∧ r.flat = rest := by
  simp only [newOn, syncWithRedisOn] at h
  have hf : (prepare o).rdbFile ≠ [] := by simp only [prepare]; split <;> simp_all
  have ha : (prepare o).addr ≠ [] := by simp only [prepare]; split <;> simp_all
  simp only [if_neg hf, if_neg ha] at h
  by_cases hd : w.dial = false
  · simp [hd] at h
  simp only [if_neg hd] at h
  by_cases hp : w.pingSent = false
  · simp [ping, hp] at h
  obtain ⟨r1, h1, hw1, hf1⟩ := ping_at (by simpa using hp) hw
    (rest := b!"$" ++ natText (Rdb.bytes (filePieces hdr items) ++ sum).length ++ crlf ++ (Rdb.bytes (filePieces hdr items) ++ sum) ++ rest)
    (by rw [hi, greeting]; simp)
  rw [h1] at h
  simp only [syncOn] at h
  by_cases hsn : w.syncSent = false
  · simp [hsn] at h
  by_cases hc : w.create = false
  · simp [hsn, hc] at h
  simp only [if_neg hsn, if_neg hc] at h
  obtain ⟨g1, g2⟩ := C108_exact_partial _ rest hl r1 hw1 hf1 net
  by_cases hg : FirstGood net (((Rdb.bytes (filePieces hdr items) ++ sum).length - 1) / 4096)
  · obtain ⟨f, r', hsave, hpre, hr'⟩ : ∃ f r', saveTo r1 net =
        (.ok (36, ((Rdb.bytes (filePieces hdr items) ++ sum).length : Int)), f, r') ∧
        f <+: Rdb.bytes (filePieces hdr items) ++ sum ∧ r'.flat = rest := by
      obtain ⟨r', hr', hsave⟩ := g1 hg
      refine ⟨_, r', hsave, ?_, hr'⟩
      split
      · exact List.take_prefix _ _
      · exact List.prefix_refl _
    rw [hsave] at h
    simp only [Option.getD_some] at h
    by_cases hro : w.reopen = false
    · simp [hro] at h
    simp only [if_neg hro] at h
    have hload : (Rdb.load ord ⟨0, 0, [], 0, []⟩ (Rdb.file f)).1 = .ok () ∧
        snap = (Rdb.load ord ⟨0, 0, [], 0, []⟩ (Rdb.file f)).2.out.map tagged ∧ r' = r := by
      have e : (⟨[], [f]⟩ : Rd) = Rdb.file f := rfl
      rw [e] at h
      generalize Rdb.load ord ⟨0, 0, [], 0, []⟩ (Rdb.file f) = x at h ⊢
      obtain ⟨y, s⟩ := x
      cases y with
      | ok u =>
        simp only [Prod.mk.injEq, true_and] at h
        exact ⟨rfl, h.1.symm, h.2⟩
      | err e => simp at h
      | panic => simp at h
    refine ⟨?_, by rw [← hload.2.2]; exact hr'⟩
    rw [hload.2.1]
    by_cases hcut : f.length < (Rdb.bytes (filePieces hdr items)).length
    · exfalso
      have hfp : f <+: Rdb.bytes (filePieces hdr items) :=
        List.prefix_of_prefix_length_le hpre (List.prefix_append _ _) (Nat.le_of_lt hcut)
      obtain ⟨q, hq⟩ := hfp
      have hb0 := hb [] List.nil_prefix
      rw [List.append_nil] at hb0
      refine Rdb.C67_truncated_partial ord hord hdr hh items hs hv hb0 f q hq.symm ?_ _ hload.1
      intro hqe
      rw [hqe, List.append_nil] at hq
      rw [hq] at hcut
      omega
    · have hfp : Rdb.bytes (filePieces hdr items) <+: f :=
        List.prefix_of_prefix_length_le (List.prefix_append _ _) hpre (by omega)
      obtain ⟨t, ht⟩ := hfp
      have htp : t <+: sum := by
        rw [← ht] at hpre
        exact (List.prefix_append_right_inj _).mp hpre
      obtain ⟨s', k1, k2⟩ := Rdb.load_at hord hh hs hv (hb t htp) (s := .init) (db := 0) rfl
      have : Rdb.load ord ⟨0, 0, [], 0, []⟩ (Rdb.file f) = (.ok (), s') := by rw [← ht]; exact k1
      rw [this]
      rw [show s'.out = (meaning none 0 items).flatMap keyCmds from by simpa [LState.init] using k2]
  · obtain ⟨f, r', hsave, _⟩ := g2 hg
    rw [hsave] at h
    simp at h

/-- The conditions on blocks are met by every snapshot of at most 4096 bytes, here one with a checksum. -/
example : ∀ t, t <+: ([1, 2, 3, 4, 5, 6, 7, 8] : Bytes) →
    Holds (filePieces b!"REDIS0009" endItems) t (Rdb.file (Rdb.bytes (filePieces b!"REDIS0009" endItems) ++ t)) := by
  intro t ht
  refine Rdb.holds_small _ _ ?_
  have h1 := ht.length_le
  have h2 : (Rdb.bytes (filePieces b!"REDIS0009" endItems)).length ≤ 1000 := by decide +kernel
  simp only [List.length_append, bufSize, List.length_cons, List.length_nil] at *
  omega

/-- A snapshot of which all but the checksum reaches the disk is used; one byte less, and `New` fails. -/
example : (newOn Rdb.idOrd sampleWorld [none] ⟨[], [], 0⟩).1 = .ok () ∧
    (newOn Rdb.idOrd sampleWorld [some 14] ⟨[], [], 0⟩).1 = .err (.new (.load .eof)) := by decide +kernel

end Verif.Repl

import Verif.Repl.Places
/-!
# C138: New goes where its options say
-/
namespace Verif.Repl

open Verif.Resp

theorem pingT_ping (w : World) (a : Bytes) (r : Rd) : pingT w a r = (ping w r, [.send a b!"*1\r\n$4\r\nping\r\n"]) := by
  have e : ser (command [b!"ping"]) = b!"*1\r\n$4\r\nping\r\n" := by decide +kernel
  unfold pingT ping
  rw [e]
  by_cases h : w.pingSent = false
  · simp [h]
  · simp only [if_neg h]
    rcases readMessage r with ⟨x, r'⟩
    cases x with
    | ok m => simp only; split <;> rfl
    | err e => rfl
    | panic => rfl

theorem syncT_sync (w : World) (a f : Bytes) (r : Rd) : syncT w a f r =
    (sync w r, .send a b!"*1\r\n$4\r\nSYNC\r\n" :: if w.syncSent = false then [] else [.create f]) := by
  have e : ser (command [b!"SYNC"]) = b!"*1\r\n$4\r\nSYNC\r\n" := by decide +kernel
  unfold syncT sync
  rw [e]
  by_cases h : w.syncSent = false
  · simp [h]
  · by_cases h2 : w.create = false
    · simp [h, h2]
    · simp only [if_neg h, if_neg h2]
      rcases readWithWriter r with ⟨x, f', r'⟩
      cases x <;> rfl

/-- All `New` may ask for, in order. -/
def plan (o : Opts) : List Op :=
  [.dial (prepare o).addr, .send (prepare o).addr b!"*1\r\n$4\r\nping\r\n", .send (prepare o).addr b!"*1\r\n$4\r\nSYNC\r\n",
   .create (prepare o).rdbFile, .open_ (prepare o).rdbFile]

/-- How far it comes. -/
def reached (w : World) (o : Opts) : Nat :=
  if w.dial = false then 1
  else if (ping w w.input).1 ≠ .ok () then 2
  else if w.syncSent = false then 3
  else if (syncWithRedis w (prepare o).addr (prepare o).rdbFile).1 ≠ .ok () then 4
  else 5

theorem syncWithRedisT_eq (w : World) (o : Opts) : syncWithRedisT w (prepare o).addr (prepare o).rdbFile =
    (syncWithRedis w (prepare o).addr (prepare o).rdbFile, (plan o).take (min (reached w o) 4)) := by
  have hf := Again.prepare_file o
  have ha := Again.prepare_addr o
  unfold syncWithRedisT reached syncWithRedis plan
  simp only [if_neg hf, if_neg ha, pingT_ping]
  by_cases hd : w.dial = false
  · simp [hd]
  · simp only [if_neg hd]
    rcases hp : ping w w.input with ⟨x, r⟩
    cases x with
    | err e => simp
    | panic => simp
    | ok u =>
      simp only [syncT_sync, ne_eq, not_true_eq_false, if_false]
      by_cases hs : w.syncSent = false
      · simp [hs]
      · simp only [if_neg hs]
        split <;> simp

/-- Without the record it is `new`. -/
theorem newT_new (ord : Rdb.MapOrd) (w : World) (o : Opts) : (newT ord w o).1 = new ord w o := by
  unfold newT new
  simp only [syncWithRedisT_eq]
  rcases syncWithRedis w (prepare o).addr (prepare o).rdbFile with ⟨x, f, r⟩
  cases x with
  | err e => rfl
  | panic => rfl
  | ok u =>
    simp only
    by_cases h : w.reopen = false
    · simp [h]
    · simp only [if_neg h]
      rcases Rdb.load ord ⟨0, 0, [], 0, []⟩ ⟨[], [f.getD []]⟩ with ⟨y, s⟩
      cases y <;> rfl

/-- C138: whatever happens outside, `New` asks only for what is planned, in that order, and stops where something fails: it dials the address the options name,
greets the master, asks it for a snapshot, creates the file the options name and reads that file back. -/
theorem C138_ops (ord : Rdb.MapOrd) (w : World) (o : Opts) : (newT ord w o).2.1 = (plan o).take (reached w o) := by
  unfold newT
  simp only [syncWithRedisT_eq]
  have hp : (plan o).length = 5 := rfl
  rcases hx : syncWithRedis w (prepare o).addr (prepare o).rdbFile with ⟨x, f, r⟩
  have hn : ∀ {y : GoRes SErr Unit}, y ≠ .ok () → x = y → reached w o ≤ 4 := by
    intro y hy e
    unfold reached
    rw [hx, e]
    simp only [if_pos hy]
    split
    · omega
    · split
      · omega
      · split <;> omega
  cases x with
  | err e => simp only [Nat.min_eq_left (hn (by simp) rfl)]
  | panic => simp only [Nat.min_eq_left (hn (by simp) rfl)]
  | ok u =>
    have h5 : reached w o = 5 := by
      have hf := Again.prepare_file o
      have ha := Again.prepare_addr o
      have hx' := hx
      unfold syncWithRedis at hx'
      simp only [if_neg hf, if_neg ha] at hx'
      unfold reached
      rw [hx]
      by_cases hd : w.dial = false
      · simp [hd] at hx'
      · simp only [if_neg hd] at hx' ⊢
        rcases hq : ping w w.input with ⟨y, r'⟩
        rw [hq] at hx'
        cases y with
        | err e => simp at hx'
        | panic => simp at hx'
        | ok v =>
          simp only [ne_eq, not_true_eq_false, if_false]
          by_cases hs : w.syncSent = false
          · simp [sync, hs] at hx'
          · simp [hs]
    have e : (plan o).take (min (reached w o) 4) ++ [Op.open_ (prepare o).rdbFile] = (plan o).take (reached w o) := by rw [h5]; rfl
    simp only [e]
    by_cases h : w.reopen = false
    · simp [h]
    · simp only [if_neg h]
      rcases Rdb.load ord ⟨0, 0, [], 0, []⟩ ⟨[], [f.getD []]⟩ with ⟨y, s⟩
      cases y <;> rfl

/-- C138: where the options name no master it is the one on this machine at the port of Redis, where they name no file it is `temp.rdb`; names given are kept. -/
theorem C138_defaults (o : Opts) :
    (prepare o).addr = (if o.addr = [] then b!"127.0.0.1:6379" else o.addr) ∧
    (prepare o).rdbFile = (if o.rdbFile = [] then b!"temp.rdb" else o.rdbFile) := ⟨rfl, rfl⟩

/-- C138: the connections of the remote client, which `Set` uses, go to the master whose snapshot was loaded; there is a remote client if and only if `New` reported
no error. -/
theorem C138_same_master (ord : Rdb.MapOrd) (w : World) (o : Opts) :
    (newT ord w o).2.2 = (match (new ord w o).1 with
      | .ok _ => some (prepare o).addr
      | _ => none) := by
  unfold newT new
  simp only [syncWithRedisT_eq]
  rcases syncWithRedis w (prepare o).addr (prepare o).rdbFile with ⟨x, f, r⟩
  cases x with
  | err e => rfl
  | panic => rfl
  | ok u =>
    simp only
    by_cases h : w.reopen = false
    · simp [h]
    · simp only [if_neg h]
      rcases Rdb.load ord ⟨0, 0, [], 0, []⟩ ⟨[], [f.getD []]⟩ with ⟨y, s⟩
      cases y <;> rfl

/-- A call of `New` that comes to its end, and one that finds no master. -/
example : (newT (fun _ l => l) ⟨true, true, true, true, true, ⟨[], [b!"+PONG\r\n", b!"$10\r\nREDIS0009" ++ [255]]⟩⟩ ⟨[], [], 0⟩).2 =
      ([.dial b!"127.0.0.1:6379", .send b!"127.0.0.1:6379" b!"*1\r\n$4\r\nping\r\n", .send b!"127.0.0.1:6379" b!"*1\r\n$4\r\nSYNC\r\n",
        .create b!"temp.rdb", .open_ b!"temp.rdb"], some b!"127.0.0.1:6379") ∧
    (newT (fun _ l => l) ⟨false, true, true, true, true, ⟨[], []⟩⟩ ⟨b!"master:1", [], 0⟩).2 = ([.dial b!"master:1"], none) := by
  decide +kernel

end Verif.Repl

import Verif.Repl.PropsEnd
/-!
# Several calls of New and the files they use

Source: xxcache.go:31-61, redis/replication.go:134-155, 171-185.  Any number of goroutines (or
programs on one machine) call `New`, each with its own options and its own master.  Each saves the
snapshot in its file (created or emptied when it is opened, then written in pieces as the buffer of
`ReadWithWriter` fills), opens the file again and reads it in pieces.

Simplified: names are files, so two different names are two files; a call reads its file to the end,
where `Load` stops at the end mark (it does not look at what follows); the messages of `Load` are handed
over when it is done.
-/
namespace Verif.Repl.Files
open Verif.Resp

/-- What a call of `New` has come to: the error and the messages of `Load`. -/
abbrev Result := GoRes NErr Unit × List Tagged

/-- `Load` on a file with these bytes (redis/replication.go:171-). -/
def loaded (ord : Rdb.MapOrd) (seen : Bytes) : Result :=
  match Rdb.load ord ⟨0, 0, [], 0, []⟩ ⟨[], [seen]⟩ with
  | (.ok (), s) => (.ok (), s.out.map tagged)
  | (.err e, s) => (.err (.load e), s.out.map tagged)
  | (.panic, s) => (.panic, s.out.map tagged)

/-- Where a call is. -/
inductive PC where
  | start
  | saving (written rest : Bytes)
  | reading (seen : Bytes)
  | done (r : Result)

/-- The calls: what is outside of each, and its options. -/
structure Calls where
  world : Nat → World
  opts : Nat → Opts

/-- The file of a call (xxcache.go:38, 87-89). -/
def Calls.file (c : Calls) (i : Nat) : Bytes := (prepare (c.opts i)).rdbFile

/-- `SyncWithRedis` of a call: result, and what it writes to its file if it opens it. -/
def Calls.sync (c : Calls) (i : Nat) : GoRes SErr Unit × Option Bytes × Rd :=
  syncWithRedis (c.world i) (prepare (c.opts i)).addr (prepare (c.opts i)).rdbFile

/-- The contents of the files, and where the calls are. -/
structure State where
  fs : Bytes → Option Bytes
  pc : Nat → PC

def setPC (pc : Nat → PC) (i : Nat) (p : PC) : Nat → PC := fun j => if j = i then p else pc j

/-- Writing `p` at position `off`; what was never written in between is zero. -/
def overlay (c : Bytes) (off : Nat) (p : Bytes) : Bytes :=
  c.take off ++ List.replicate (off - c.length) 0 ++ p ++ c.drop (off + p.length)

/-- What `New` returns when `SyncWithRedis` fails (xxcache.go:43-45), or the file cannot be opened again. -/
def early (x : GoRes SErr Unit) : Result :=
  match x with
  | .ok _ => (.err .open_, [])
  | .err e => (.err (.sync e), [])
  | .panic => (.panic, [])

/-- One step of call `i`; the flag says that the step changes its file. -/
inductive Step (ord : Rdb.MapOrd) (c : Calls) : Nat → Bool → State → State → Prop
  /-- it fails before it opens its file -/
  | noFile {s : State} {i x r} : s.pc i = .start → c.sync i = (x, none, r) →
      Step ord c i false s { s with pc := setPC s.pc i (.done (early x)) }
  /-- redis/replication.go:144, `O_CREATE|O_TRUNC` -/
  | create {s : State} {i x f r} : s.pc i = .start → c.sync i = (x, some f, r) →
      Step ord c i true s { fs := upd s.fs (c.file i) (some []), pc := setPC s.pc i (.saving [] f) }
  /-- some of the buffer is written -/
  | write {s : State} {i w p rest} : s.pc i = .saving w (p ++ rest) → p ≠ [] →
      Step ord c i true s { fs := upd s.fs (c.file i) (some (overlay ((s.fs (c.file i)).getD []) w.length p)), pc := setPC s.pc i (.saving (w ++ p) rest) }
  /-- saving failed, or the file cannot be opened again -/
  | failed {s : State} {i w x f r} : s.pc i = .saving w [] → c.sync i = (x, f, r) → (x ≠ .ok () ∨ (c.world i).reopen = false) →
      Step ord c i false s { s with pc := setPC s.pc i (.done (early x)) }
  /-- redis/replication.go:176-180 -/
  | reopen {s : State} {i w f r} : s.pc i = .saving w [] → c.sync i = (.ok (), f, r) → (c.world i).reopen = true →
      Step ord c i false s { s with pc := setPC s.pc i (.reading []) }
  /-- the next bytes of the file are read -/
  | read {s : State} {i seen p rest} : s.pc i = .reading seen → ((s.fs (c.file i)).getD []).drop seen.length = p ++ rest → p ≠ [] →
      Step ord c i false s { s with pc := setPC s.pc i (.reading (seen ++ p)) }
  /-- there is nothing more to read -/
  | eof {s : State} {i seen} : s.pc i = .reading seen → ((s.fs (c.file i)).getD []).drop seen.length = [] →
      Step ord c i false s { s with pc := setPC s.pc i (.done (loaded ord seen)) }

/-- Nothing has been called yet; the files hold anything. -/
def State.init (fs : Bytes → Option Bytes) : State := ⟨fs, fun _ => .start⟩

inductive Run (ord : Rdb.MapOrd) (c : Calls) (s0 : State) : State → Prop
  | start : Run ord c s0 s0
  | next {s t i w} : Run ord c s0 s → Step ord c i w s t → Run ord c s0 t

/-- Between opening its file and having read it. -/
def PC.busy : PC → Prop
  | .saving _ _ => True
  | .reading _ => True
  | _ => False

/-- Nobody else is busy with the file of call `i`. -/
def Alone (c : Calls) (s : State) (i : Nat) : Prop := ∀ j, j ≠ i → c.file j = c.file i → ¬ (s.pc j).busy

/-- Runs in which a file is changed only while nobody else is busy with it. -/
inductive Polite (ord : Rdb.MapOrd) (c : Calls) (s0 : State) : State → Prop
  | start : Polite ord c s0 s0
  | next {s t i w} : Polite ord c s0 s → Step ord c i w s t → (w = true → Alone c s i) → Polite ord c s0 t

/-- What a call of `New` comes to when it is the only one: the model used elsewhere. -/
def alone (ord : Rdb.MapOrd) (c : Calls) (i : Nat) : Result :=
  ((new ord (c.world i) (c.opts i)).1, (new ord (c.world i) (c.opts i)).2.2.1)

end Verif.Repl.Files

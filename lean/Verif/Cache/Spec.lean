import Verif.Cache.Hist
/-!
# Specification vocabulary for the cache properties

Small notions the property theorems are stated with.  None of them is used by the model.
-/
namespace Verif

/-- What a key holds at time `t`, as a user sees it: nothing if nothing is stored or its
deadline lies before `t`. -/
def liveVal (c : Cache) (t : Int) (k : Bytes) : Option Val :=
  match c.data k with
  | none => none
  | some v =>
    match c.exp k with
    | none => some v
    | some d => if d < t then none else some v

/-- A key whose deadline has passed but that no call has swept away yet. -/
def Stale (c : Cache) (t : Int) (k : Bytes) : Prop :=
  c.data k ≠ none ∧ ∃ d, c.exp k = some d ∧ d < t

/-- The deadline of `k`, if it has one, has not passed at `t`. -/
def NotPassed (c : Cache) (t : Int) (k : Bytes) : Prop := ∀ d, c.exp k = some d → t ≤ d

/-- The text `Get` shows after a value `v` was stored: decimal text of an integer literal, else
shortest text of a float literal, else `v` itself. -/
def canon (v : Bytes) : Bytes :=
  match atoi v with
  | some n => itoa n
  | none => match parseFloat v with
    | some f => formatFloat f
    | none => v

/-- Text that is neither an integer nor a float literal of Go. -/
def NonNumeric (v : Bytes) : Prop := atoi v = none ∧ parseFloat v = none

/-- Values that are stored without change: non-numeric text and canonical integers. -/
def Verbatim (v : Bytes) : Prop := NonNumeric v ∨ ∃ n : Int64, v = itoa n

/-- Calls that never write to `k` (pure readers of `k`, and calls that do not name `k`).
`HExists` is a writer: it changes the stored length. -/
def Call.writes (k : Bytes) : Call → Bool
  | .set j _ | .setNX j _ | .setEX j _ _ | .pSetEX j _ _ | .getSet j _ | .append j _
  | .setRange j _ _ | .incr j | .incrBy j _ | .incrByFloat j _ | .decr j | .decrBy j _ | .del j
  | .hSet j _ _ | .hSetNX j _ _ | .hExists j _ | .hDel j _ | .hIncrBy j _ _
  | .hIncrByFloat j _ _ | .hMSet j _ => j = k
  | .mSet kv | .mSetNX kv => kv.any (fun p => p.1 = k)
  | .flush | .cronTick => true
  | .get _ | .strLen _ | .getRange _ _ _ | .mGet _ | .exists_ _ | .type _ | .hLen _
  | .hStrLen _ _ | .hGet _ _ | .hMGet _ _ | .hKeys _ | .hVals _ | .hGetAll _ | .list _ => false

/-- No call of the history writes `k`. -/
def NoWrite (k : Bytes) (h : History) : Prop := ∀ p ∈ h, p.2.writes k = false

/-- Every call of the history happens at or before `t`. -/
def Until (t : Int) (h : History) : Prop := ∀ p ∈ h, p.1 ≤ t

/-- The states an application can reach: a new cache after some history. -/
def Reachable (c : Cache) : Prop := ∃ h : History, c = run Cache.new h

/-- The calls that change strings or remove keys one at a time: those a user may take to be atomic. -/
def Call.exclusive : Call → Bool
  | .set .. | .setNX .. | .setEX .. | .pSetEX .. | .getSet .. | .append .. | .setRange .. | .incr .. | .incrBy ..
  | .incrByFloat .. | .decr .. | .decrBy .. | .del .. | .flush => true
  | _ => false

/-- The calls that look at one string. -/
def Call.look : Call → Bool
  | .get .. | .strLen .. | .getRange .. => true
  | _ => false

end Verif

import Verif.Cache.HashModel
/-!
# Calls, outcomes and histories

`exec` dispatches one API call; `run` executes a history (calls with clock readings).
The list calls (cache/cachelist.go:17-83) all panic ("implement me").
-/
namespace Verif

/-- One API call of `*cache.Cache`, or a tick of the background sweep. -/
inductive Call where
  | set (k v : Bytes)
  | setNX (k v : Bytes)
  | setEX (k v : Bytes) (secs : Int64)
  | pSetEX (k v : Bytes) (ms : Int64)
  | get (k : Bytes)
  | getSet (k v : Bytes)
  | strLen (k : Bytes)
  | append (k v : Bytes)
  | setRange (k : Bytes) (pos : Int64) (r : Bytes)
  | getRange (k : Bytes) (start stop : Int64)
  | incr (k : Bytes)
  | incrBy (k : Bytes) (n : Int64)
  | incrByFloat (k : Bytes) (x : F64)
  | decr (k : Bytes)
  | decrBy (k : Bytes) (n : Int64)
  | mSet (kv : List (Bytes × Bytes))
  | mSetNX (kv : List (Bytes × Bytes))
  | mGet (ks : List Bytes)
  | del (k : Bytes)
  | flush
  | exists_ (ks : List Bytes)
  | type (k : Bytes)
  | hSet (k f v : Bytes)
  | hSetNX (k f v : Bytes)
  | hExists (k f : Bytes)
  | hDel (k : Bytes) (fields : List Bytes)
  | hLen (k : Bytes)
  | hStrLen (k f : Bytes)
  | hGet (k f : Bytes)
  | hIncrBy (k f : Bytes) (n : Int64)
  | hIncrByFloat (k f : Bytes) (x : F64)
  | hMSet (k : Bytes) (fv : List (Bytes × Bytes))
  | hMGet (k : Bytes) (fields : List Bytes)
  | hKeys (k : Bytes)
  | hVals (k : Bytes)
  | hGetAll (k : Bytes)
  | list (k : Bytes)
  | cronTick

/-- Observable outcome of a call. -/
inductive Out where
  | str (r : Res Bytes)
  | int (r : Res Int)
  | float (r : Res F64)
  | slots (r : Res (List (Res Bytes)))
  | strs (r : Res (List Bytes))
  | pairs (r : Res (List (Bytes × Bytes)))
  | unit
  | panic
deriving DecidableEq

/-- Execute one call at clock reading `now`. -/
def exec (c : Cache) (now : Int) : Call → Cache × Out
  | .set k v => let (c', r) := c.set k v; (c', .str r)
  | .setNX k v => let (c', r) := c.setNX k v; (c', .int (r.map Int64.toInt))
  | .setEX k v s => let (c', r) := c.setEX now k v s; (c', .str r)
  | .pSetEX k v s => let (c', r) := c.pSetEX now k v s; (c', .str r)
  | .get k => let (c', r) := c.get now k; (c', .str r)
  | .getSet k v => let (c', r) := c.getSet now k v; (c', .str r)
  | .strLen k => let (c', r) := c.strLen now k; (c', .int r)
  | .append k v => let (c', r) := c.append now k v; (c', .int r)
  | .setRange k p s => let (c', r) := c.setRange now k p s; (c', .int r)
  | .getRange k a b => let (c', r) := c.getRange now k a b; (c', .str r)
  | .incr k => let (c', r) := c.incr k; (c', .int (r.map Int64.toInt))
  | .incrBy k n => let (c', r) := c.incrBy k n; (c', .int (r.map Int64.toInt))
  | .incrByFloat k x => let (c', r) := c.incrByFloat k x; (c', .float r)
  | .decr k => let (c', r) := c.decr k; (c', .int (r.map Int64.toInt))
  | .decrBy k n => let (c', r) := c.decrBy k n; (c', .int (r.map Int64.toInt))
  | .mSet kv => let (c', r) := c.mSet kv; (c', .str r)
  | .mSetNX kv => let (c', r) := c.mSetNX kv; (c', .int r)
  | .mGet ks => let (c', r) := c.mGet now ks; (c', .slots (.ok r))
  | .del k => let (c', r) := c.del now k; (c', .int (.ok r))
  | .flush => (c.flush, .unit)
  | .exists_ ks => (c, .int (.ok (c.exists ks)))
  | .type k => let (c', r) := c.type now k; (c', .str (.ok r))
  | .hSet k f v => let (c', r) := c.hSet now k f v; (c', .int r)
  | .hSetNX k f v => let (c', r) := c.hSetNX now k f v; (c', .int r)
  | .hExists k f => let (c', r) := c.hExists now k f; (c', .int r)
  | .hDel k fs => let (c', r) := c.hDel now k fs; (c', .int r)
  | .hLen k => let (c', r) := c.hLen now k; (c', .int r)
  | .hStrLen k f => let (c', r) := c.hStrLen now k f; (c', .int r)
  | .hGet k f => let (c', r) := c.hGet now k f; (c', .str r)
  | .hIncrBy k f n => let (c', r) := c.hIncrBy now k f n; (c', .int (r.map Int64.toInt))
  | .hIncrByFloat k f x => let (c', r) := c.hIncrByFloat now k f x; (c', .float r)
  | .hMSet k fv => let (c', r) := c.hMSet now k fv; (c', .int r)
  | .hMGet k fs => let (c', r) := c.hMGet now k fs; (c', .slots r)
  | .hKeys k => let (c', r) := c.hKeys now k; (c', .strs r)
  | .hVals k => let (c', r) := c.hVals now k; (c', .strs r)
  | .hGetAll k => let (c', r) := c.hGetAll now k; (c', .pairs r)
  | .list _ => (c, .panic)
  | .cronTick => (c.cronTick now, .unit)

/-- A history: calls with the clock reading each of them makes. -/
abbrev History := List (Int × Call)

/-- State after a history. -/
def run (c : Cache) : History → Cache
  | [] => c
  | (t, op) :: h => run (exec c t op).1 h

/-- Outcomes of a history. -/
def outs (c : Cache) : History → List Out
  | [] => []
  | (t, op) :: h => (exec c t op).2 :: outs (exec c t op).1 h

/-- The clock never goes backwards, starting at `t0`. -/
def Monotone (t0 : Int) : History → Prop
  | [] => True
  | (t, _) :: h => t0 ≤ t ∧ Monotone t h

/-- The keys a call names (`none`: it affects all keys). -/
def Call.keys : Call → Option (List Bytes)
  | .set k _ | .setNX k _ | .setEX k _ _ | .pSetEX k _ _ | .get k | .getSet k _ | .strLen k
  | .append k _ | .setRange k _ _ | .getRange k _ _ | .incr k | .incrBy k _ | .incrByFloat k _
  | .decr k | .decrBy k _ | .del k | .type k | .hSet k _ _ | .hSetNX k _ _ | .hExists k _
  | .hDel k _ | .hLen k | .hStrLen k _ | .hGet k _ | .hIncrBy k _ _ | .hIncrByFloat k _ _
  | .hMSet k _ | .hMGet k _ | .hKeys k | .hVals k | .hGetAll k | .list k => some [k]
  | .mSet kv | .mSetNX kv => some (kv.map (·.1))
  | .mGet ks | .exists_ ks => some ks
  | .flush | .cronTick => none

theorem run_append (c : Cache) (h1 h2 : History) : run c (h1 ++ h2) = run (run c h1) h2 := by
  induction h1 generalizing c with
  | nil => rfl
  | cons p h ih => obtain ⟨t, op⟩ := p; simp [run, ih]

end Verif

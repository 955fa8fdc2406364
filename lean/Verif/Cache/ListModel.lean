import Verif.Cache.Hist
/-!
# The list calls: cache/cachelist.go:17-83

All seventeen bodies are `panic("implement me")`.
-/
namespace Verif

/-- The list calls with their arguments (cache/cachelist.go:17-83).  A `time.Duration` is an `Int64`. -/
inductive ListCall where
  | lPush (key : Bytes) (values : List Bytes)
  | lPushX (key : Bytes) (values : List Bytes)
  | rPush (key : Bytes) (values : List Bytes)
  | rPushX (key : Bytes) (values : List Bytes)
  | lPop (key : Bytes)
  | rPop (key : Bytes)
  | rPopLPush (keyFrom keyDestination : Bytes)
  | lRem (key : Bytes) (count : Int64) (value : Bytes)
  | lLen (key : Bytes)
  | lIndex (key : Bytes) (index : Int64)
  | lInsert (key direction pivot value : Bytes)
  | lSet (key : Bytes) (index : Int64) (value : Bytes)
  | lRange (key : Bytes) (start stop : Int64)
  | lTrim (key : Bytes) (start stop : Int64)
  | blPop (timeout : Int64) (keys : List Bytes)
  | brPop (timeout : Int64) (keys : List Bytes)
  | brPopLPush (keyFrom keyDestination : Bytes) (timeout : Int64)

/-- What a list call does to the cache and returns. -/
def Cache.list (c : Cache) : ListCall → Cache × Res Unit
  | .lPush .. | .lPushX .. | .rPush .. | .rPushX .. | .lPop .. | .rPop .. | .rPopLPush .. | .lRem .. | .lLen .. | .lIndex ..
  | .lInsert .. | .lSet .. | .lRange .. | .lTrim .. | .blPop .. | .brPop .. | .brPopLPush .. => (c, .panic)

/-- C29, another way it fails: every list call panics after every history, and (should the caller recover)
leaves the cache as it was. -/
theorem C29_violated_lists (h : History) (q : ListCall) : (run Cache.new h).list q = (run Cache.new h, .panic) := by
  cases q <;> rfl

example : ((run Cache.new [(0, .set b!"k" b!"v")]).list (.rPush b!"k" [b!"a"])).2 = .panic :=
  congrArg Prod.snd (C29_violated_lists [(0, .set b!"k" b!"v")] _)

end Verif

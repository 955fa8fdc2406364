import Verif.Cache.Hist
/-!
# The repository's own tests of the cache

cache/cachehash_test.go and cache/cachestring_test.go as programs: each call with the condition under
which the test goes on.  All tests share the variable `client` (cache/cache_test.go:7).  A map literal
is a list of pairs in the order in which the iteration meets them, so a test that ranges over a map is
a function of these orders.  The benchmarks (cachestring_test.go:390-424) are not modelled.
-/
namespace Verif.Suite

/-- A statement of a test: a call, the negation of the condition of the `if` around it, and whether
its body is `t.Fatal` (stop) rather than `t.Fail` (go on); or `time.Sleep`. -/
inductive Act where
  | call (op : Call) (good : Out → Bool) (fatal : Bool)
  | sleep (ns : Int)

/-- Run a test; `clk i` is the clock reading of statement `i`.  The result is the cache afterwards and
whether the test passed. -/
def run (clk : Nat → Int) : Nat → Cache → List Act → Cache × Bool
  | _, c, [] => (c, true)
  | i, c, .sleep _ :: l => run clk (i + 1) c l
  | i, c, .call op good fatal :: l =>
    match exec c (clk i) op with
    | (c', o) =>
      if good o then run clk (i + 1) c' l
      else if fatal then (c', false)
      else ((run clk (i + 1) c' l).1, false)

/-! ## Conditions -/

/-- `err != nil || val != s` does not hold. -/
def isStr (s : Bytes) : Out → Bool
  | .str (.ok r) => r == s
  | _ => false

/-- `err != nil || n != i` does not hold. -/
def isInt (i : Int) : Out → Bool
  | .int (.ok n) => n == i
  | _ => false

/-- `err != nil || n == i` does not hold. -/
def notInt (i : Int) : Out → Bool
  | .int (.ok n) => n != i
  | _ => false

/-- `err != nil || n != x` does not hold. -/
def isFloat (x : F64) : Out → Bool
  | .float (.ok y) => y == x
  | _ => false

/-- `err != nil` does not hold. -/
def strNoErr : Out → Bool
  | .str (.ok _) => true
  | _ => false

/-- `err == nil` does not hold. -/
def strErr : Out → Bool
  | .str (.err _) => true
  | _ => false

/-- `err != cache.ErrKeyNil || ok == cache.OK` does not hold. -/
def strKeyNil : Out → Bool
  | .str (.err .keyNil) => true
  | _ => false

/-- A call whose result the test ignores. -/
def any : Out → Bool := fun _ => true

/-- The key of most tests. -/
def tk : Bytes := b!"test"

/-- `client.Del("test")`. -/
def delTest : Act := .call (.del tk) any true

/-- A decimal literal of the tests, converted to the nearest float64. -/
def lit (n d : Nat) : F64 := F64.mk' false (F64.roundMag (n * 2 ^ 1074) d)

/-- Its negation. -/
def negLit (n d : Nat) : F64 := F64.mk' true (F64.roundMag (n * 2 ^ 1074) d)

/-! ## cache/cachehash_test.go -/

/-- cache/cachehash_test.go:5-14. -/
def tHSet : List Act :=
  [delTest, .call (.hSet tk b!"a" b!"b") (isInt 1) true, .call (.hSet tk b!"a" b!"b") (isInt 0) true]

/-- cache/cachehash_test.go:16-25. -/
def tHSetNX : List Act :=
  [delTest, .call (.hSetNX tk b!"a" b!"b") (isInt 1) true, .call (.hSetNX tk b!"a" b!"b") (isInt 0) true]

/-- cache/cachehash_test.go:27-40 (line 29 calls `Exists` of the keys "test" and "a"). -/
def tHExists : List Act :=
  [delTest, .call (.exists_ [tk, b!"a"]) (isInt 0) true, .call (.hSet tk b!"a" b!"b") (isInt 1) true,
   .call (.hExists tk b!"a") (isInt 1) true]

/-- cache/cachehash_test.go:42-63. -/
def tHGet : List Act :=
  [delTest, .call (.hGet tk b!"a") strErr true, .call (.hSet tk b!"a" b!"b") (isInt 1) true,
   .call (.hGet tk b!"a") (isStr b!"b") true, .call (.hGet tk b!"b") strErr true, .call (.hGet b!"test1" b!"b") strErr true]

/-- cache/cachehash_test.go:65-88. -/
def tHDel : List Act :=
  [delTest, .call (.hDel tk [b!"a"]) (isInt 0) true, .call (.hSet tk b!"a" b!"b") (isInt 1) true,
   .call (.hDel tk [b!"a"]) (isInt 1) true, .call (.hDel tk [b!"a", b!"b"]) (isInt 1) true]

/-! ## cache/cachestring_test.go -/

/-- cache/cachestring_test.go:10-15. -/
def tSet : List Act := [.call (.set tk tk) (isStr OK) true, delTest]

/-- cache/cachestring_test.go:17-32. -/
def tSetNX : List Act :=
  [.call (.set tk tk) (isStr OK) false, .call (.setNX tk tk) (notInt 1) false, delTest,
   .call (.setNX tk tk) (notInt 0) true, delTest]

/-- cache/cachestring_test.go:34-52. -/
def tSetEX : List Act :=
  [delTest, .call (.setEX tk tk 1) (isStr OK) true, .call (.get tk) (isStr tk) true, .sleep 1000000000,
   .call (.get tk) strKeyNil true, delTest]

/-- cache/cachestring_test.go:53-69. -/
def tPSetEX : List Act :=
  [.call (.pSetEX tk tk 100) strNoErr false, .call (.get tk) strNoErr false, .sleep 100000000, .call (.get tk) strErr false, delTest]

/-- cache/cachestring_test.go:71-99. -/
def tGet : List Act :=
  [delTest, .call (.set tk tk) (isStr OK) true, .call (.get tk) (isStr tk) true,
   .call (.set tk b!"1") (isStr OK) true, .call (.get tk) (isStr b!"1") true,
   .call (.set tk b!"1.11") (isStr OK) true, .call (.get tk) (isStr b!"1.11") true, delTest]

/-- cache/cachestring_test.go:101-114. -/
def tGetSet : List Act :=
  [delTest, .call (.getSet tk tk) strErr false, .call (.getSet tk b!"test1") (isStr tk) false, delTest]

/-- cache/cachestring_test.go:116-132. -/
def tStrLen : List Act :=
  [delTest, .call (.strLen tk) (isInt 0) true, .call (.set tk tk) (isStr OK) true, .call (.strLen tk) (isInt 4) true, delTest]

/-- cache/cachestring_test.go:134-175. -/
def tAppend : List Act :=
  [delTest, .call (.append tk b!"t") (isInt 1) true, .call (.append tk b!"t") (isInt 2) true,
   delTest, .call (.append tk b!"1") (isInt 1) true, .call (.append tk b!"1") (isInt 2) true,
   delTest, .call (.append tk b!"1") (isInt 1) true, .call (.append tk b!"a") (isInt 2) true,
   delTest, .call (.append tk b!"0.1") (isInt 3) true, .call (.append tk b!"a") (isInt 4) true, delTest]

/-- cache/cachestring_test.go:177-230. -/
def tSetRange : List Act :=
  [delTest, .call (.setRange tk 0 tk) (isInt 4) true, .call (.get tk) (isStr tk) true,
   delTest, .call (.setRange tk 1 tk) (isInt 5) true, .call (.get tk) (isStr (0 :: tk)) true,
   delTest, .call (.set tk tk) (isStr OK) true, .call (.setRange tk 2 b!"x") (isInt 4) true, .call (.get tk) (isStr b!"text") true,
   .call (.setRange tk 3 b!"ts") (isInt 5) true, .call (.get tk) (isStr b!"texts") true,
   delTest, .call (.set tk b!"t") (isStr OK) true, .call (.setRange tk 2 b!"st") (isInt 4) true,
   .call (.get tk) (isStr [116, 0, 115, 116]) true, delTest]

/-- cache/cachestring_test.go:232-261. -/
def tGetRange : List Act :=
  [.call (.getRange tk 0 2) (isStr []) true, .call (.set tk tk) (isStr OK) true, .call (.getRange tk 0 1) (isStr b!"te") true,
   .call (.getRange tk 0 (-1)) (isStr tk) true, .call (.getRange tk 0 (-2)) (isStr b!"tes") true,
   .call (.getRange tk (-1) (-1)) (isStr b!"t") true, .call (.getRange tk (-2) (-1)) (isStr b!"st") true]

/-- cache/cachestring_test.go:262-274. -/
def tIncr : List Act := [delTest, .call (.incr tk) (isInt 1) false, .call (.incr tk) (isInt 2) false, delTest]

/-- cache/cachestring_test.go:276-292. -/
def tIncrBy : List Act :=
  [delTest, .call (.incrBy tk 2) (isInt 2) false, .call (.incrBy tk 1) (isInt 3) false, .call (.incrBy tk (-2)) (isInt 1) false, delTest]

/-- cache/cachestring_test.go:294-318. -/
def tIncrByFloat : List Act :=
  [delTest, .call (.incrByFloat tk (lit 21 10)) (isFloat (lit 21 10)) false, .call (.incrByFloat tk (lit 11 10)) (isFloat (lit 32 10)) false,
   .call (.incrByFloat tk (lit 1 1)) (isFloat (lit 42 10)) false, .call (.incrByFloat tk (negLit 1 1)) (isFloat (lit 32 10)) false,
   .call (.incrByFloat tk (negLit 11 10)) (isFloat (lit 21 10)) false, delTest]

/-- cache/cachestring_test.go:320-332. -/
def tDecr : List Act := [delTest, .call (.decr tk) (isInt (-1)) false, .call (.decr tk) (isInt (-2)) false, delTest]

/-- cache/cachestring_test.go:334-342. -/
def tDecrBy : List Act := [.call (.decrBy tk 1) (isInt (-1)) true, .call (.decrBy tk 1) (isInt (-2)) true]

/-- The map of cache/cachestring_test.go:345-350 and 364-369. -/
def pairs : List (Bytes × Bytes) := [(b!"a", b!"a"), (b!"b", b!"b"), (b!"c", b!"c"), (b!"d", b!"d")]

/-- cache/cachestring_test.go:344-361; the map is met in the order `o1` by `MSet` and `o2` by the loop. -/
def tMSet (o1 o2 : List (Bytes × Bytes)) : List Act :=
  .call (.mSet o1) (isStr OK) false :: o2.map fun p => .call (.get p.1) (isStr p.2) false

/-- cache/cachestring_test.go:363-388. -/
def tMSetNX (o1 o2 o3 o4 : List (Bytes × Bytes)) : List Act :=
  (o1.map fun p => .call (.del p.1) any true) ++ .call (.mSetNX o2) (isInt o2.length) true ::
    (o3.map fun p => .call (.get p.1) (isStr p.2) true) ++ [.call (.mSetNX o4) (isInt 0) true]

end Verif.Suite

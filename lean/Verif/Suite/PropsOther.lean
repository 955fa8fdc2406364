import Verif.Repl.Props
import Verif.Lzf.Props
import Verif.Rdb.Packed
import Verif.Client.Pool
import Verif.Client.PropsSession

/-!
# The repository's other tests (C130)

xxcache_test.go, redis/redis_test.go, redis/lzf/lzf_test.go and redis/zipmap/zipmap_test.go.  cache/message_test.go is commented out.
-/

namespace Verif.Suite

open Verif.Repl

/-- How a test ends: `t.Fatal` was not called, it was called, or the test panicked, which ends the whole test run. -/
inductive Verdict where
  | passed | failed | crashed
deriving DecidableEq

/-- `TestNew`, xxcache_test.go:8-20, given what `New` came to; the theorems are about all options, those of the tests (lines 9-14, 23-28) among them. -/
def tNew {ε : Type} : GoRes ε Unit → Verdict
  | .ok _ => .passed
  | .err _ => .failed
  | .panic => .crashed

/-- `TestClient_Get`, xxcache_test.go:22-42: what `New` came to, the client, what its `Set` came to, and the clock at `Get`. -/
def tClientGet {ε ε' : Type} (made : GoRes ε Unit) (client : Client) (set : GoRes ε' Bytes) (now : Int) : Verdict :=
  match made with
  | .panic => .crashed
  | .err _ => .failed
  | .ok _ =>
    match set with
    | .panic => .crashed
    | .err _ => .failed
    | .ok _ =>
      match client.get now b!"a" with
      | .panic => .crashed
      | .err _ => .failed
      | .ok v => if v = b!"this is value for a" then .passed else .failed

/-- `TestDeCompress`, lzf_test.go:9-15: what is logged.  (`TestCompress` logs the first of the two calls.) -/
def tDeCompress (over : UInt8) (htab : Lzf.HTab) : GoRes Empty Bytes :=
  match Lzf.goCompress over htab b!"aabbaabbaa" with
  | .ok z => Lzf.goDecompress z 10
  | .err e => .err e
  | .panic => .panic

/-- `TestZipMap_Set`, zipmap_test.go:8-12: the map after the call; `none` for a panic.  `spare` is what lies behind the slice. -/
def tZipMapSet (spare : Bytes) : Option Bytes := Rdb.zmSet Rdb.zmNew spare b!"a" b!"v"

/-- `TestNew`, redis/redis_test.go:8-19: it logs what the first call of a client comes to, and does not end if that does not return. -/
def tRemoteGet : Client.Answer → Option Verdict
  | .hang => none
  | .noConn => some .passed
  | .done (some _) => some .passed
  | .done none => some .crashed

/-- C130 is false: whatever the master, its snapshot and its answer to `Set`, and whatever the options, `TestClient_Get` does not pass.  If `New` and `Set` go
well it crashes; otherwise it fails or crashes before. -/
theorem C130_violated (ord : Rdb.MapOrd) (w : World) (o : Opts) {ε' : Type} (set : GoRes ε' Bytes) (now : Int) :
    tClientGet (new ord w o).1 (new ord w o).2.1 set now ≠ .passed ∧
    ((new ord w o).1 = .ok () → (∃ v, set = .ok v) →
      tClientGet (new ord w o).1 (new ord w o).2.1 set now = .crashed) := by
  rcases h : new ord w o with ⟨res, client, snap, r⟩
  cases res with
  | ok u =>
    cases u
    have hg := C78_violated ord w o client snap r h now b!"a"
    cases set with
    | ok v => simp [tClientGet, hg]
    | err e => simp [tClientGet]
    | panic => simp [tClientGet]
  | err e => simp [tClientGet]
  | panic => simp [tClientGet]

/-- `TestClient_Get` fails without a panic just if `New` or `Set` report an error. -/
theorem C130_get_failed_exact (ord : Rdb.MapOrd) (w : World) (o : Opts) {ε' : Type} (set : GoRes ε' Bytes) (now : Int) :
    tClientGet (new ord w o).1 (new ord w o).2.1 set now = .failed ↔
      (∃ e, (new ord w o).1 = .err e) ∨ (new ord w o).1 = .ok () ∧ ∃ e, set = .err e := by
  rcases h : new ord w o with ⟨res, client, snap, r⟩
  cases res with
  | ok u =>
    cases u
    have hg := C78_violated ord w o client snap r h now b!"a"
    cases set with
    | ok v => simp [tClientGet, hg]
    | err e => simp [tClientGet]
    | panic => simp [tClientGet]
  | err e => simp [tClientGet]
  | panic => simp [tClientGet]

/-- With a client whose cache can be used - not the one `New` makes - the test passes exactly if the value is in the local cache when
`Get` looks. -/
theorem C130_get_usable_exact (o : Opts) (c : Cache) {ε ε' : Type} (made : GoRes ε Unit) (set : GoRes ε' Bytes) (now : Int) :
    tClientGet made ⟨o, some c⟩ set now = .passed ↔
      made = .ok () ∧ (∃ v, set = .ok v) ∧ (c.get now b!"a").2 = .ok b!"this is value for a" := by
  cases made with
  | ok u =>
    cases u
    cases set with
    | ok v =>
      simp only [tClientGet, Client.get]
      cases (c.get now b!"a").2 <;> simp
    | err e => simp [tClientGet]
    | panic => simp [tClientGet]
  | err e => simp [tClientGet]
  | panic => simp [tClientGet]

/-- C130 for `TestNew` of xxcache_test.go: it passes just if `New` reports no error.  Missing: that it does. -/
theorem C130_new_partial (ord : Rdb.MapOrd) (w : World) (o : Opts) :
    tNew (new ord w o).1 = .passed ↔ (new ord w o).1 = .ok () := by
  rcases (new ord w o).1 with ⟨⟨⟩⟩ | e | _ <;> simp [tNew]

/-- C130 for lzf_test.go: nothing panics, and the text is restored, whatever the hash table held and whatever lies behind the text. -/
theorem C130_lzf_partial (over : UInt8) (htab : Lzf.HTab) :
    (∃ z, Lzf.goCompress over htab b!"aabbaabbaa" = .ok z) ∧ tDeCompress over htab = .ok b!"aabbaabbaa" := by
  have hc : ∃ z, Lzf.goCompress over htab b!"aabbaabbaa" = .ok z := by
    simp only [Lzf.goCompress]
    rw [if_neg (by decide)]
    cases h : Lzf.compress (some over) htab (List.take (b!"aabbaabbaa".length % 2 ^ 32) b!"aabbaabbaa") (b!"aabbaabbaa".length % 2 ^ 32) with
    | fault =>
      rcases Lzf.compress_ok (some over) htab (List.take (b!"aabbaabbaa".length % 2 ^ 32) b!"aabbaabbaa") (b!"aabbaabbaa".length % 2 ^ 32)
        (by decide) (by decide) (.inl (by decide)) with ⟨hf, _⟩ | ⟨m, ts, a1, _⟩
      · rw [hf] at h; cases h
      · rw [a1] at h; cases h
    | fail => exact ⟨_, rfl⟩
    | ok x =>
      obtain ⟨n, m⟩ := x
      cases n <;> exact ⟨_, rfl⟩
  refine ⟨hc, ?_⟩
  obtain ⟨z, hz⟩ := hc
  simp only [tDeCompress, hz]
  by_cases hn : z = b!"aabbaabbaa"
  · subst hn; decide +kernel
  · exact Lzf.C61_compressed_partial over htab _ (by decide) z hz hn

/-- C130 for zipmap_test.go: the call does not panic; the map is what it should be but for the missing byte for free space (C73). -/
theorem C130_zipmap_partial (spare : Bytes) : tZipMapSet spare = some [1, 1, 97, 1, 118, 255] := by
  simp [tZipMapSet, Rdb.zmSet, Rdb.zmLookup, Rdb.zmLookupLoop, Rdb.zmNew, Rdb.zmLenBytes]

/-- C130 for redis_test.go: the first call of the client finds the pool free.  Without a server the test passes, and with one whose answer arrives so that
the reader can join it (`Carried`) it passes too, whatever the answer is.  Missing: a server that stays silent (`exchange` gives an error then; the call
waits for ever, C127), and answers that arrive otherwise. -/
theorem C130_remote_partial (bad : Bytes → F64) (s : Client.Server) (t : Int) (reach : Bool) (cut : Client.Cut) :
    let a := (Client.callRemote bad ⟨[], 0⟩ (Pool.capacity 0) s Client.Cl.new t (.get b!"a") reach cut).2.2
    tRemoteGet a ≠ none ∧ (reach = false → tRemoteGet a = some .passed) ∧
    (Client.Carried cut (Client.serve s ⟨0, false⟩ t [b!"get", b!"a"]).2.2 → tRemoteGet a = some .passed) := by
  have h0 : Client.openCmds ⟨[], 0⟩ = [] := by decide
  have hc : (0 : Nat) < Pool.capacity 0 := by decide
  cases reach with
  | false => simp [Client.callRemote, Client.Cl.new, hc, tRemoteGet]
  | true =>
    simp only [Client.callRemote, Client.Cl.new, hc, h0, Client.openConn, Client.callOn, Bool.false_eq_true, if_false, if_true]
    refine ⟨?_, fun h => by simp at h, fun h => ?_⟩
    · cases Client.result bad (.get b!"a") (Client.exchange s Client.Conn.fresh t (Client.args (.get b!"a")) cut).2.2 <;> simp [tRemoteGet]
    · obtain ⟨c', e, _, _⟩ := Client.exchange_ready (c := Client.Conn.fresh) (cmd := [b!"get", b!"a"]) (cut := cut) (s := s) (t := t)
        ⟨rfl, by simp [Client.Rd.Quiet, Client.Conn.fresh, Resp.Rd.flat, Resp.Rd.WF]⟩ h
      have ha : Client.args (.get b!"a") = [b!"get", b!"a"] := rfl
      rw [ha, e]
      simp only [Client.result, Client.exec]
      cases (Client.serve s Client.Conn.fresh.login t [b!"get", b!"a"]).2.2 <;> simp [tRemoteGet]

example : tNew (GoRes.ok () : GoRes NErr Unit) = .passed := rfl

end Verif.Suite

import Verif.Cache.PropsExactHash
import Verif.Cache.PropsMeta
/-!
# Exactly where C03, C26, C27, C28 and C35 hold
-/
namespace Verif
open Cache

/-- C03, exactly: the last assignment is what Get shows if and only if the deadline in force right
after the assignment has not passed. -/
theorem C03_exact (c : Cache) (h1 h2 : History) (k v : Bytes) (op : Call)
    (ha : Assigns k v op) (s t : Int) (hw : NoWrite k h2) (hu : Until t h2) :
    (exec (run c (h1 ++ (s, op) :: h2)) t (.get k)).2 = .str (.ok (canon v)) ↔
      NotPassed (run c (h1 ++ [(s, op)])) t k := by
  refine ⟨fun hg => ?_, fun hd => C03_last_write_wins_partial c h1 h2 k v op ha s t hd hw hu⟩
  have e : run c (h1 ++ (s, op) :: h2) = run (run c (h1 ++ [(s, op)])) h2 := by
    rw [← run_append]; simp
  simp only [exec, get_snd] at hg
  rw [e, liveVal_run_of_noWrite _ _ _ _ hw hu] at hg
  intro d hd
  false_or_by_contra
  rename_i hlt
  have hs : Stale (run c (h1 ++ [(s, op)])) t k := by
    refine ⟨?_, d, hd, by omega⟩
    rw [run_append]
    simp only [run]
    rw [data_of_assigns ha]
    simp
  rw [liveVal_none_of_stale hs] at hg
  simp [showVal] at hg

/-- The name of the kind of a value, as the claim C26 wants it. -/
def kindName : Option Val → Bytes
  | none => b!"none"
  | some (.hash _) => b!"hash"
  | some _ => b!"string"

/-- C26, exactly: Type is right if and only if the key does not hold a readable hash. -/
theorem C26_exact (c : Cache) (k : Bytes) (t : Int) :
    (exec c t (.type k)).2 = .str (.ok (kindName (liveVal c t k))) ↔ ∀ e, liveVal c t k ≠ some (.hash e) := by
  rw [← load_snd]
  simp only [exec, Cache.type]
  generalize c.load t k = p
  obtain ⟨c', o⟩ := p
  rcases o with _ | (_ | _ | _) <;> simp [kindName]

/-- C27, exactly: in every reachable state and at every clock reading after year 1, a tick leaves
what Get shows for a key unchanged if and only if Get already reported the key as absent. -/
theorem C27_exact (c : Cache) (hc : Reachable c) (k : Bytes) (t t' : Int) (ht : yearOne < t) :
    getOut (exec c t .cronTick).1 t' k = getOut c t' k ↔ getOut c t' k = .str (.err .keyNil) := by
  rw [C27_tick_wipes_partial c hc t ht]
  exact ⟨fun h => h.symm, fun h => h.symm⟩

/-- C28 is false: GetSet on a hash reports the wrong type and overwrites the hash. -/
theorem C28_violated :
    outs Cache.new [(0, .hSet b!"k" b!"f" b!"v"), (1, .getSet b!"k" b!"x"), (2, .get b!"k"), (3, .hGet b!"k" b!"f")]
      = [.int (.ok 1), .str (.err .wrongType), .str (.ok b!"x"), .str (.err .wrongType)] := by
  decide +kernel

/-- Every call on the single key `k` that works on strings, except the plain overwrites. -/
def Call.stringFamily (k : Bytes) : Call → Bool
  | .get j | .strLen j | .append j _ | .getRange j _ _ | .incr j | .incrBy j _ | .decr j
  | .decrBy j _ | .incrByFloat j _ | .setRange j _ _ | .getSet j _ | .setNX j _ => j = k
  | _ => false

/-- C28, exactly: on a readable hash a call of the string family reports the wrong type and changes
nothing, except GetSet (which reports it and overwrites), SetNX (which answers 0 and changes
nothing) and SetRange with a negative offset (which reports the offset and changes nothing). -/
theorem C28_exact (c : Cache) (k : Bytes) (t : Int) (e : HashEntry) (op : Call)
    (hl : liveVal c t k = some (.hash e)) (hop : op.stringFamily k = true) :
    ((exec c t op).2.wrongType = true ∧ (exec c t op).1 = c) ↔
      ((∀ v, op ≠ .getSet k v) ∧ (∀ v, op ≠ .setNX k v) ∧ ∀ p r, op = .setRange k p r → 0 ≤ p.toInt) := by
  by_cases hs : op.stringCall k = true
  · refine ⟨fun _ => ?_, fun _ => C28_string_call_on_hash_partial c k t e op hl hs⟩
    cases op <;> simp [Call.stringCall] at hs <;> simp_all
  · have h1 := load_of_live hl
    have h2 := data_of_live hl
    cases op <;> simp [Call.stringCall] at hs <;> simp [Call.stringFamily] at hop
    case setRange j p r =>
      subst hop
      have hs := hs rfl
      simp [exec, setRange, hs, Out.wrongType]
    case getSet j v =>
      subst hop
      simp only [exec, getSet, h1, fmtString, Out.wrongType, decide_true, true_and]
      refine ⟨fun h => ?_, fun h => absurd rfl (h.1 v)⟩
      have := congrArg (fun c => c.data j) h
      simp [store, h2] at this
    case setNX j v =>
      subst hop
      simp [exec, setNX, h2, Out.wrongType, GoRes.map, GoRes.bind]
    all_goals simp_all

/-- C35, exactly: HIncrByFloat on an integer field answers the float64 sum, and HGet then shows the
increment; so the sum is left in the field if and only if sum and increment have the same text. -/
theorem C35_exact (c : Cache) (hc : Reachable c) (k f : Bytes) (old : Int64) (x : F64) (s t : Int) (h : History)
    (hold : hview c s k f = .ok (some (.int old))) (hd : NotPassed c t k ∨ Stale c s k)
    (hw : NoFieldWrite k f h) (hu : Until t h) :
    (exec c s (.hIncrByFloat k f x)).2 = .float (.ok ((F64.ofInt old.toInt).add x)) ∧
    hgetOut (run (exec c s (.hIncrByFloat k f x)).1 h) t k f = .str (.ok (canon (formatFloat x))) ∧
    (hgetOut (run (exec c s (.hIncrByFloat k f x)).1 h) t k f =
        .str (.ok (canon (formatFloat ((F64.ofInt old.toInt).add x)))) ↔
      canon (formatFloat x) = canon (formatFloat ((F64.ofInt old.toInt).add x))) := by
  have hk : HashKey c s k := by
    unfold hview at hold
    cases ho : asHash (liveVal c s k) with
    | ok o => exact ⟨o, ho⟩
    | err e => rw [ho] at hold; simp [GoRes.map, GoRes.bind] at hold
    | panic => rw [ho] at hold; simp [GoRes.map, GoRes.bind] at hold
  obtain ⟨h1, _⟩ := C35_hIncrByFloat_partial c hc k f x s t h hk hd hw hu
  have hshow : hgetOut (run (exec c s (.hIncrByFloat k f x)).1 h) t k f = .str (.ok (canon (formatFloat x))) := by
    obtain ⟨o, ho, g1, _⟩ := hview_after_withHash (f := f)
      (g := fun h => match hfind h.fields f with
        | none => ((h.set f (formatFloat x)).1, (.ok x : Res F64))
        | some v => match hIncrFloatScalar x v with
          | .ok m => ((h.set f (formatFloat x)).1, .ok m)
          | r => (h, r)) hk hd
    have hv : hview c s k f = .ok (hfind (o.getD HashEntry.empty).fields f) := by
      rw [hview, ho]; cases o <;> simp [GoRes.map, GoRes.bind, HashEntry.empty, hfind]
    rw [hv] at hold
    simp at hold
    simp only [hold, hIncrFloatScalar] at g1
    rw [hgetOut_eq, hview_run (hc.inv.exec s _) h k f hw hu]
    have : hview (exec c s (.hIncrByFloat k f x)).1 t k f = .ok (some (tryInt64 (formatFloat x))) := by
      refine (show hview (exec c s (.hIncrByFloat k f x)).1 t k f = _ from g1).trans ?_
      simp [HashEntry.set, hfind_hput]
    rw [this]; simp [GoRes.bind, fmtScalar_tryInt64]
  refine ⟨h1 old hold, hshow, ?_⟩
  rw [hshow]
  simp

/-- C35, the rejections: a field holding a float or a non-empty text is rejected and nothing changes. -/
theorem C35_exact_error (c : Cache) (hc : Reachable c) (k f : Bytes) (x : F64) (s : Int) (v : Scalar)
    (hv : hview c s k f = .ok (some v)) :
    (exec c s (.hIncrByFloat k f x)).2 = match v with
      | .int old => .float (.ok ((F64.ofInt old.toInt).add x))
      | .str u => if u = [] then .float (.ok x) else .float (.err .hashNotFloat)
      | _ => .float (.err .hashNotFloat) := by
  unfold hview at hv
  cases ho : asHash (liveVal c s k) with
  | err e => rw [ho] at hv; simp [GoRes.map, GoRes.bind] at hv
  | panic => rw [ho] at hv; simp [GoRes.map, GoRes.bind] at hv
  | ok o =>
    rw [ho] at hv
    cases o with
    | none => simp [GoRes.map, GoRes.bind] at hv
    | some e =>
      simp only [GoRes.map, GoRes.bind, Option.bind, GoRes.ok.injEq] at hv
      have hg := (hc.inv.asHash ho).kinds (f, v) (hfind_mem hv)
      simp only [exec, hIncrByFloat, withHash_snd, ho, GoRes.bind, Option.getD_some, hv]
      cases hg with
      | str u => by_cases hu : u = [] <;> simp [hIncrFloatScalar, hu]
      | int m => simp [hIncrFloatScalar]
      | float x => simp [hIncrFloatScalar]

/-- Concrete cases that meet the hypotheses of the theorems above. -/
example : Assigns b!"k" b!"7" (.getSet b!"k" b!"7") ∧ NoWrite b!"k" [(3, .get b!"k")] ∧ Until 9 [(3, .get b!"k")] ∧
    Reachable (run Cache.new [(0, .hSet b!"k" b!"f" b!"5")]) ∧
    (∃ e, liveVal (run Cache.new [(0, .hSet b!"k" b!"f" b!"5")]) 1 b!"k" = some (.hash e)) ∧
    (Call.setNX b!"k" b!"x").stringFamily b!"k" = true ∧
    hview (run Cache.new [(0, .hSet b!"k" b!"f" b!"5")]) 1 b!"k" b!"f" = .ok (some (.int 5)) ∧
    NotPassed (run Cache.new [(0, .hSet b!"k" b!"f" b!"5")]) 9 b!"k" ∧
    canon (formatFloat (F64.ofInt 3)) ≠ canon (formatFloat ((F64.ofInt 5).add (F64.ofInt 3))) := by
  refine ⟨.getSet, by simp [NoWrite, Call.writes], by simp [Until], ⟨_, rfl⟩,
    ⟨{ fields := [(b!"f", .int 5)], length := 1 }, by decide +kernel⟩, by decide, by decide +kernel, ?_, by decide +kernel⟩
  intro d hd
  have : (run Cache.new [(0, .hSet b!"k" b!"f" b!"5")]).exp b!"k" = none := by decide +kernel
  rw [this] at hd; cases hd

end Verif

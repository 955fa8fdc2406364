import Verif.Conc.Lin
import Verif.Conc.HashProg
import Verif.Cache.PropsCounter
import Verif.Cache.PropsHash
import Verif.Cache.PropsDb
/-!
# C40–C44: concurrent calls
-/
namespace Verif.Conc
open Cache

/-! ## The unlocked string programs, run alone, are the sequential calls -/

theorem alone_expiredP (k : Bytes) (c : Cache) (t : Int) :
    alone (expiredP k) ⟨c, t⟩ = (⟨(c.expired t k).1, t⟩, (c.expired t k).2) := by
  unfold expiredP
  rw [alone_bind]
  cases he : c.exp k with
  | none => simp [loadExp, step, alone_atomic, he, expired, alone]
  | some d =>
    by_cases hd : d < t <;>
      simp [loadExp, step, alone_atomic, he, expired, hd, clock, delData, delExp, alone]

theorem alone_getP (k : Bytes) (c : Cache) (t : Int) :
    alone (getP k) ⟨c, t⟩ = (⟨(c.load t k).1, t⟩, (c.load t k).2) := by
  unfold getP
  rw [alone_bind]
  cases hd : c.data k with
  | none => simp [loadData, step, alone_atomic, hd, load, alone]
  | some v =>
    simp only [loadData, step, alone_atomic, hd, load]
    rw [alone_bind, alone_expiredP]
    generalize c.expired t k = q
    obtain ⟨c', b⟩ := q
    cases b <;> simp [alone]

theorem alone_mGetP (ks : List Bytes) (c : Cache) (t : Int) :
    alone (mGetP ks) ⟨c, t⟩ = (⟨(c.mGet t ks).1, t⟩, (c.mGet t ks).2) := by
  induction ks generalizing c with
  | nil => rfl
  | cons k ks ih =>
    simp only [mGetP]
    rw [alone_bind, alone_getP, alone_bind, ih]
    simp only [mGet, Cache.get]
    cases hl : c.load t k with
    | mk c' o => cases o <;> simp [alone]

theorem alone_existsP (ks : List Bytes) (n : Int) (c : Cache) (t : Int) :
    alone (existsP ks n) ⟨c, t⟩ =
      (⟨c, t⟩, ks.foldl (fun n k => if (c.data k).isSome then n + 1 else n) n) := by
  induction ks generalizing n with
  | nil => rfl
  | cons k ks ih =>
    simp only [existsP]
    rw [alone_bind]
    cases hd : c.data k <;> simp [loadData, step, alone_atomic, hd, ih]

theorem alone_mSetNXP (kv : List (Bytes × Bytes)) (n : Int) (c : Cache) (t : Int) :
    alone (mSetNXP kv n) ⟨c, t⟩ = (⟨(mSetNXLoop c kv n).1, t⟩, (mSetNXLoop c kv n).2) := by
  induction kv generalizing n c with
  | nil => rfl
  | cons p kv ih =>
    obtain ⟨k, v⟩ := p
    simp only [mSetNXP]
    rw [alone_bind]
    cases hd : c.data k <;> simp [loadOrStore, step, alone_atomic, hd, ih, mSetNXLoop]

theorem alone_mSetP (kv : List (Bytes × Bytes)) (c : Cache) (t : Int) :
    alone (mSetP kv) ⟨c, t⟩ = (⟨kv.foldl (fun c p => c.store p.1 (.scalar (tryInt64 p.2))) c, t⟩, ()) := by
  induction kv generalizing c with
  | nil => rfl
  | cons p kv ih =>
    obtain ⟨k, v⟩ := p
    simp only [mSetP]
    rw [alone_bind]
    simp [storeData, step, alone_atomic, ih]

/-- The unlocked programs, run without interference at a fixed clock, are the sequential calls. -/
theorem unlocked_alone (op : Call) (hm : mode op = .unlocked) (c : Cache) (t : Int) :
    alone (prog op) ⟨c, t⟩ = (⟨(exec c t op).1, t⟩, (exec c t op).2) := by
  cases op <;> simp [mode] at hm
  case mSet kv => simp only [prog]; rw [alone_bind, alone_mSetP]; rfl
  case mSetNX kv => simp only [prog]; rw [alone_bind, alone_mSetNXP]; rfl
  case mGet ks => simp only [prog]; rw [alone_bind, alone_mGetP]; rfl
  case exists_ ks => simp only [prog]; rw [alone_bind, alone_existsP]; rfl
  case type k =>
    simp only [prog]
    rw [alone_bind, alone_getP]
    simp only [exec, Cache.type]
    cases hl : c.load t k with
    | mk c' o => cases o <;> rfl

/-! ## C40 -/

/-- A sequential explanation of a concurrent run: the same calls in an order that respects each
goroutine's order and the order of returns, with the same answers, at non-decreasing times. -/
def Explains (c0 : Cache) (t0 : Int) (g : Cfg) (h : History) : Prop :=
  h.map (·.2) = g.log.map (·.2.1) ∧ outs c0 h = g.log.map (·.2.2) ∧ Monotone t0 h ∧ Until g.sh.now h

/-- C40, full: every schedule of every number of goroutines making any write-locked calls (Set,
SetNX, SetEX, PSetEX, GetSet, Append, SetRange, Incr, IncrBy, IncrByFloat, Decr, DecrBy, Del, Flush)
gives the answers of one sequential history; each goroutine's calls appear there in its own order;
and whenever no call is in progress, the cache is the one that history leaves. -/
theorem C40_linearizable (c0 : Cache) (t0 : Int) (calls : Nat → List Call)
    (hc : ∀ i, ∀ op ∈ calls i, op.exclusive = true) (g : Cfg) (hs : Steps spec true (initial ⟨c0, t0⟩ calls) g) :
    ∃ h, Explains c0 t0 g h ∧
      (∀ i, (g.log.filter (fun e => e.1 = i)).map (·.2.1) <+: calls i) ∧
      ((∀ i, (g.thr i).cur = none) → g.sh.c = run c0 h) := by
  obtain ⟨h, inv⟩ := linv_steps (fun i op ho => .inl (exclusive_mode (hc i op ho))) hs
  refine ⟨h, ⟨inv.wit.ops, inv.wit.res, inv.wit.mono, inv.wit.bound⟩, fun i => ?_, fun hn => ?_⟩
  · exact ⟨_, (List.append_assoc _ _ _).symm.trans (program_order hs i)⟩
  · rcases inv.phase with ⟨_, _, _, d⟩ | ⟨i, op, p, lo, a, _⟩
    · exact d
    · rw [hn i] at a; cases a

/-- C40 with the read-locked calls (Get, StrLen, GetRange) as well, overlapping in any way, as long
as no key has a deadline. -/
theorem C40_linearizable_with_readers (c0 : Cache) (t0 : Int) (calls : Nat → List Call)
    (h0 : ∀ k, c0.exp k = none)
    (hc : ∀ i, ∀ op ∈ calls i, NoTTL op ∧ (op.exclusive = true ∨ op.look = true))
    (g : Cfg) (hs : Steps spec true (initial ⟨c0, t0⟩ calls) g) :
    ∃ h, Explains c0 t0 g h ∧
      (∀ i, (g.log.filter (fun e => e.1 = i)).map (·.2.1) <+: calls i) ∧
      ((∀ i, (g.thr i).cur = none) → g.sh.c = run c0 h) := by
  obtain ⟨h, inv⟩ := rinv_steps h0 (fun i op ho => ⟨(hc i op ho).1, (hc i op ho).2.imp exclusive_mode look_mode⟩) hs
  refine ⟨h, ⟨inv.wit.ops, inv.wit.res, inv.wit.mono, inv.wit.bound⟩, fun i => ?_, fun hn => ?_⟩
  · exact ⟨_, (List.append_assoc _ _ _).symm.trans (program_order hs i)⟩
  · rcases inv.phase with ⟨_, d, _⟩ | ⟨i, op, p, lo, a, _⟩
    · exact d
    · rw [hn i] at a; cases a

/-- C40 with deadlines and read-locked calls, in the schedules where no two readers are inside the
lock at the same time. -/
theorem C40_linearizable_deadlines (c0 : Cache) (t0 : Int) (calls : Nat → List Call)
    (hc : ∀ i, ∀ op ∈ calls i, op.exclusive = true ∨ op.look = true)
    (g : Cfg) (hs : Steps spec false (initial ⟨c0, t0⟩ calls) g) :
    ∃ h, Explains c0 t0 g h ∧
      (∀ i, (g.log.filter (fun e => e.1 = i)).map (·.2.1) <+: calls i) ∧
      ((∀ i, (g.thr i).cur = none) → g.sh.c = run c0 h) := by
  obtain ⟨h, inv⟩ := linv_steps (fun i op ho => (hc i op ho).imp exclusive_mode (fun h => ⟨rfl, look_mode h⟩)) hs
  refine ⟨h, ⟨inv.wit.ops, inv.wit.res, inv.wit.mono, inv.wit.bound⟩, fun i => ?_, fun hn => ?_⟩
  · exact ⟨_, (List.append_assoc _ _ _).symm.trans (program_order hs i)⟩
  · rcases inv.phase with ⟨_, _, _, d⟩ | ⟨i, op, p, lo, a, _⟩
    · exact d
    · rw [hn i] at a; cases a

/-! ## C41 -/

/-- The amount a counter call adds. -/
def amount : Call → Int64
  | .incr _ => 1
  | .decr _ => -1
  | .incrBy _ n => n
  | .decrBy _ n => -n
  | _ => 0

theorem amount_of_adds {k : Bytes} {op : Call} {n : Int64} (h : Adds k op n) : amount op = n := by
  cases h <;> rfl

theorem sum_perm {l l' : List Int64} (hp : l.Perm l') : l.sum = l'.sum := by
  induction hp with
  | nil => rfl
  | cons x _ ih => simp [ih]
  | swap x y l => simp only [List.sum_cons]; rw [← Int64.add_assoc, Int64.add_comm y x, Int64.add_assoc]
  | trans _ _ ih1 ih2 => rw [ih1, ih2]

theorem sums_of_all {k : Bytes} (h : History) (ha : ∀ p ∈ h, ∃ n, Adds k p.2 n) :
    Sums k h (h.map (fun p => amount p.2)) := by
  induction h with
  | nil => exact .nil
  | cons p h ih =>
    obtain ⟨t, op⟩ := p
    obtain ⟨n, hn⟩ := ha _ (by simp : (t, op) ∈ (t, op) :: h)
    have := Sums.add (t := t) hn (ih (fun p hp => ha p (by simp [hp])))
    simpa [amount_of_adds hn] using this

/-- When all goroutines are done, the run is explained by a history whose calls are those of the
goroutines in some order. -/
theorem counter_history (c0 : Cache) (t0 : Int) (k : Bytes) (N : Nat)
    (calls : Nat → List Call) (hadd : ∀ i, ∀ op ∈ calls i, ∃ m, Adds k op m)
    (hN : ∀ i, N ≤ i → calls i = []) (g : Cfg) (hs : Steps spec true (initial ⟨c0, t0⟩ calls) g)
    (hdone : ∀ i, g.thr i = ⟨[], none⟩) :
    ∃ h : History, (h.map (·.2)).Perm ((List.range N).flatMap calls) ∧ g.sh.c = run c0 h := by
  have hw : ∀ i, ∀ op ∈ calls i, op.exclusive = true := by
    intro i op ho
    obtain ⟨m, hm⟩ := hadd i op ho
    cases hm <;> rfl
  obtain ⟨h, ⟨e1, e2, e3, e4⟩, e5, e6⟩ := C40_linearizable c0 t0 calls hw g hs
  have hrun := e6 (fun i => by rw [hdone i])
  have hcalls : ∀ i, (g.log.filter (fun e => e.1 = i)).map (·.2.1) = calls i := by
    intro i
    have := program_order hs i
    rw [hdone i] at this
    simpa using this
  have hlt : ∀ e ∈ g.log, e.1 < N := by
    intro e hel
    refine Classical.byContradiction (fun hge => ?_)
    have h1 := hcalls e.1
    rw [hN e.1 (by omega)] at h1
    simp at h1
    exact h1 _ _ _ hel rfl
  have hperm : (g.log.map (·.2.1)).Perm ((List.range N).flatMap calls) := by
    have := (perm_buckets N g.log hlt).map (·.2.1)
    rw [List.map_flatMap] at this
    simpa only [hcalls] using this
  exact ⟨h, by rw [e1]; exact hperm, hrun⟩

/-- C41, full: `N` goroutines make any lists of Incr/IncrBy/Decr/DecrBy calls on one key that holds
the integer `n` (and has no deadline).  When all have returned, in every schedule, Get shows `n` plus
the sum of all amounts (64-bit sum; `C16_exact_when_it_fits` says when it is exact). -/
theorem C41_no_lost_increment (c0 : Cache) (t0 : Int) (k : Bytes) (n : Int64) (N : Nat)
    (calls : Nat → List Call) (hadd : ∀ i, ∀ op ∈ calls i, ∃ m, Adds k op m)
    (hN : ∀ i, N ≤ i → calls i = []) (hn : HoldsInt c0 k n) (he : c0.exp k = none)
    (g : Cfg) (hs : Steps spec true (initial ⟨c0, t0⟩ calls) g)
    (hdone : ∀ i, g.thr i = ⟨[], none⟩) (t : Int) :
    getOut g.sh.c t k =
      .str (.ok (itoa (n + (((List.range N).flatMap calls).map amount).sum))) := by
  obtain ⟨h, hp, hrun⟩ := counter_history c0 t0 k N calls hadd hN g hs hdone
  have hall : ∀ p ∈ h, ∃ m, Adds k p.2 m := by
    intro p hp'
    have := hp.mem_iff.mp (List.mem_map_of_mem hp')
    obtain ⟨i, _, hi⟩ := List.mem_flatMap.mp this
    exact hadd i _ hi
  have hsum := sums_from_holds (sums_of_all h hall) hn he
  rw [hrun]
  have hs2 : (h.map (fun p => amount p.2)).sum = (((List.range N).flatMap calls).map amount).sum := by
    refine sum_perm ?_
    have := hp.map amount
    rw [List.map_map] at this
    exact this
  rw [hs2] at hsum
  exact get_holds hsum.1 (by intro d hd; rw [hsum.2] at hd; cases hd)

/-- C41 on a key that does not exist: Get shows the sum of all amounts. -/
theorem C41_no_lost_increment_absent (c0 : Cache) (t0 : Int) (k : Bytes) (N : Nat)
    (calls : Nat → List Call) (hadd : ∀ i, ∀ op ∈ calls i, ∃ m, Adds k op m)
    (hN : ∀ i, N ≤ i → calls i = []) (hn : c0.data k = none) (he : c0.exp k = none)
    (hne : (List.range N).flatMap calls ≠ [])
    (g : Cfg) (hs : Steps spec true (initial ⟨c0, t0⟩ calls) g)
    (hdone : ∀ i, g.thr i = ⟨[], none⟩) (t : Int) :
    getOut g.sh.c t k = .str (.ok (itoa (((List.range N).flatMap calls).map amount).sum)) := by
  obtain ⟨h, hp, hrun⟩ := counter_history c0 t0 k N calls hadd hN g hs hdone
  have hall : ∀ p ∈ h, ∃ m, Adds k p.2 m := by
    intro p hp'
    have := hp.mem_iff.mp (List.mem_map_of_mem hp')
    obtain ⟨i, _, hi⟩ := List.mem_flatMap.mp this
    exact hadd i _ hi
  rw [hrun, C16_counters_add_up c0 k h _ t (sums_of_all h hall) ?_ hn he]
  · have := hp.map amount
    rw [List.map_map] at this
    rw [show h.map (fun p => amount p.2) = h.map (amount ∘ fun x => x.2) from rfl, sum_perm this]
  · intro h0
    have : h = [] := by simpa using h0
    rw [this] at hp
    exact hne (List.nil_perm.mp hp)

/-- The hypotheses of C41 are met: two goroutines, three calls, an explicit schedule to the end. -/
def incrDemo : Option Cfg :=
  sched spec (initial ⟨Cache.new, 0⟩ (fun i => if i = 0 then [.incr b!"k", .decrBy b!"k" 5] else if i = 1 then [.incrBy b!"k" 40] else []))
    [.start 0, .act 0, .fin 0, .start 1, .act 1, .act 1, .fin 1, .start 0, .act 0, .act 0, .fin 0]

example : incrDemo.map (fun g => (g.log.map (fun e => (e.1, e.2.2)), getOut g.sh.c 0 b!"k")) =
    some ([(0, .int (.ok 1)), (1, .int (.ok 41)), (0, .int (.ok 36))], .str (.ok b!"36")) := by decide +kernel

/-! ## C42 -/

/-- A cache where `k` holds "v" with deadline 5. -/
def staleDemo : Cache :=
  { data := upd (fun _ => none) b!"k" (some (.scalar (.str b!"v"))), exp := upd (fun _ => none) b!"k" (some 5) }

/-- C42 is false: two concurrent Gets, at clock 10, of a key whose deadline was 5.  One of them
returns the value: it loads the value, the other one sweeps key and deadline, and the first then
finds no deadline. -/
theorem C42_violated : ∃ g : Cfg,
    Steps spec true (initial ⟨staleDemo, 10⟩ (fun i => if i < 2 then [.get b!"k"] else [])) g ∧
    staleDemo.exp b!"k" = some 5 ∧ (0, .str (.ok b!"v")) ∈ g.log.map (fun e => (e.1, e.2.2)) := by
  have h : (sched spec (initial ⟨staleDemo, 10⟩ (fun i => if i < 2 then [.get b!"k"] else []))
      [.start 0, .act 0, .start 1, .act 1, .act 1, .act 1, .act 1, .act 1, .fin 1, .act 0, .fin 0]).map
      (fun g => g.log.map (fun e => (e.1, e.2.2))) = some [(1, .str (.err .keyNil)), (0, .str (.ok b!"v"))] := by
    decide +kernel
  obtain ⟨g, hg, hl⟩ := Option.map_eq_some_iff.mp h
  refine ⟨g, sched_steps_noTick rfl hg, by decide, by rw [hl]; simp⟩

theorem dead_outs {k : Bytes} (h : History) (c : Cache) (t0 : Int) (hm : Monotone t0 h) (hw : NoWrite k h)
    (hd : ∀ t, t0 ≤ t → liveVal c t k = none) (i : Nat) (hi : (h.map (·.2))[i]? = some (.get k)) :
    (outs c h)[i]? = some (.str (.err .keyNil)) := by
  induction h generalizing c t0 i with
  | nil => simp at hi
  | cons p h ih =>
    obtain ⟨t, op⟩ := p
    cases i with
    | zero =>
      simp at hi
      subst hi
      simp only [outs, List.getElem?_cons_zero]
      have := getOut_eq c t k
      rw [hd t hm.1] at this
      exact congrArg some this
    | succ i =>
      simp only [List.map_cons, List.getElem?_cons_succ, outs] at hi ⊢
      refine ih _ t hm.2 (fun p hp => hw p (by simp [hp])) ?_ i hi
      intro t' ht'
      rw [liveVal_exec_of_not_writes c op k (hw _ (by simp : (t, op) ∈ (t, op) :: h)) ht']
      exact hd t' (by have := hm.1; omega)

/-- C42, part: in the schedules where no two readers are inside the lock together, no Get returns a
value whose deadline had passed when the goroutines started, whatever other locked calls run.
Missing: schedules with overlapping readers, where it is false (`C42_violated`). -/
theorem C42_no_stale_read_partial (c0 : Cache) (t0 d : Int) (k : Bytes) (calls : Nat → List Call)
    (hc : ∀ i, ∀ op ∈ calls i, (op.exclusive = true ∨ op.look = true) ∧ op.writes k = false)
    (hd : c0.exp k = some d) (hlt : d < t0)
    (g : Cfg) (hs : Steps spec false (initial ⟨c0, t0⟩ calls) g)
    (i : Nat) (o : Out) (hl : (i, .get k, o) ∈ g.log) : o = .str (.err .keyNil) := by
  obtain ⟨h, ⟨e1, e2, e3, _⟩, e5, _⟩ := C40_linearizable_deadlines c0 t0 calls (fun i op ho => (hc i op ho).1) g hs
  obtain ⟨n, hn, hnl⟩ := List.getElem_of_mem hl
  have hops : (h.map (·.2))[n]? = some (.get k) := by
    rw [e1, List.getElem?_map, List.getElem?_eq_getElem hn, hnl]; rfl
  have hout : (outs c0 h)[n]? = some o := by
    rw [e2, List.getElem?_map, List.getElem?_eq_getElem hn, hnl]; rfl
  have hw : NoWrite k h := by
    intro p hp
    have h1 : p.2 ∈ g.log.map (·.2.1) := by rw [← e1]; exact List.mem_map_of_mem hp
    obtain ⟨e, he, hep⟩ := List.mem_map.mp h1
    have h2 : p.2 ∈ (g.log.filter (fun x => x.1 = e.1)).map (·.2.1) :=
      List.mem_map.mpr ⟨e, by simp [he], hep⟩
    exact (hc e.1 _ ((e5 e.1).subset h2)).2
  have := dead_outs h c0 t0 e3 hw (by
    intro t ht
    unfold liveVal
    rw [hd]
    cases c0.data k with
    | none => rfl
    | some v => simp; omega) n hops
  rw [hout] at this
  exact Option.some.inj this

example : staleDemo.exp b!"k" = some 5 ∧ ∀ op ∈ [Call.get b!"k", .set b!"j" b!"x", .strLen b!"k"],
    (op.exclusive = true ∨ op.look = true) ∧ op.writes b!"k" = false := by
  refine ⟨by decide, ?_⟩
  intro op ho
  simp at ho
  rcases ho with rfl | rfl | rfl <;> decide

/-! ## C43 -/

/-- C43 is false: two HSets of different fields of an absent key both answer 1, and afterwards one
of the fields is gone (each goroutine created its own hash). -/
theorem C43_violated : ∃ g : HCfg,
    Steps hspec true (initial ⟨fun _ => none, fun _ => HashEntry.empty, 0⟩
      (fun i => if i = 0 then [.hSet b!"h" b!"a" b!"1"] else if i = 1 then [.hSet b!"h" b!"b" b!"2"] else [])) g ∧
    g.log.map (fun e => (e.1, e.2.2)) = [(0, .int (.ok 1)), (1, .int (.ok 1))] ∧
    (alone (hprog (.hGet b!"h" b!"a")) g.sh).2 = .str (.err .keyNil) := by
  have h : (sched hspec (initial ⟨fun _ => none, fun _ => HashEntry.empty, 0⟩
      (fun i => if i = 0 then [.hSet b!"h" b!"a" b!"1"] else if i = 1 then [.hSet b!"h" b!"b" b!"2"] else []))
      [.start 0, .start 1, .act 0, .act 1, .act 0, .act 0, .act 0, .act 0, .act 0, .fin 0,
        .act 1, .act 1, .act 1, .act 1, .act 1, .fin 1]).map
      (fun g => (g.log.map (fun e => (e.1, e.2.2)), (alone (hprog (.hGet b!"h" b!"a")) g.sh).2)) =
      some ([(0, .int (.ok 1)), (1, .int (.ok 1))], .str (.err .keyNil)) := by
    decide +kernel
  obtain ⟨g, hg, hl⟩ := Option.map_eq_some_iff.mp h
  injection hl with hl1 hl2
  refine ⟨g, sched_steps_noTick rfl hg, hl1, hl2⟩

/-- And even on an existing hash HLen goes wrong: two fields are added, both calls answer 1, and the
length has grown by one only. -/
theorem C43_violated_length : ∃ g : HCfg,
    Steps hspec true (initial ⟨upd (fun _ => none) b!"h" (some (.hash 0)), fun _ => HashEntry.empty, 1⟩
      (fun i => if i = 0 then [.hSet b!"h" b!"a" b!"1"] else if i = 1 then [.hSet b!"h" b!"b" b!"2"] else [])) g ∧
    g.log.map (fun e => (e.1, e.2.2)) = [(0, .int (.ok 1)), (1, .int (.ok 1))] ∧
    (alone (hprog (.hLen b!"h")) g.sh).2 = .int (.ok 1) := by
  have h : (sched hspec (initial ⟨upd (fun _ => none) b!"h" (some (.hash 0)), fun _ => HashEntry.empty, 1⟩
      (fun i => if i = 0 then [.hSet b!"h" b!"a" b!"1"] else if i = 1 then [.hSet b!"h" b!"b" b!"2"] else []))
      [.start 0, .start 1, .act 0, .act 1, .act 0, .act 1, .act 0, .act 1, .act 0, .act 1, .fin 0, .fin 1]).map
      (fun g => (g.log.map (fun e => (e.1, e.2.2)), (alone (hprog (.hLen b!"h")) g.sh).2)) =
      some ([(0, .int (.ok 1)), (1, .int (.ok 1))], .int (.ok 1)) := by
    decide +kernel
  obtain ⟨g, hg, hl⟩ := Option.map_eq_some_iff.mp h
  injection hl with hl1 hl2
  refine ⟨g, sched_steps_noTick rfl hg, hl1, hl2⟩

/-! ### Existing hash -/

theorem hfind_hput (fs : List (Bytes × Scalar)) (f g : Bytes) (v : Scalar) :
    hfind (hput fs f v) g = if f = g then some v else hfind fs g := by
  induction fs with
  | nil => simp [hput, hfind]
  | cons a fs ih =>
    obtain ⟨x, y⟩ := a
    simp only [hput]
    by_cases h : x = f
    · subst h; simp only [if_true, hfind]; split <;> rfl
    · simp only [h, if_false, hfind, ih]
      by_cases h2 : x = g
      · subst h2; have : ¬ f = x := fun e => h e.symm
        simp [this]
      · simp [h2]

theorem hfind_hdelete_ne (fs : List (Bytes × Scalar)) {f g : Bytes} (h : f ≠ g) :
    hfind (hdelete fs f) g = hfind fs g := by
  induction fs with
  | nil => rfl
  | cons a fs ih =>
    obtain ⟨x, y⟩ := a
    simp only [hdelete]
    by_cases hx : x = f
    · subst hx; simp [hfind, h]
    · simp only [hx, if_false, hfind, ih]

/-- The hash of `k` is the one behind pointer `p`, and no other key points there. -/
def Owns (k : Bytes) (p : Nat) (s : Heap) : Prop :=
  s.data k = some (.hash p) ∧ p < s.next ∧ ∀ j, s.data j = some (.hash p) → j = k

/-- Field `f` of the entry behind `p` holds `x`. -/
def HasField (p : Nat) (f : Bytes) (x : Scalar) (s : Heap) : Prop := hfind (s.heap p).fields f = some x

/-- Calls that do not touch field `f` of key `k`, other than HSet/HMSet of `v` itself. -/
def HCall.respects (k f v : Bytes) : HCall → Prop
  | .hSet k' f' v' => k' = k → f' = f → v' = v
  | .hSetNX _ _ _ => True
  | .hMSet k' fv => k' = k → ∀ p ∈ fv, p.1 = f → p.2 = v
  | .hDel k' fs => k' = k → f ∉ fs
  | .hExists _ _ | .hGet _ _ | .hLen _ => True
  | .del k' => k' ≠ k

section
variable {k f v : Bytes} {p : Nat}

theorem stable_atomic {α β : Type} {I Q : Heap → Prop} {a : Heap → Heap × α} {g : α → HP β}
    (h : ∀ s, I s → I (a s).1 ∧ (Q s → Q (a s).1) ∧ Stable I Q (g (a s).2)) : Stable I Q (Prog.atomic a >>= g) := h

/-- Writing an entry keeps `Owns`. -/
theorem owns_heap {s : Heap} (h : Owns k p s) (hp : Nat → HashEntry) : Owns k p { s with heap := hp } := h

theorem stable_lenAdd {β : Type} (q : Nat) (n : Int) {g : Unit → HP β}
    (hg : Stable (Owns k p) (HasField p f (tryInt64 v)) (g ())) :
    Stable (Owns k p) (HasField p f (tryInt64 v)) (lenAdd q n >>= g) := by
  unfold lenAdd lenLoad lenStore
  rw [Prog.assoc]
  refine stable_atomic (fun s hs => ⟨hs, id, ?_⟩)
  refine stable_atomic (fun s' hs' => ⟨owns_heap hs' _, ?_, hg⟩)
  intro hq
  simp only [HasField, put] at hq ⊢
  split
  · rename_i e; subst e; exact hq
  · exact hq

theorem hasField_hput {s : Heap} {q : Nat} {f' : Bytes} {x : Scalar}
    (hne : q = p → f' = f → x = tryInt64 v) (hq : HasField p f (tryInt64 v) s) :
    HasField p f (tryInt64 v)
      { s with heap := put s.heap q { s.heap q with fields := hput (s.heap q).fields f' x } } := by
  simp only [HasField, put] at hq ⊢
  split
  · rename_i e
    subst e
    simp only [hfind_hput]
    split
    · rename_i e; rw [hne rfl e]
    · exact hq
  · exact hq

theorem stable_setP {β : Type} {q : Nat} {f' v' : Bytes} {g : Int → HP β} (hne : q = p → f' = f → v' = v)
    (hg : ∀ n, Stable (Owns k p) (HasField p f (tryInt64 v)) (g n)) :
    Stable (Owns k p) (HasField p f (tryInt64 v)) (setP q f' v' >>= g) := by
  unfold setP fLoadOrStore
  rw [Prog.assoc]
  have hx : q = p → f' = f → tryInt64 v' = tryInt64 v := fun a b => by rw [hne a b]
  refine stable_atomic (fun s hs => ?_)
  by_cases hf : (hfind (s.heap q).fields f').isSome = true
  · simp only [hf, if_true]
    refine ⟨hs, id, ?_⟩
    rw [Prog.assoc]
    refine stable_atomic (fun s' hs' => ⟨owns_heap hs' _, hasField_hput hx, ?_⟩)
    rw [Prog.assoc]
    exact stable_lenAdd _ _ (hg 0)
  · simp only [hf]
    refine ⟨owns_heap hs _, hasField_hput hx, ?_⟩
    simp only [Bool.false_eq_true, if_false]
    rw [Prog.assoc]
    exact stable_lenAdd _ _ (hg 1)

theorem stable_fetchP {α β : Type} {k' : Bytes} {body : Nat → HP (Res α)} {g : Res α → HP β}
    (hb : ∀ q, (q = p → k' = k) → Stable (Owns k p) (HasField p f (tryInt64 v)) (body q >>= g))
    (hg : ∀ r, Stable (Owns k p) (HasField p f (tryInt64 v)) (g r)) :
    Stable (Owns k p) (HasField p f (tryInt64 v)) (fetchP k' body >>= g) := by
  unfold fetchP hLoad
  rw [Prog.assoc]
  refine stable_atomic (fun s hs => ⟨hs, id, ?_⟩)
  cases hd : s.data k' with
  | none =>
    simp only [hNew, hStore]
    rw [Prog.assoc]
    refine stable_atomic (fun s1 hs1 => ⟨⟨hs1.1, Nat.lt_succ_of_lt hs1.2.1, hs1.2.2⟩, ?_, ?_⟩)
    · intro hq
      simp only [HasField] at hq ⊢
      rw [put_ne _ _ (by have := hs1.2.1; omega)]; exact hq
    · have hne : s1.next ≠ p := by have := hs1.2.1; omega
      have hkk : k ≠ k' := by rintro rfl; rw [hs.1] at hd; cases hd
      rw [Prog.assoc]
      refine stable_atomic (fun s2 hs2 => ⟨⟨?_, hs2.2.1, ?_⟩, id, hb _ (fun e => absurd e hne)⟩)
      · simp only [upd, hkk, if_false]; exact hs2.1
      · intro j hj
        simp only [upd] at hj
        split at hj
        · injection hj with hj; injection hj with hj; exact absurd hj hne
        · exact hs2.2.2 j hj
  | some x =>
    cases x with
    | other => exact hg _
    | hash q => exact hb q (fun e => hs.2.2 k' (by rw [hd, e]))

theorem stable_readP {α β : Type} {k' : Bytes} {body : Option Nat → HP (Res α)} {g : Res α → HP β}
    (hb : ∀ q, (q = some p → k' = k) → Stable (Owns k p) (HasField p f (tryInt64 v)) (body q >>= g))
    (hg : ∀ r, Stable (Owns k p) (HasField p f (tryInt64 v)) (g r)) :
    Stable (Owns k p) (HasField p f (tryInt64 v)) (readP k' body >>= g) := by
  unfold readP hLoad
  rw [Prog.assoc]
  refine stable_atomic (fun s hs => ⟨hs, id, ?_⟩)
  cases hd : s.data k' with
  | none => exact hb none (by simp)
  | some x =>
    cases x with
    | other => exact hg _
    | hash q => exact hb (some q) (fun e => hs.2.2 k' (by rw [hd]; injection e with e; rw [e]))

theorem stable_hMSetP {β : Type} {q : Nat} {g : Res Int → HP β} (fv : List (Bytes × Bytes)) (n : Int)
    (hne : q = p → ∀ a ∈ fv, a.1 = f → a.2 = v)
    (hg : ∀ r, Stable (Owns k p) (HasField p f (tryInt64 v)) (g r)) :
    Stable (Owns k p) (HasField p f (tryInt64 v)) (hMSetP q fv n >>= g) := by
  induction fv generalizing n with
  | nil => exact hg _
  | cons a fv ih =>
    obtain ⟨f', v'⟩ := a
    simp only [hMSetP]
    rw [Prog.assoc]
    exact stable_setP (fun e1 e2 => hne e1 (f', v') (by simp) e2)
      (fun m => ih _ (fun e1 a ha => hne e1 a (by simp [ha])))

theorem stable_hDelP {β : Type} {q : Nat} {g : Res Int → HP β} (fs : List Bytes) (n : Int)
    (hne : q = p → f ∉ fs)
    (hg : ∀ r, Stable (Owns k p) (HasField p f (tryInt64 v)) (g r)) :
    Stable (Owns k p) (HasField p f (tryInt64 v)) (hDelP q fs n >>= g) := by
  induction fs generalizing n with
  | nil =>
    simp only [hDelP]
    split
    · exact hg _
    · rw [Prog.assoc]; exact stable_lenAdd _ _ (hg _)
  | cons f' fs ih =>
    simp only [hDelP, fLoad]
    rw [Prog.assoc]
    refine stable_atomic (fun s hs => ⟨hs, id, ?_⟩)
    have hne' : q = p → f ∉ fs := fun e h => hne e (by simp [h])
    cases hf : hfind (s.heap q).fields f' with
    | none => exact ih _ hne'
    | some x =>
      simp only [fDelete]
      rw [Prog.assoc]
      refine stable_atomic (fun s' hs' => ⟨owns_heap hs' _, ?_, ih _ hne'⟩)
      intro hq
      simp only [HasField, put] at hq ⊢
      split
      · rename_i e
        subst e
        have : f' ≠ f := fun e => hne rfl (by simp [e])
        simp only [hfind_hdelete_ne _ this]; exact hq
      · exact hq

/-- Every call that respects field `f` keeps the ownership of `k` and the field. -/
theorem stable_hprog (op : HCall) (ho : op.respects k f v) :
    Stable (Owns k p) (HasField p f (tryInt64 v)) (hprog op) := by
  have ret : ∀ o : Out, Stable (Owns k p) (HasField p f (tryInt64 v)) (.ret o : HP Out) := fun _ => trivial
  cases op with
  | hSet k' f' v' =>
    refine stable_fetchP (fun q hq => ?_) (fun r => ret _)
    rw [Prog.assoc]
    exact stable_setP (fun e1 e2 => ho (hq e1) e2) (fun n => ret _)
  | hSetNX k' f' v' =>
    refine stable_fetchP (fun q hq => ?_) (fun r => ret _)
    unfold fLoadOrStore
    rw [Prog.assoc]
    refine stable_atomic (fun s hs => ?_)
    by_cases hf : (hfind (s.heap q).fields f').isSome = true
    · simp only [hf, if_true]
      exact ⟨hs, id, ret _⟩
    · simp only [hf]
      refine ⟨owns_heap hs _, ?_, ?_⟩
      · intro hq'
        simp only [HasField, put, Bool.false_eq_true, if_false] at hq' ⊢
        split
        · rename_i e
          subst e
          simp only [hfind_hput]
          split
          · rename_i e; subst e; rw [hq'] at hf; simp at hf
          · exact hq'
        · exact hq'
      · simp only [Bool.false_eq_true, if_false]
        rw [Prog.assoc]
        exact stable_lenAdd _ _ (ret _)
  | hMSet k' fv =>
    exact stable_fetchP (fun q hq => stable_hMSetP _ _ (fun e => ho (hq e)) (fun r => ret _)) (fun r => ret _)
  | hDel k' fs =>
    refine stable_readP (fun q hq => ?_) (fun r => ret _)
    cases q with
    | none => exact ret _
    | some q => exact stable_hDelP _ _ (fun e => ho (hq (by rw [e]))) (fun r => ret _)
  | hExists k' f' =>
    refine stable_readP (fun q hq => ?_) (fun r => ret _)
    cases q with
    | none => exact ret _
    | some q =>
      simp only [fLoad]
      rw [Prog.assoc]
      refine stable_atomic (fun s hs => ⟨hs, id, ?_⟩)
      rw [Prog.assoc]
      exact stable_lenAdd _ _ (ret _)
  | hGet k' f' =>
    refine stable_readP (fun q hq => ?_) (fun r => ret _)
    cases q with
    | none => exact ret _
    | some q =>
      simp only [fLoad]
      rw [Prog.assoc]
      refine stable_atomic (fun s hs => ⟨hs, id, ?_⟩)
      cases hfind (s.heap q).fields f' <;> exact ret _
  | hLen k' =>
    refine stable_readP (fun q hq => ?_) (fun r => ret _)
    cases q with
    | none => exact ret _
    | some q =>
      simp only [lenLoad]
      rw [Prog.assoc]
      exact stable_atomic (fun s hs => ⟨hs, id, ret _⟩)
  | del k' =>
    simp only [hprog, hLoad]
    refine stable_atomic (fun s hs => ⟨hs, id, ?_⟩)
    refine stable_atomic (fun s' hs' => ⟨⟨?_, hs'.2.1, ?_⟩, id, ret _⟩)
    · have : k ≠ k' := fun e => ho e.symm
      simp only [upd, this, if_false]; exact hs'.1
    · intro j hj
      simp only [upd] at hj
      split at hj
      · cases hj
      · exact hs'.2.2 j hj

/-- Once `Q` is established it stays: a stable program ensures it. -/
theorem ens_true {α : Type} {I Q : Heap → Prop} {g : HP α} (h : Stable I Q g) : Ens I Q true g := by
  induction g with
  | ret a => rfl
  | act u c ih =>
    intro s hs hq
    obtain ⟨h1, h2, h3⟩ := h s hs
    exact ⟨true, id, fun _ => h2 (hq rfl), ih s h3⟩

theorem ens_atomic {α β : Type} {I Q : Heap → Prop} {a : Heap → Heap × α} {g : α → HP β} {b : Bool}
    (h : ∀ s, I s → (b = true → Q s) → ∃ b', (b = true → b' = true) ∧ (b' = true → Q (a s).1) ∧
      Ens I Q b' (g (a s).2)) : Ens I Q b (Prog.atomic a >>= g) := h

/-- `he.set(f, v)` through the right pointer establishes the field. -/
theorem ens_setP {β : Type} {g : Int → HP β}
    (hg : ∀ n, Stable (Owns k p) (HasField p f (tryInt64 v)) (g n)) :
    Ens (Owns k p) (HasField p f (tryInt64 v)) false (setP p f v >>= g) := by
  unfold setP fLoadOrStore
  rw [Prog.assoc]
  refine ens_atomic (fun s hs _ => ?_)
  have done : ∀ s : Heap, HasField p f (tryInt64 v)
      { s with heap := put s.heap p { s.heap p with fields := hput (s.heap p).fields f (tryInt64 v) } } := by
    intro s; simp [HasField, hfind_hput]
  by_cases hf : (hfind (s.heap p).fields f).isSome = true
  · refine ⟨false, by simp, by simp, ?_⟩
    simp only [hf, if_true]
    rw [Prog.assoc]
    refine ens_atomic (fun s' hs' _ => ?_)
    refine ⟨true, by simp, fun _ => done s', ens_true ?_⟩
    rw [Prog.assoc]
    exact stable_lenAdd _ _ (hg 0)
  · refine ⟨true, by simp, fun _ => ?_, ?_⟩
    · simp only [hf]; exact done s
    · simp only [hf, Bool.false_eq_true, if_false]
      rw [Prog.assoc]
      exact ens_true (stable_lenAdd _ _ (hg 1))

theorem ens_hSet : Ens (Owns k p) (HasField p f (tryInt64 v)) false (hprog (.hSet k f v)) := by
  simp only [hprog, fetchP, hLoad]
  rw [Prog.assoc]
  refine ens_atomic (fun s hs _ => ?_)
  refine ⟨false, id, by simp, ?_⟩
  simp only [hs.1]
  rw [Prog.assoc]
  exact ens_setP (fun n => trivial)

end

/-- C43, part: on a hash that exists, no field is lost.  Any number of goroutines make any hash calls
(and Del of other keys) that do not delete field `f` of `k` or set it to something else.  From the
return of any HSet(k, f, v) on, in every schedule, HGet(k, f) shows `v` (canonical text).
Missing: a key that does not exist yet, where it is false (`C43_violated`), and HLen
(`C43_violated_length`). -/
theorem C43_fields_survive_partial (k f v : Bytes) (p : Nat) (w : Heap) (hw : Owns k p w)
    (calls : Nat → List HCall) (hc : ∀ i, ∀ op ∈ calls i, op.respects k f v)
    (g : HCfg) (hs : Steps hspec true (initial w calls) g)
    (hl : ∃ e ∈ g.log, e.2.1 = .hSet k f v) :
    (alone (hprog (.hGet k f)) g.sh).2 = .str (.ok (canon v)) := by
  have := ensures_sound (P := hspec) (I := Owns k p) (Q := HasField p f (tryInt64 v))
    (ok := HCall.respects k f v) (T := fun op => op = .hSet k f v)
    (fun op ho => stable_hprog op ho) (by rintro op rfl; exact ens_hSet)
    (by rintro s s' rfl; exact ⟨id, id⟩) hw hc hs
  obtain ⟨e, he1, he2⟩ := hl
  have hq : HasField p f (tryInt64 v) g.sh := this.2.1 e he1 he2
  simp only [hprog, readP]
  rw [alone_bind, alone_bind]
  simp only [hLoad, alone_atomic, this.1.1]
  rw [alone_bind]
  simp only [fLoad, alone_atomic]
  rw [show hfind (g.sh.heap p).fields f = some (tryInt64 v) from hq]
  simp [alone, fmtScalar_tryInt64]

/-- The situation of C43: two goroutines set different fields of an existing hash. -/
example : Owns b!"h" 0 ⟨upd (fun _ => none) b!"h" (some (.hash 0)), fun _ => HashEntry.empty, 1⟩ ∧
    HCall.respects b!"h" b!"a" b!"1" (.hSet b!"h" b!"b" b!"2") ∧
    HCall.respects b!"h" b!"a" b!"1" (.hSet b!"h" b!"a" b!"1") := by
  refine ⟨⟨by decide, by decide, ?_⟩, ?_, ?_⟩
  · intro j hj
    simp only [upd] at hj
    split at hj
    · assumption
    · cases hj
  · intro _ h; exact absurd h (by decide)
  · intro _ _; rfl

/-! ## C44 -/

/-- C44 is false: an MGet running between the two stores of an MSet sees one new and one old value. -/
theorem C44_violated : ∃ g : Cfg,
    Steps spec true (initial ⟨run Cache.new [(0, .mSet [(b!"a", b!"old"), (b!"b", b!"old")])], 0⟩
      (fun i => if i = 0 then [.mSet [(b!"a", b!"new"), (b!"b", b!"new")]] else if i = 1 then [.mGet [b!"a", b!"b"]] else [])) g ∧
    (1, .slots (.ok [.ok b!"new", .ok b!"old"])) ∈ g.log.map (fun e => (e.1, e.2.2)) := by
  have h : (sched spec (initial ⟨run Cache.new [(0, .mSet [(b!"a", b!"old"), (b!"b", b!"old")])], 0⟩
      (fun i => if i = 0 then [.mSet [(b!"a", b!"new"), (b!"b", b!"new")]] else if i = 1 then [.mGet [b!"a", b!"b"]] else []))
      [.start 0, .act 0, .start 1, .act 1, .act 1, .act 1, .act 1, .fin 1]).map
      (fun g => g.log.map (fun e => (e.1, e.2.2))) = some [(1, .slots (.ok [.ok b!"new", .ok b!"old"]))] := by
    decide +kernel
  obtain ⟨g, hg, hl⟩ := Option.map_eq_some_iff.mp h
  exact ⟨g, sched_steps_noTick rfl hg, by rw [hl]; simp⟩

/-- What a key may hold: its initial value, or one that some MSet of the program writes. -/
def May (c0 : Cache) (calls : Nat → List Call) (k : Bytes) (o : Option Val) : Prop :=
  o = c0.data k ∨ ∃ i kv v, .mSet kv ∈ calls i ∧ (k, v) ∈ kv ∧ o = some (.scalar (tryInt64 v))

/-- What a slot of MGet may show for `k`. -/
def MayShow (c0 : Cache) (calls : Nat → List Call) (k : Bytes) (r : Res Bytes) : Prop :=
  r = (match c0.data k with | none => .err .keyNil | some v => fmtString v) ∨
  ∃ i kv v, .mSet kv ∈ calls i ∧ (k, v) ∈ kv ∧ r = .ok (canon v)

/-- Slot by slot. -/
inductive SlotsOk (c0 : Cache) (calls : Nat → List Call) : List Bytes → List (Res Bytes) → Prop
  | nil : SlotsOk c0 calls [] []
  | cons {k ks r rs} : MayShow c0 calls k r → SlotsOk c0 calls ks rs → SlotsOk c0 calls (k :: ks) (r :: rs)

def MInv (c0 : Cache) (calls : Nat → List Call) (s : World) : Prop :=
  (∀ k, s.c.exp k = none) ∧ ∀ k, May c0 calls k (s.c.data k)

theorem keeps_step {α β : Type} {I : World → Prop} {post : β → Prop} {f : Cache → Int → Cache × α} {g : α → P β}
    (h : ∀ c n, I ⟨c, n⟩ → I ⟨(f c n).1, n⟩ ∧ Keeps I post (g (f c n).2)) : Keeps I post (step f >>= g) :=
  fun s hs => h s.c s.now hs

theorem keeps_getP {c0 : Cache} {calls : Nat → List Call} {k : Bytes} {α : Type} {post : α → Prop} {g : Option Val → P α}
    (hg : ∀ o, May c0 calls k o → Keeps (MInv c0 calls) post (g o)) :
    Keeps (MInv c0 calls) post (getP k >>= g) := by
  unfold getP loadData
  rw [Prog.assoc]
  refine keeps_step (fun c n hs => ⟨hs, ?_⟩)
  have hm := hs.2 k
  simp only at hm
  cases hd : c.data k with
  | none => exact hg none (hd ▸ hm)
  | some v =>
    simp only [expiredP, loadExp]
    rw [Prog.assoc, Prog.assoc]
    refine keeps_step (fun c' n' hs' => ⟨hs', ?_⟩)
    have he := hs'.1 k
    simp only at he
    simp only [he]
    exact hg (some v) (hd ▸ hm)

theorem keeps_mGetP {c0 : Cache} {calls : Nat → List Call} {α : Type} {post : α → Prop} (ks : List Bytes)
    {g : List (Res Bytes) → P α} (hg : ∀ rs, SlotsOk c0 calls ks rs → Keeps (MInv c0 calls) post (g rs)) :
    Keeps (MInv c0 calls) post (mGetP ks >>= g) := by
  induction ks generalizing g with
  | nil => exact hg [] .nil
  | cons k ks ih =>
    simp only [mGetP]
    rw [Prog.assoc]
    refine keeps_getP (fun o ho => ?_)
    rw [Prog.assoc]
    refine ih (fun rs hrs => ?_)
    refine hg _ (.cons ?_ hrs)
    rcases ho with rfl | ⟨i, kv, v, h1, h2, rfl⟩
    · exact .inl rfl
    · exact .inr ⟨i, kv, v, h1, h2, by simp [fmtString, fmtScalar_tryInt64]⟩

theorem keeps_mSetP {c0 : Cache} {calls : Nat → List Call} {α : Type} {post : α → Prop} {i : Nat}
    {kv0 : List (Bytes × Bytes)} (hi : .mSet kv0 ∈ calls i) (kv : List (Bytes × Bytes)) (hsub : ∀ p ∈ kv, p ∈ kv0)
    {g : Unit → P α} (hg : Keeps (MInv c0 calls) post (g ())) :
    Keeps (MInv c0 calls) post (mSetP kv >>= g) := by
  induction kv with
  | nil => exact hg
  | cons p kv ih =>
    obtain ⟨k, v⟩ := p
    simp only [mSetP, storeData]
    rw [Prog.assoc]
    refine keeps_step (fun c n hs => ⟨⟨hs.1, fun j => ?_⟩, ih (fun p hp => hsub p (by simp [hp]))⟩)
    simp only [store, upd]
    split
    · rename_i e; subst e; exact .inr ⟨i, kv0, v, hi, hsub _ (by simp), rfl⟩
    · exact hs.2 j

/-- C44, part: any number of goroutines make MSet and MGet calls on keys without deadlines.  In every
schedule every slot of every MGet shows the initial value of its key or a value that some MSet
writes to it (never a mixture within one slot).
Missing: atomicity across slots, which is false (`C44_violated`). -/
theorem C44_slots_partial (c0 : Cache) (t0 : Int) (h0 : ∀ k, c0.exp k = none) (calls : Nat → List Call)
    (hc : ∀ i, ∀ op ∈ calls i, (∃ kv, op = .mSet kv) ∨ ∃ ks, op = .mGet ks)
    (g : Cfg) (hs : Steps spec true (initial ⟨c0, t0⟩ calls) g) (i : Nat) (ks : List Bytes) (o : Out)
    (hl : (i, .mGet ks, o) ∈ g.log) : ∃ rs, o = .slots (.ok rs) ∧ SlotsOk c0 calls ks rs := by
  have := keeps_sound (P := spec) (I := MInv c0 calls)
    (ok := fun op => ((∃ kv, op = .mSet kv) ∨ ∃ ks, op = .mGet ks) ∧ ∃ i, op ∈ calls i)
    (post := fun op o => ∀ ks, op = .mGet ks → ∃ rs, o = .slots (.ok rs) ∧ SlotsOk c0 calls ks rs)
    (by
      rintro op ⟨h1 | h1, j, hj⟩
      · obtain ⟨kv, rfl⟩ := h1
        exact keeps_mSetP hj kv (fun p hp => hp) (by intro ks h; cases h)
      · obtain ⟨ks, rfl⟩ := h1
        refine keeps_mGetP ks (fun rs hrs ks' h => ?_)
        cases h
        exact ⟨rs, rfl, hrs⟩)
    (by rintro s s' ⟨h1, h2⟩ hI; unfold MInv; rw [h1]; exact hI)
    (s := ⟨c0, t0⟩) ⟨h0, fun k => .inl rfl⟩ (fun i op ho => ⟨hc i op ho, i, ho⟩) hs
  exact this.2.1 _ hl ks rfl

end Verif.Conc

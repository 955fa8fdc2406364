import Verif.Conc.FullLin
import Verif.Conc.Progress
import Verif.Cache.PropsDb
/-!
# C101–C103: all calls of the cache used by many goroutines at once
-/
namespace Verif.Conc.Full
open Verif Verif.Conc

/-! ## C101 -/

theorem mode_supported (op : Call) : spec.mode op ≠ .unsupported := by
  cases op <;> exact Mode.noConfusion

/-- C101, no deadlock: after any schedule of any number of goroutines, as long as some goroutine has
calls left or a call in progress, some goroutine can make a step, even if no reader is let in while a
writer waits. -/
theorem C101_no_deadlock (v : Mem) (calls : Nat → List Call) (g : Cfg) (hs : Steps spec true (initial v calls) g)
    (i : Nat) (hi : ¬ Done g i) : ∃ j g', TStep spec true j g g' ∧ Allowed spec g j :=
  can_step (locks_steps hs) mode_supported hi

/-- C101, no livelock: in a run without end of finitely many goroutines only the clock moves from
some point on. -/
theorem C101_no_endless_run (v : Mem) (calls : Nat → List Call) (N : Nat) (hN : ∀ i, N ≤ i → calls i = [])
    (f : Nat → Cfg) (h0 : f 0 = initial v calls) (hf : Run spec true f) :
    ∃ M, ∀ n, M ≤ n → ∀ i, ¬ TStep spec true i (f n) (f (n + 1)) :=
  all_stop hf N (fun i hi => by rw [h0]; unfold Done initial; simp [hN i hi])

/-- C101, full: if the scheduler does not idle forever while a goroutine could run, all calls of all
goroutines return: at some point each goroutine is done and has got one answer for each of its calls,
in its order. -/
theorem C101_every_call_returns (v : Mem) (calls : Nat → List Call) (N : Nat) (hN : ∀ i, N ≤ i → calls i = [])
    (f : Nat → Cfg) (h0 : f 0 = initial v calls) (hf : Run spec true f) (hfair : Fair spec true f) :
    ∃ n, ∀ i, ((f n).log.filter (fun e => e.1 = i)).map (·.2.1) = calls i := by
  obtain ⟨n, hn⟩ := fair_done mode_supported h0 hf hfair N hN
  refine ⟨n, fun i => ?_⟩
  have hs := run_steps hf n
  rw [h0] at hs
  have := program_order hs i
  rw [hn i] at this
  simpa using this

/-- The hypotheses of C101 are met for all calls: there is a fair run without end. -/
theorem fair_run (v : Mem) (calls : Nat → List Call) : ∃ f : Nat → Cfg, f 0 = initial v calls ∧ Run spec true f ∧ Fair spec true f :=
  fair_exists (P := spec) (fun s => ⟨s.now, Int.le_refl _, rfl⟩) _

/-- Two goroutines with a write-locked and an unlocked call, to the end. -/
def returnsDemo : List (Ev Mem) :=
  [.start 0, .start 1, .act 1, .act 0, .fin 0, .act 1, .act 1, .act 1, .act 1, .fin 1]

def returnsCalls : Nat → List Call := fun i =>
  if i = 0 then [.set b!"k" b!"v"] else if i = 1 then [.hSet b!"h" b!"f" b!"1"] else []

example : (sched spec (initial (Mem.empty 0) returnsCalls) returnsDemo).map (fun g => g.log.map (fun e => (e.1, e.2.2))) =
    some [(0, .str (.ok OK)), (1, .int (.ok 1))] := by decide +kernel

/-! ## C102 -/

/-- C102, full: goroutines whose calls conflict on a key only where one is atomic (`Call.exclusive`
or the sweep) and the other is too or looks at one string.  All answers are those of one sequential history in the order of the returns, each
call at a time of the run; the same calls put in the order of these times, each goroutine's own order
kept, give the same answers at a clock that never runs backwards; and when no call is in progress
both leave the cache there is. -/
theorem C102_guarded (D : Bytes → Prop) (v : Mem) (calls : Nat → List Call) (hv : v.WF) (hD : ∀ k, D k → v.exp k = none)
    (hp : ∀ i, ∀ op ∈ calls i, Plain D op) (hg : Guarded D calls) (g : Cfg) (hs : Steps spec true (initial v calls) g) :
    ∃ L M : List Entry, logged L = g.log ∧ Agrees v.abs L ∧ M.Perm L ∧
      (∀ i, M.filter (fun e => e.thread = i) = L.filter (fun e => e.thread = i)) ∧ Agrees v.abs M ∧
      Monotone v.now (hist M) ∧ (∀ e ∈ M, e.time ≤ g.sh.now) ∧
      ((∀ i, (g.thr i).cur = none) → g.sh.abs = run v.abs (hist L) ∧ g.sh.abs = run v.abs (hist M)) := by
  obtain ⟨_, _, L, inv⟩ := qinv hv hD hp (guarded_quiet hg hs)
  obtain ⟨M, _, m1, m2, m3, m4, m5⟩ := sort hD L inv.lplain inv.order inv.agrees
  refine ⟨L, M, inv.log, inv.agrees, m2, m3, m4, sorted_monotone m1 (fun e he => (inv.times e (m2.mem_iff.1 he)).1),
    fun e he => (inv.times e (m2.mem_iff.1 he)).2, fun hn => ?_⟩
  have : g.sh.abs = run v.abs (hist L) := by
    have h := fun k => inv.idle k (fun i op p hi => by rw [hn i] at hi; cases hi)
    exact Cache.ext' (fun k => (h k).1) (fun k => (h k).2)
  exact ⟨this, this.trans m5.symm⟩

/-- C102 without the lock: any calls in any schedule in which no two calls in progress conflict. -/
theorem C102_quiet (D : Bytes → Prop) (v : Mem) (calls : Nat → List Call) (hv : v.WF) (hD : ∀ k, D k → v.exp k = none)
    (hp : ∀ i, ∀ op ∈ calls i, Plain D op) (g : Cfg) (hs : Quiet D (initial v calls) g) :
    ∃ L M : List Entry, logged L = g.log ∧ Agrees v.abs L ∧ M.Perm L ∧
      (∀ i, M.filter (fun e => e.thread = i) = L.filter (fun e => e.thread = i)) ∧ Agrees v.abs M ∧
      Monotone v.now (hist M) ∧ (∀ e ∈ M, e.time ≤ g.sh.now) ∧
      ((∀ i, (g.thr i).cur = none) → g.sh.abs = run v.abs (hist L) ∧ g.sh.abs = run v.abs (hist M)) := by
  obtain ⟨_, _, L, inv⟩ := qinv hv hD hp hs
  obtain ⟨M, _, m1, m2, m3, m4, m5⟩ := sort hD L inv.lplain inv.order inv.agrees
  refine ⟨L, M, inv.log, inv.agrees, m2, m3, m4, sorted_monotone m1 (fun e he => (inv.times e (m2.mem_iff.1 he)).1),
    fun e he => (inv.times e (m2.mem_iff.1 he)).2, fun hn => ?_⟩
  have : g.sh.abs = run v.abs (hist L) := by
    have h := fun k => inv.idle k (fun i op p hi => by rw [hn i] at hi; cases hi)
    exact Cache.ext' (fun k => (h k).1) (fun k => (h k).2)
  exact ⟨this, this.trans m5.symm⟩

/-- All atomic calls, among them the sweep and the calls with deadlines. -/
theorem guarded_write {D : Bytes → Prop} {calls : Nat → List Call} (h : ∀ i, ∀ op ∈ calls i, Excl op) :
    Guarded D calls :=
  fun i j _ a ha b hb _ => .inl ⟨h i a ha, .inl (h j b hb)⟩

/-- Goroutines that share no key, whatever they call. -/
theorem guarded_disjoint {D : Bytes → Prop} {calls : Nat → List Call}
    (h : ∀ i j, i ≠ j → ∀ a ∈ calls i, ∀ b ∈ calls j, ∀ k, ¬ (touches a k ∧ touches b k)) : Guarded D calls := by
  rintro i j hij a ha b hb ⟨k, hk | hk⟩
  · exact (h i j hij a ha b hb k ⟨may_touches hk.1, hk.2⟩).elim
  · exact (h i j hij a ha b hb k ⟨hk.1, may_touches hk.2⟩).elim

/-- C102 for the calls under the write lock: any deadlines, and the background sweep among them. -/
theorem C102_with_sweep (v : Mem) (calls : Nat → List Call) (hv : v.WF) (hm : ∀ i, ∀ op ∈ calls i, Excl op)
    (g : Cfg) (hs : Steps spec true (initial v calls) g) :
    ∃ L M : List Entry, logged L = g.log ∧ Agrees v.abs L ∧ M.Perm L ∧
      (∀ i, M.filter (fun e => e.thread = i) = L.filter (fun e => e.thread = i)) ∧ Agrees v.abs M ∧
      Monotone v.now (hist M) ∧ (∀ e ∈ M, e.time ≤ g.sh.now) ∧
      ((∀ i, (g.thr i).cur = none) → g.sh.abs = run v.abs (hist L) ∧ g.sh.abs = run v.abs (hist M)) :=
  C102_guarded (fun _ => False) v calls hv (fun _ h => h.elim)
    (fun i op ho => by have := exclusive_mode (hm i op ho); cases op <;> first | exact id | trivial | cases this) (guarded_write hm) g hs

example : Excl .cronTick ∧ Excl (.setEX b!"k" b!"v" 1) ∧ Excl (.append b!"k" b!"x") := ⟨.inr rfl, .inl rfl, .inl rfl⟩

/-- C102 for goroutines that share no key: hashes, unlocked calls, everything except that an MGet of
several keys needs keys without deadlines. -/
theorem C102_own_keys (D : Bytes → Prop) (v : Mem) (calls : Nat → List Call) (hv : v.WF) (hD : ∀ k, D k → v.exp k = none)
    (hp : ∀ i, ∀ op ∈ calls i, Plain D op)
    (hk : ∀ i j, i ≠ j → ∀ a ∈ calls i, ∀ b ∈ calls j, ∀ k, ¬ (touches a k ∧ touches b k))
    (g : Cfg) (hs : Steps spec true (initial v calls) g) :
    ∃ L M : List Entry, logged L = g.log ∧ Agrees v.abs L ∧ M.Perm L ∧
      (∀ i, M.filter (fun e => e.thread = i) = L.filter (fun e => e.thread = i)) ∧ Agrees v.abs M ∧
      Monotone v.now (hist M) ∧ (∀ e ∈ M, e.time ≤ g.sh.now) ∧
      ((∀ i, (g.thr i).cur = none) → g.sh.abs = run v.abs (hist L) ∧ g.sh.abs = run v.abs (hist M)) :=
  C102_guarded D v calls hv hD hp (guarded_disjoint hk) g hs

example : ∀ k, ¬ (touches (.hSet b!"h" b!"f" b!"1") k ∧ touches (.mGet [b!"a", b!"b"]) k) := by
  intro k h
  simp [touches, Call.keys] at h
  grind

/-- Calls of four goroutines: a hash used by one of them, a counter shared by two, a key with a
deadline, and a key that several read. -/
def guardedDemo : Nat → List Call
  | 0 => [.hSet b!"h" b!"a" b!"1", .hGet b!"h" b!"a"]
  | 1 => [.incr b!"n", .get b!"s"]
  | 2 => [.incrBy b!"n" 5, .setEX b!"k" b!"v" 10]
  | 3 => [.get b!"s", .mGet [b!"s", b!"z"]]
  | _ => []

/-- Keys without a deadline: all but "k". -/
def demoKeys (k : Bytes) : Prop := k ≠ b!"k"

example : (∀ i, ∀ op ∈ guardedDemo i, Plain demoKeys op) ∧ Guarded demoKeys guardedDemo := by
  constructor
  · intro i op hop
    match i, hop with
    | 0, hop | 1, hop | 2, hop | 3, hop =>
      simp [guardedDemo] at hop
      rcases hop with rfl | rfl <;> simp [Plain, demoKeys]
    | _ + 4, hop => simp [guardedDemo] at hop
  · intro i j hij a ha b hb hc
    match i, j, ha, hb with
    | 0, 0, _, _ | 1, 1, _, _ | 2, 2, _, _ | 3, 3, _, _ => exact absurd rfl hij
    | 0, 1, ha, hb | 0, 2, ha, hb | 0, 3, ha, hb | 1, 0, ha, hb | 1, 2, ha, hb | 1, 3, ha, hb
    | 2, 0, ha, hb | 2, 1, ha, hb | 2, 3, ha, hb | 3, 0, ha, hb | 3, 1, ha, hb | 3, 2, ha, hb =>
      simp [guardedDemo] at ha hb
      rcases ha with rfl | rfl <;> rcases hb with rfl | rfl <;>
        (obtain ⟨k, hc⟩ := hc
         simp [touches, may, Call.keys, Call.writes, demoKeys, Excl, Call.exclusive, Call.look] at hc ⊢) <;> grind
    | _ + 4, _, ha, _ => simp [guardedDemo] at ha
    | _, _ + 4, _, hb => simp [guardedDemo] at hb

/-- A schedule of these calls in which they overlap. -/
def guardedSched : List (Ev Mem) :=
  [.start 0, .start 1, .act 0, .act 1, .act 0, .fin 1, .start 2, .act 2, .act 0, .act 0, .act 2, .act 0, .fin 2, .fin 0,
   .start 0, .start 1, .start 3, .act 0, .act 1, .act 3, .fin 1, .fin 3, .start 3, .start 2, .act 3, .act 2,
   .tick (fun s => { s with now := s.now + 1 }), .act 2, .act 3, .act 2, .fin 2, .act 0, .act 0, .fin 0, .fin 3]

example : (sched spec (initial (Mem.empty 0) guardedDemo) guardedSched).map
    (fun g => (g.log.map (fun e => (e.1, e.2.2)), g.sh.exp b!"k")) =
    some ([(1, .int (.ok 1)), (2, .int (.ok 6)), (0, .int (.ok 1)), (1, .str (.err .keyNil)), (3, .str (.err .keyNil)),
      (2, .str (.ok OK)), (0, .str (.ok b!"1")), (3, .slots (.ok [.err .keyNil, .err .keyNil]))], some 10000000001) := by
  decide +kernel

/-! ## C103 -/

/-- Two keys with deadlines 5 and 10. -/
def twoDeadlines : Mem :=
  { data := upd (upd (fun _ => none) b!"a" (some (.scalar (.str b!"x")))) b!"b" (some (.scalar (.str b!"y")))
    exp := upd (upd (fun _ => none) b!"a" (some 5)) b!"b" (some 10)
    heap := fun _ => HashEntry.empty, next := 0, now := 0 }

theorem twoDeadlines_wf : twoDeadlines.WF := by
  constructor
  · intro k p h
    simp only [twoDeadlines, upd] at h
    split at h <;> try cases h
    split at h <;> cases h
  · intro k k' p h
    simp only [twoDeadlines, upd] at h
    split at h <;> try cases h
    split at h <;> cases h
  · intro p; simp [twoDeadlines, Distinct, HashEntry.empty]

/-- C103 is false, even for a goroutine that is alone: a and b have the deadlines 5 and 10; MGet(a,b)
begins at time 0, the clock passes 10 while it runs, and it answers a's value and none for b.  No
moment has both: while a is there, so is b. -/
theorem C103_violated : ∃ g : Cfg,
    Steps spec true (initial twoDeadlines (fun i => if i = 0 then [.mGet [b!"a", b!"b"]] else [])) g ∧
    g.log.map (fun e => (e.1, e.2.2)) = [(0, .slots (.ok [.ok b!"x", .err .keyNil]))] ∧
    ∀ t, (exec twoDeadlines.abs t (.mGet [b!"a", b!"b"])).2 ≠ .slots (.ok [.ok b!"x", .err .keyNil]) := by
  have h : (sched spec (initial twoDeadlines (fun i => if i = 0 then [.mGet [b!"a", b!"b"]] else []))
      [.start 0, .act 0, .act 0, .act 0, .tick (fun s => { s with now := s.now + 20 }), .act 0, .act 0, .act 0, .act 0, .act 0, .fin 0]).map
      (fun g => g.log.map (fun e => (e.1, e.2.2))) = some [(0, .slots (.ok [.ok b!"x", .err .keyNil]))] := by
    decide +kernel
  obtain ⟨g, hg, hl⟩ := Option.map_eq_some_iff.mp h
  refine ⟨g, sched_steps (fun e he => ?_) hg, hl, fun t => ?_⟩
  · simp at he
    rcases he with rfl | rfl | rfl | rfl | rfl <;> try trivial
    exact fun s => ⟨s.now + 20, by omega, rfl⟩
  · by_cases ha : 5 < t
    · simp [exec, Cache.mGet, Cache.get, Cache.load, Cache.expired, twoDeadlines, Mem.abs, upd, ha]
    · have hb : ¬ 10 < t := by omega
      simp [exec, Cache.mGet, Cache.get, Cache.load, Cache.expired, twoDeadlines, Mem.abs, upd, ha, hb, Cell.val, fmtString]

theorem agrees_mem {c : Cache} {L : List Entry} (h : Agrees c L) {e : Entry} (he : e ∈ L) :
    ∃ pre, pre <+: L ∧ (exec (run c (hist pre)) e.time e.op).2 = e.out := by
  induction L generalizing c with
  | nil => simp at he
  | cons x L ih =>
    simp only [Agrees, hist, List.map_cons, outs, List.cons.injEq] at h
    rcases List.mem_cons.1 he with rfl | he
    · exact ⟨[], List.nil_prefix, h.1⟩
    · obtain ⟨pre, p1, p2⟩ := ih h.2 he
      exact ⟨x :: pre, List.cons_prefix_cons.2 ⟨rfl, p1⟩, p2⟩

/-- C103, part: under the conditions of C102, an MGet of keys without deadlines shows one moment:
there are calls that had returned before it such that every slot is the answer of Get in the cache
those calls leave, at one and the same time.  Missing: keys with deadlines, where it is false
(`C103_violated`), and keys that others write without lock or under the lock MGet does not take. -/
theorem C103_snapshot_partial (D : Bytes → Prop) (v : Mem) (calls : Nat → List Call) (hv : v.WF)
    (hD : ∀ k, D k → v.exp k = none) (hp : ∀ i, ∀ op ∈ calls i, Plain D op) (hg : Guarded D calls) (g : Cfg)
    (hs : Steps spec true (initial v calls) g) (i : Nat) (ks : List Bytes) (o : Out) (hl : (i, .mGet ks, o) ∈ g.log) :
    ∃ (h : History) (t : Int), h.map (·.2) <+: g.log.map (·.2.1) ∧ v.now ≤ t ∧ t ≤ g.sh.now ∧
      o = .slots (.ok (ks.map (fun k => ((run v.abs h).get t k).2))) := by
  obtain ⟨_, _, L, inv⟩ := qinv hv hD hp (guarded_quiet hg hs)
  rw [← inv.log] at hl
  obtain ⟨e, he, hee⟩ := List.mem_map.1 hl
  obtain ⟨pre, p1, p2⟩ := agrees_mem inv.agrees he
  have ho : e.op = .mGet ks := (Prod.mk.inj (Prod.mk.inj hee).2).1
  have hout : e.out = o := (Prod.mk.inj (Prod.mk.inj hee).2).2
  have := inv.times e he
  refine ⟨hist pre, e.time, ?_, this.1, this.2, ?_⟩
  · rw [← inv.log]
    simpa [hist, logged, Function.comp_def] using p1.map (fun e : Entry => e.op)
  · rw [← hout, ← p2, ho]
    exact C22_mGet _ _ _

end Verif.Conc.Full

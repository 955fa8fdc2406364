import Verif.Conc.PropsFull
/-!
# C102: the sequential history respects the order in real time
-/
namespace Verif.Conc.Full
open Verif Verif.Conc

/-- A call with the clock readings at which it was made and at which it returned. -/
abbrev Spanned := Entry × Int × Int

/-- What a run of goroutines comes to.  `L` are the calls in the order of their returns, with the clock at call and return of each; each
takes effect at a time between the two; `M` are the same calls in the order in which they take effect.  In both orders a call that
returned before another was made comes before it, both are sequential histories with the answers that were given, the clock of `M` never
runs backwards, and when no call is in progress both leave the cache there is. -/
structure Linear (v : Mem) (g : Cfg) (sp : List (Int × Int)) (L M : List Spanned) : Prop where
  log : logged (L.map (·.1)) = g.log
  spans : L.map (·.2) = sp
  within : ∀ e ∈ L, v.now ≤ e.2.1 ∧ e.2.1 ≤ e.1.time ∧ e.1.time ≤ e.2.2 ∧ e.2.2 ≤ g.sh.now
  perm : M.Perm L
  returns : Agrees v.abs (L.map (·.1))
  effects : Agrees v.abs (M.map (·.1))
  clock : Monotone v.now (hist (M.map (·.1)))
  before : ∀ a b, [a, b].Sublist L → a.2.2 ≤ b.2.1 → [a, b].Sublist M
  own : ∀ i, (M.map (·.1)).filter (fun e => e.thread = i) = (L.map (·.1)).filter (fun e => e.thread = i)
  final : (∀ i, (g.thr i).cur = none) → g.sh.abs = run v.abs (hist (L.map (·.1))) ∧ g.sh.abs = run v.abs (hist (M.map (·.1)))

theorem linear_of {D : Bytes → Prop} {v : Mem} {g : Cfg} {b : Nat → Int} {sp : List (Int × Int)} {E : List Entry}
    (hD : ∀ k, D k → v.exp k = none) (inv : QInv D v.abs v.now g b sp E) :
    Linear v g sp (E.zip sp) (isort (fun e => e.1.time) (E.zip sp)) := by
  have e1 : (E.zip sp).map (·.1) = E := List.map_fst_zip (Nat.le_of_eq inv.len)
  have e2 : (E.zip sp).map (·.2) = sp := List.map_snd_zip (Nat.le_of_eq inv.len.symm)
  have e3 : (isort (fun e : Spanned => e.1.time) (E.zip sp)).map (·.1) = isort (·.time) E := by
    rw [isort_map (fun e : Entry => e.time) (fun e : Spanned => e.1), e1]
  obtain ⟨M, m0, m1, m2, m3, m4, m5⟩ := sort hD E inv.lplain inv.order inv.agrees
  rw [← m0] at e3
  refine ⟨by rw [e1]; exact inv.log, e2, inv.spans, isort_perm _ _, by rw [e1]; exact inv.agrees, by rw [e3]; exact m4, ?_, ?_, ?_, ?_⟩
  · rw [e3]
    exact sorted_monotone m1 (fun e he => (inv.times e (m2.mem_iff.1 he)).1)
  · intro x y hs hxy
    refine isort_stable _ _ x y hs ?_
    have hx := inv.spans x (hs.subset (by simp))
    have hy := inv.spans y (hs.subset (by simp))
    omega
  · intro i
    rw [e1, e3]
    exact m3 i
  · intro hn
    rw [e1, e3]
    have : g.sh.abs = run v.abs (hist E) := by
      have h := fun k => inv.idle k (fun i op p hi => by rw [hn i] at hi; cases hi)
      exact Cache.ext' (fun k => (h k).1) (fun k => (h k).2)
    exact ⟨this, this.trans m5.symm⟩

/-- C102 in real time: under the conditions of `C102_guarded`, every call takes effect at one moment between being made and returning. -/
theorem C102_real_time (D : Bytes → Prop) (v : Mem) (calls : Nat → List Call) (hv : v.WF) (hD : ∀ k, D k → v.exp k = none)
    (hp : ∀ i, ∀ op ∈ calls i, Plain D op) (hg : Guarded D calls) (g : Cfg) (b : Nat → Int) (sp : List (Int × Int))
    (hs : Clocked (initial v calls) g b sp) : ∃ L M : List Spanned, Linear v g sp L M := by
  obtain ⟨E, inv⟩ := qinv_clocked hv hD hp (guarded_clocked hg hs)
  exact ⟨_, _, linear_of hD inv⟩

/-- The same without the lock, for runs in which no two calls in progress conflict. -/
theorem C102_real_time_quiet (D : Bytes → Prop) (v : Mem) (calls : Nat → List Call) (hv : v.WF) (hD : ∀ k, D k → v.exp k = none)
    (hp : ∀ i, ∀ op ∈ calls i, Plain D op) (g : Cfg) (b : Nat → Int) (sp : List (Int × Int))
    (hs : ClockedQuiet D (initial v calls) g b sp) : ∃ L M : List Spanned, Linear v g sp L M := by
  obtain ⟨E, inv⟩ := qinv_clocked hv hD hp hs
  exact ⟨_, _, linear_of hD inv⟩

/-- C102 in real time for the calls under the write lock and the sweep, whatever keys they share and whatever deadlines they set. -/
theorem C102_real_time_locked (v : Mem) (calls : Nat → List Call) (hv : v.WF) (hm : ∀ i, ∀ op ∈ calls i, Excl op) (g : Cfg) (b : Nat → Int)
    (sp : List (Int × Int)) (hs : Clocked (initial v calls) g b sp) : ∃ L M : List Spanned, Linear v g sp L M :=
  C102_real_time (fun _ => False) v calls hv (fun _ h => h.elim)
    (fun i op ho => by have := exclusive_mode (hm i op ho); cases op <;> first | exact id | trivial | cases this) (guarded_write hm) g b sp hs

/-! ## C103 -/

theorem agrees_at {c : Cache} {L : List Entry} (h : Agrees c L) {n : Nat} {e : Entry} (he : L[n]? = some e) :
    (exec (run c (hist (L.take n))) e.time e.op).2 = e.out := by
  induction L generalizing c n with
  | nil => simp at he
  | cons x L ih =>
    simp only [Agrees, hist, List.map_cons, outs, List.cons.injEq] at h
    cases n with
    | zero => simp at he; subst he; exact h.1
    | succ n => simp at he; exact ih h.2 he

/-- C103 in real time, part: the one moment an MGet shows lies between its being made and its return, and the cache it shows is the one
left by exactly the calls that returned before it.  Missing: as in `C103_snapshot_partial`. -/
theorem C103_real_time_partial (D : Bytes → Prop) (v : Mem) (calls : Nat → List Call) (hv : v.WF) (hD : ∀ k, D k → v.exp k = none)
    (hp : ∀ i, ∀ op ∈ calls i, Plain D op) (hg : Guarded D calls) (g : Cfg) (b : Nat → Int) (sp : List (Int × Int))
    (hs : Clocked (initial v calls) g b sp) (n i : Nat) (ks : List Bytes) (o : Out) (hl : g.log[n]? = some (i, .mGet ks, o)) :
    ∃ (h : History) (t : Int) (s : Int × Int), h.map (·.2) = (g.log.take n).map (·.2.1) ∧ sp[n]? = some s ∧ s.1 ≤ t ∧ t ≤ s.2 ∧
      o = .slots (.ok (ks.map (fun k => ((run v.abs h).get t k).2))) := by
  obtain ⟨L, inv⟩ := qinv_clocked hv hD hp (guarded_clocked hg hs)
  rw [← inv.log] at hl
  simp only [logged, List.getElem?_map, Option.map_eq_some_iff] at hl
  obtain ⟨e, he, hee⟩ := hl
  have ho : e.op = .mGet ks := (Prod.mk.inj (Prod.mk.inj hee).2).1
  have hout : e.out = o := (Prod.mk.inj (Prod.mk.inj hee).2).2
  have hn : n < sp.length := by rw [← inv.len]; exact (List.getElem?_eq_some_iff.1 he).1
  have hz : (L.zip sp)[n]? = some (e, sp[n]) := by
    rw [List.getElem?_zip_eq_some]
    exact ⟨he, List.getElem?_eq_getElem hn⟩
  have := inv.spans _ (List.mem_of_getElem? hz)
  refine ⟨hist (L.take n), e.time, sp[n], ?_, List.getElem?_eq_getElem hn, this.2.1, this.2.2.1, ?_⟩
  · rw [← inv.log]
    simp [hist, logged, Function.comp_def]
  · rw [← hout, ← agrees_at inv.agrees he, ho]
    exact C22_mGet _ _ _

/-! ## A run with its clock readings -/

/-- Run a schedule and read the clock at calls and returns. -/
def schedClock (g : Cfg) (b : Nat → Int) (sp : List (Int × Int)) : List (Ev Mem) → Option (Cfg × (Nat → Int) × List (Int × Int))
  | [] => some (g, b, sp)
  | e :: es => (perform spec g e).bind (fun g' => schedClock g' (beganNext g g' b) (spansNext g g' b sp) es)

theorem schedClock_clocked {g0 g g' : Cfg} {b b' : Nat → Int} {sp sp' : List (Int × Int)} {es : List (Ev Mem)}
    (ho : ∀ e ∈ es, e.ok spec) (h0 : Clocked g0 g b sp) (h : schedClock g b sp es = some (g', b', sp')) : Clocked g0 g' b' sp' := by
  induction es generalizing g b sp with
  | nil => simp [schedClock] at h; obtain ⟨rfl, rfl, rfl⟩ := h; exact h0
  | cons e es ih =>
    simp only [schedClock] at h
    cases hp : perform spec g e with
    | none => simp [hp] at h
    | some g1 =>
      simp [hp] at h
      exact ih (fun x hx => ho x (by simp [hx])) (h0.snoc (perform_step (ho e (by simp)) hp)) h

/-- Two goroutines on one counter with a deadline: the clock runs while `SetEX` is in progress. -/
def lateDemo : Nat → List Call
  | 0 => [.setEX b!"n" b!"7" 1, .incr b!"n"]
  | 1 => [.incr b!"n"]
  | _ => []

def lateTick (n : Nat) : Ev Mem := .tick (fun s => { s with now := s.now + n })

theorem lateTick_ok (n : Nat) : (lateTick n).ok spec := fun s => ⟨s.now + n, by omega, rfl⟩

def lateSched : List (Ev Mem) :=
  [.start 0, lateTick 3, .act 0, .act 0, .act 0, lateTick 4, .fin 0, .start 1, lateTick 2000000000, .act 1, .act 1, .fin 1,
   .start 0, lateTick 5, .act 0, .act 0, .fin 0]

example : (∀ i, ∀ op ∈ lateDemo i, Excl op) ∧ (Mem.empty 0).WF := by
  refine ⟨?_, Mem.empty_wf 0⟩
  intro i op hop
  match i, hop with
  | 0, hop => simp [lateDemo] at hop; rcases hop with rfl | rfl <;> exact .inl rfl
  | 1, hop => simp [lateDemo] at hop; subst hop; exact .inl rfl
  | _ + 2, hop => simp [lateDemo] at hop

/-- `SetEX` is made at 0 and returns at 7; it takes effect at 3, as the deadline shows. -/
example : (schedClock (initial (Mem.empty 0) lateDemo) (fun _ => 0) [] lateSched).map
    (fun r => (r.1.log.map (fun e => (e.1, e.2.2)), r.2.2, r.1.sh.exp b!"n")) =
    some ([(0, .str (.ok OK)), (1, .int (.ok 8)), (0, .int (.ok 9))], [(0, 7), (7, 2000000007), (2000000007, 2000000012)],
      some 1000000003) := by
  decide +kernel

example : ∀ e ∈ lateSched, e.ok spec := by
  intro e he
  simp only [lateSched, List.mem_cons, List.not_mem_nil, or_false] at he
  rcases he with h | h | h | h | h | h | h | h | h | h | h | h | h | h | h | h | h <;> subst h <;> first | trivial | exact lateTick_ok _

end Verif.Conc.Full

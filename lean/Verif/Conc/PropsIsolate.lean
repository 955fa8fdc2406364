import Verif.Conc.Isolate
/-!
# C104: races elsewhere do not reach a goroutine's own keys
-/
namespace Verif.Conc.Full
open Verif Verif.Conc

/-- C104, full: the goroutines `G` use only the keys `U`, guarded among themselves as in C102; the
others do not name a key of `U` and may race in any way.  Then the answers of `G` are those of a
sequential history of the calls of `G` alone, in the order of the returns and in the order of times,
and when no call of `G` is in progress the keys of `U` are as that history leaves them. -/
theorem C104_isolated (G : Nat → Bool) (U D : Bytes → Prop) (v : Mem) (calls : Nat → List Call) (hv : v.WF)
    (hD : ∀ k, D k → v.exp k = none) (hDU : ∀ k, D k → U k)
    (hgood : ∀ i, G i = true → ∀ op ∈ calls i, Plain D op ∧ ∀ k, touches op k → U k)
    (hbad : ∀ i, G i = false → ∀ op ∈ calls i, ∀ k, touches op k → ¬ U k)
    (hg : GuardedIn G D calls) (g : Cfg) (hs : Steps spec true (initial v calls) g) :
    ∃ L M : List Entry, logged L = g.log.filter (fun e => G e.1) ∧ Agrees v.abs L ∧ M.Perm L ∧
      (∀ i, M.filter (fun e => e.thread = i) = L.filter (fun e => e.thread = i)) ∧ Agrees v.abs M ∧
      Monotone v.now (hist M) ∧ (∀ e ∈ M, e.time ≤ g.sh.now) ∧
      ((∀ i, G i = true → (g.thr i).cur = none) → ∀ k, U k →
        SameAt g.sh.abs (run v.abs (hist L)) k ∧ SameAt g.sh.abs (run v.abs (hist M)) k) := by
  obtain ⟨L, inv⟩ := iinv hv hD hDU hgood hbad hg hs
  obtain ⟨M, _, m1, m2, m3, m4, m5⟩ := sort hD L inv.lplain inv.order inv.agrees
  refine ⟨L, M, inv.log, inv.agrees, m2, m3, m4, sorted_monotone m1 (fun e he => (inv.times e (m2.mem_iff.1 he)).1),
    fun e he => (inv.times e (m2.mem_iff.1 he)).2, fun hn k hk => ?_⟩
  have := inv.idle k hk (fun i op p hG hi => by rw [hn i hG] at hi; cases hi)
  exact ⟨this, by rw [m5]; exact this⟩

/-- One goroutine alone on its keys: its answers are those of its calls made one after the other on
the cache as it was, whatever the others do with other keys. -/
theorem C104_alone (n : Nat) (U : Bytes → Prop) (v : Mem) (calls : Nat → List Call) (hv : v.WF)
    (hgood : ∀ op ∈ calls n, (∀ ks, op = .mGet ks → ks.length ≤ 1) ∧ ∀ k, touches op k → U k)
    (hbad : ∀ i, i ≠ n → ∀ op ∈ calls i, ∀ k, touches op k → ¬ U k)
    (g : Cfg) (hs : Steps spec true (initial v calls) g) :
    ∃ h : History, h.map (·.2) = (g.log.filter (fun e => e.1 = n)).map (·.2.1) ∧ h.map (·.2) <+: calls n ∧
      outs v.abs h = (g.log.filter (fun e => e.1 = n)).map (·.2.2) ∧ Monotone v.now h ∧ Until g.sh.now h ∧
      ((g.thr n).cur = none → ∀ k, U k → SameAt g.sh.abs (run v.abs h) k) := by
  obtain ⟨L, M, h1, h2, h3, h4, h5, h6, h7, h8⟩ := C104_isolated (fun i => i = n) U (fun _ => False) v calls hv (fun _ h => h.elim)
    (fun _ h => h.elim)
    (fun i hi op ho => by
      have : i = n := by simpa using hi
      subst this
      refine ⟨?_, (hgood op ho).2⟩
      cases op <;> first | exact id | trivial | exact .inr ((hgood _ ho).1 _ rfl))
    (fun i hi => hbad i (by simpa using hi))
    (fun i j hi hj hij => absurd ((by simpa using hi : i = n).trans (by simpa using hj : j = n).symm) hij) g hs
  have hth : ∀ e ∈ L, e.thread = n := by
    intro e he
    have : (e.thread, e.op, e.out) ∈ logged L := List.mem_map_of_mem (f := fun e : Entry => (e.thread, e.op, e.out)) he
    rw [h1] at this
    simpa using (List.mem_filter.1 this).2
  have hML : M = L := by
    have := h4 n
    rwa [List.filter_eq_self.2 (fun e he => by simp [hth e (h3.mem_iff.1 he)]), List.filter_eq_self.2 (fun e he => by simp [hth e he])] at this
  subst hML
  have e1 : (hist M).map (·.2) = (g.log.filter (fun e => e.1 = n)).map (·.2.1) := by
    rw [← h1]; simp [hist, logged, Function.comp_def]
  refine ⟨hist M, e1, ?_, ?_, h6, ?_, fun hn k hk => (h8 (fun i hi => ?_) k hk).1⟩
  · rw [e1]
    exact ⟨_, (List.append_assoc _ _ _).symm.trans (program_order hs n)⟩
  · rw [← h1, h2]; simp [logged, Function.comp_def]
  · intro p hp
    obtain ⟨e, he, rfl⟩ := List.mem_map.1 hp
    exact h7 e he
  · have : i = n := by simpa using hi
    rw [this]; exact hn

/-- A key that no call names stays as it is, whatever races there are. -/
theorem C104_untouched (v : Mem) (calls : Nat → List Call) (hv : v.WF) (k : Bytes)
    (hk : ∀ i, ∀ op ∈ calls i, ¬ touches op k) (g : Cfg) (hs : Steps spec true (initial v calls) g) : SameAt g.sh.abs v.abs k := by
  obtain ⟨L, _, h1, _, _, _, _, _, _, h8⟩ := C104_isolated (fun _ => false) (fun j => j = k) (fun _ => False) v calls hv
    (fun _ h => h.elim) (fun _ h => h.elim) (fun _ h => by cases h) (fun i _ op ho j hj e => hk i op ho (e ▸ hj))
    (fun _ _ h => by cases h) g hs
  have := (h8 (fun _ h => by cases h) k rfl).1
  have hL : L = [] := by
    have : logged L = [] := by rw [h1]; simp
    simpa [logged] using this
  rw [hL] at this
  exact this

/-- Goroutine 0 works on its own hash; the others race on another hash that they create at the same
time, delete and count in. -/
def raceDemo : Nat → List Call
  | 0 => [.hSet b!"mine" b!"a" b!"1", .hSet b!"mine" b!"b" b!"2", .hLen b!"mine"]
  | 1 => [.hSet b!"h" b!"x" b!"1", .del b!"h"]
  | 2 => [.hSet b!"h" b!"y" b!"2", .hLen b!"h"]
  | _ => []

example : (∀ op ∈ raceDemo 0, (∀ ks, op = .mGet ks → ks.length ≤ 1) ∧ ∀ k, touches op k → k = b!"mine") ∧
    ∀ i, i ≠ 0 → ∀ op ∈ raceDemo i, ∀ k, touches op k → ¬ k = b!"mine" := by
  constructor
  · intro op ho
    simp [raceDemo] at ho
    rcases ho with rfl | rfl | rfl <;> simp [touches, Call.keys]
  · intro i hi op ho k hk
    match i, hi, ho with
    | 0, hi, _ => exact absurd rfl hi
    | 1, _, ho | 2, _, ho =>
      simp [raceDemo] at ho
      rcases ho with rfl | rfl <;> simp [touches, Call.keys] at hk <;> simp [hk]
    | _ + 3, _, ho => simp [raceDemo] at ho

/-- A schedule of these calls where goroutines 1 and 2 lose an update and goroutine 0 does not. -/
def raceSched : List (Ev Mem) :=
  [.start 0, .start 1, .start 2, .act 1, .act 2, .act 0, .act 1, .act 2, .act 0, .act 1, .act 1, .act 1, .act 2, .act 2, .act 2,
   .fin 1, .fin 2, .act 0, .act 0, .act 0, .fin 0, .start 0, .start 1, .start 2, .act 0, .act 1, .act 2, .act 0]

example : (sched spec (initial (Mem.empty 0) raceDemo) raceSched).map (fun g => g.log.map (fun e => (e.1, e.2.2))) =
    some [(1, .int (.ok 1)), (2, .int (.ok 1)), (0, .int (.ok 1))] := by decide +kernel

end Verif.Conc.Full

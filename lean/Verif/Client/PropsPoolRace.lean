import Verif.Client.PoolRace
/-!
# C115: one client for several goroutines, and data races

The calls of `*Redis` all go through `ExecCommand` of its pool (redis/redis.go:64-66).
-/
namespace Verif.Pool.Race
open Verif.Pool (Conn PC)

/-! ## Schedules with a race -/

/-- Two goroutines, `rest` others, on a fresh pool. -/
def two (rest : List RPC) (p q : RPC) (chan : List Conn) (size opened : Nat) (lock : Bool) : State :=
  ⟨chan, size, lock, opened, [], [], false, 0, p :: q :: rest⟩

theorem init_two {n : Nat} (hn : 2 ≤ n) : State.init n = two (List.replicate (n - 2) .idle) .idle .idle [] 0 0 false := by
  obtain ⟨m, rfl⟩ : ∃ m, n = m + 2 := ⟨n - 2, by omega⟩
  rfl

/-- The first dials and counts, and leaves with the connection; the second dials. -/
theorem run_second {cap : Nat} (hcap : 2 ≤ cap) (cl : Bool) (rest : List RPC) :
    Steps cap cl (two rest .idle .idle [] 0 0 false) (two rest (.returned (some 0)) (.created 1) [] 1 2 true) := by
  have h1 : Steps cap cl (two rest .idle .idle [] 0 0 false) (two rest .wantLock .idle [] 0 0 false) :=
    .tail .refl (.getSlow (i := 0) rfl rfl)
  have h2 : Steps cap cl _ (two rest .locked .idle [] 0 0 true) := .tail h1 (.lock (i := 0) rfl rfl)
  have h3 : Steps cap cl _ (two rest .creating .idle [] 0 0 true) := .tail h2 (.room (i := 0) rfl (show 0 < cap by omega))
  have h4 : Steps cap cl _ (two rest (.created 0) .idle [] 0 1 true) := .tail h3 (.dialOk (i := 0) rfl)
  have h5 : Steps cap cl _ (two rest (.counted 0) .idle [] 1 1 true) := .tail h4 (.count (i := 0) rfl)
  have h6 : Steps cap cl _ (two rest .unlocking .idle [0] 1 1 true) :=
    .tail h5 (.push (i := 0) rfl (show 0 < cap by omega))
  have h7 : Steps cap cl _ (two rest .waiting .idle [0] 1 1 false) := .tail h6 (.unlock (i := 0) rfl)
  have h8 : Steps cap cl _ (two rest (.returned (some 0)) .idle [] 1 1 false) := .tail h7 (.recv (i := 0) rfl rfl)
  have h9 : Steps cap cl _ (two rest (.returned (some 0)) .wantLock [] 1 1 false) := .tail h8 (.getSlow (i := 1) rfl rfl)
  have h10 : Steps cap cl _ (two rest (.returned (some 0)) .locked [] 1 1 true) := .tail h9 (.lock (i := 1) rfl rfl)
  have h11 : Steps cap cl _ (two rest (.returned (some 0)) .creating [] 1 1 true) :=
    .tail h10 (.room (i := 1) rfl (show 1 < cap by omega))
  exact .tail h11 (.dialOk (i := 1) rfl)

theorem race_size {cap n : Nat} (hn : 2 ≤ n) (hcap : 2 ≤ cap) (cl : Bool) : RaceOn cap cl (State.init n) .size := by
  rw [init_two hn]
  refine ⟨_, two _ (.returned (some 0)) (.counted 1) [] 2 2 true, two _ (.running (some 0)) (.counted 1) [] 2 2 true, 1, 0,
    _, _, run_second hcap cl _, .count (i := 1) rfl, .defer (i := 0) rfl, by omega, ⟨.size, .write⟩, by simp, ⟨.size, .read⟩,
    by simp [copyAll], rfl, by decide⟩

theorem run_first {cap : Nat} (hcap : 1 ≤ cap) (cl : Bool) (rest : List RPC) :
    Steps cap cl (two rest .idle .idle [] 0 0 false) (two rest .creating .idle [] 0 0 true) := by
  have h1 : Steps cap cl (two rest .idle .idle [] 0 0 false) (two rest .wantLock .idle [] 0 0 false) :=
    .tail .refl (.getSlow (i := 0) rfl rfl)
  have h2 : Steps cap cl _ (two rest .locked .idle [] 0 0 true) := .tail h1 (.lock (i := 0) rfl rfl)
  exact .tail h2 (.room (i := 0) rfl (show 0 < cap by omega))

theorem race_size_close {cap n : Nat} (hn : 2 ≤ n) (hcap : 1 ≤ cap) : RaceOn cap true (State.init n) .size := by
  rw [init_two hn]
  have h3 := run_first hcap true (List.replicate (n - 2) .idle)
  have h4 : Steps cap true _ (two (List.replicate (n - 2) .idle) (.created 0) .idle [] 0 1 true) := .tail h3 (.dialOk (i := 0) rfl)
  refine ⟨_, two _ (.counted 0) .idle [] 1 1 true, two _ (.counted 0) .closing [] 1 1 true, 0, 1,
    _, _, h4, .count (i := 0) rfl, .closeStart (i := 1) rfl rfl, by omega, ⟨.size, .write⟩, by simp, ⟨.size, .read⟩,
    by simp [copyAll], rfl, by decide⟩

theorem race_mutex {cap n : Nat} (hn : 2 ≤ n) (hcap : 1 ≤ cap) (cl : Bool) : RaceOn cap cl (State.init n) .mutex := by
  rw [init_two hn]
  have h3 := run_first hcap cl (List.replicate (n - 2) .idle)
  have h4 : Steps cap cl _ (two (List.replicate (n - 2) .idle) .creating .wantLock [] 0 0 true) :=
    .tail h3 (.getSlow (i := 1) rfl rfl)
  refine ⟨_, two _ (.created 0) .wantLock [] 0 1 true, two _ (.created 0) .wantLock [] 0 1 true, 0, 1,
    _, _, h4, .dialOk (i := 0) rfl, .lockWait (i := 1) rfl rfl, by omega, ⟨.mutex, .read⟩, by simp [copyAll], ⟨.mutex, .sync⟩,
    by simp, rfl, by decide⟩

/-! ## The property -/

/-- C115, exactly: goroutines that share a client can race if and only if there are two of them. -/
theorem C115_exact {cap n : Nat} (hcap : 1 ≤ cap) (cl : Bool) : HasRace cap cl (State.init n) ↔ 2 ≤ n := by
  constructor
  · rintro ⟨x, t, u, v, i, j, as, bs, h1, h2, h3, hij, -⟩
    have l1 := steps_len h1
    have l2 := step_thr h2
    have l3 := step_thr h3
    simp only [State.init, List.length_replicate] at l1
    omega
  · exact fun hn => ⟨.mutex, race_mutex hn hcap cl⟩

/-- C115, exactly, for the number of connections: it is read and written without order if and only if
there are two goroutines, and the pool may hold two connections or somebody calls `Close`. -/
theorem C115_size_exact {cap n : Nat} (hcap : 1 ≤ cap) (cl : Bool) :
    RaceOn cap cl (State.init n) .size ↔ 2 ≤ n ∧ (2 ≤ cap ∨ cl = true) := by
  constructor
  · intro hr
    refine ⟨(C115_exact hcap cl).mp ⟨_, hr⟩, ?_⟩
    obtain ⟨t, u, v, i, j, as, bs, h1, h2, h3, hij, a, ha, b, hb, hl, hl', hk, -⟩ := hr
    have inv := rinv_steps hcap (rinv_init cap n) h1
    -- in `t` one of the two is at `size++` and the other at a step that reads `size`
    have main : ∀ {k m : Nat} {c : Conn} {q : RPC}, k ≠ m → t.thr[k]? = some (.created c) → t.thr[m]? = some q →
        (q.crit ∨ (∃ o, q = .returned o) ∨ (q = .idle ∧ cl = true)) → 2 ≤ cap ∨ cl = true := by
      intro k m c q hkm hk hm hq
      obtain ⟨hbr, hone⟩ := crit_one inv.base hk trivial
      rcases hq with hq | ⟨o, rfl⟩ | ⟨_, hc⟩
      · exact absurd (hone m q hm hq).symm hkm
      · rcases inv.late m _ hm trivial with h | h
        · have hroom := inv.base.room
          have hw := Pool.wsum_ge Pool.freshW (thr_erase hk)
          have : Pool.freshW (RPC.created c).erase = 1 := rfl
          have : t.erase.size = t.size := rfl
          left; omega
        · rw [hbr] at h; cases h
      · exact .inr hc
    rcases wrote h2 ha hl with ka | ⟨_, c, hc⟩
    · rcases wrote h3 hb (hl' ▸ hl) with kb | ⟨_, c, hc⟩
      · exact absurd ⟨ka, kb⟩ hk
      · obtain ⟨q, hq, hq'⟩ := touched h2 ha hl
        rw [step_other h2 (fun e => hij e.symm)] at hc
        exact main (fun e => hij e.symm) hc hq hq'
    · obtain ⟨q, hq, hq'⟩ := touched h3 hb (hl' ▸ hl)
      rw [step_other h2 (fun e => hij e.symm)] at hq
      exact main hij hc hq hq'
  · rintro ⟨hn, hc | rfl⟩
    · exact race_size hn hc cl
    · exact race_size_close hn hcap

/-- C115 is false: two goroutines with one client race, whatever the size of its pool; unless the pool
was made for a single connection, one of the variables they race on is the number of connections. -/
theorem C115_violated (requested : Int) :
    HasRace (Pool.capacity requested) false (State.init 2) ∧
    (requested ≠ 1 → RaceOn (Pool.capacity requested) false (State.init 2) .size) := by
  have h1 : 1 ≤ Pool.capacity requested := by unfold Pool.capacity; split <;> omega
  refine ⟨(C115_exact h1 false).mpr (Nat.le_refl 2), fun h => (C115_size_exact h1 false).mpr ⟨Nat.le_refl 2, .inl ?_⟩⟩
  unfold Pool.capacity; split <;> omega

/-- Once the pool is full its size is never written again. -/
theorem full_steps {cap : Nat} (hcap : 1 ≤ cap) {cl : Bool} {s t : State} (h : RInv cap s) (hf : s.size = cap)
    (st : Steps cap cl s t) : t.size = cap := by
  induction st with
  | refl => exact hf
  | tail h1 h2 ih =>
    have i1 := rinv_step hcap (rinv_steps hcap h h1) h2
    have := i1.base.room
    have := (size_mono h2).1
    have e : ∀ x : State, x.erase.size = x.size := fun _ => rfl
    rw [e] at *
    omega

/-- C115 (partial): once the pool is full, the number of connections is no longer raced on, by any
number of goroutines. -/
theorem C115_full_partial {cap n : Nat} (hcap : 1 ≤ cap) {cl : Bool} {s : State} (hs : Steps cap cl (State.init n) s)
    (hf : s.size = cap) : ¬ RaceOn cap cl s .size := by
  rintro ⟨t, u, v, i, j, as, bs, h1, h2, h3, hij, a, ha, b, hb, hl, hl', hk, -⟩
  have inv := rinv_steps hcap (rinv_init cap n) hs
  have none_created : ∀ {x : State} {k : Nat} {c : Conn}, Steps cap cl s x → x.thr[k]? = some (.created c) → False := by
    intro x k c hx hk
    have hsz := full_steps hcap inv hf hx
    have hroom := (rinv_steps hcap inv hx).base.room
    have hw := Pool.wsum_ge Pool.freshW (thr_erase hk)
    have : Pool.freshW (RPC.created c).erase = 1 := rfl
    have : x.erase.size = x.size := rfl
    omega
  rcases wrote h2 ha hl with ka | ⟨_, c, hc⟩
  · rcases wrote h3 hb (hl' ▸ hl) with kb | ⟨_, c, hc⟩
    · exact hk ⟨ka, kb⟩
    · exact none_created (.tail h1 h2) hc
  · exact none_created h1 hc

/-- Outside `Get`. -/
def RPC.outside : RPC → Prop
  | .idle | .returned _ | .running _ => True
  | _ => False

theorem no_close {cap n : Nat} {s : State} (hs : Steps cap false (State.init n) s) :
    s.closed = [] ∧ ∀ i : Nat, s.thr[i]? ≠ some .closing := by
  generalize hi : State.init n = r at hs
  induction hs with
  | refl =>
    subst hi
    refine ⟨rfl, fun i h => ?_⟩
    simp [State.init, List.getElem?_replicate] at h
  | tail h st ih =>
    obtain ⟨h1, h2⟩ := ih
    cases st with
    | closeStart hc _ => cases hc
    | closeOne hc _ => exact absurd hc (h2 _)
    | closeErr hc _ => exact absurd hc (h2 _)
    | lockWait _ _ => exact ⟨h1, h2⟩
    | _ =>
      refine ⟨h1, fun k hk => ?_⟩
      rcases set_cases hk with ⟨_, e⟩ | ⟨_, hk⟩
      · cases e
      · exact h2 k hk

theorem held_le (l : List PC) : Pool.wsum Pool.heldW l ≤ l.length := by
  induction l with
  | nil => simp [Pool.wsum]
  | cons a l ih =>
    have : Pool.heldW a ≤ 1 := by cases a <;> simp [Pool.heldW]
    simp [Pool.wsum] at ih ⊢
    omega

/-- The pool is full, there are enough connections for everyone, and nobody is inside `Get`. -/
structure Warm (cap : Nat) (s : State) : Prop where
  inv : RInv cap s
  full : s.size = cap
  open_ : s.closed = []
  few : s.thr.length ≤ cap
  out : ∀ (i : Nat) (p : RPC), s.thr[i]? = some p → p.outside

theorem warm_idle {cap : Nat} {s : State} (h : Warm cap s) {i : Nat} (hi : s.thr[i]? = some .idle) : s.chan ≠ [] := by
  intro hc
  have hsz := h.inv.base.size
  have hw := Pool.wsum_set Pool.heldW (PC.holding 0) (thr_erase hi)
  have hl := held_le (s.erase.thr.set i (.holding 0))
  have e1 : Pool.heldW (PC.holding 0) = 1 := rfl
  have e2 : Pool.heldW RPC.idle.erase = 0 := rfl
  have e3 : s.erase.thr.length = s.thr.length := by simp [State.erase]
  have e4 : s.erase.size = s.size := rfl
  have e5 : s.erase.chan.length = 0 := by simp [State.erase, hc]
  have e6 : s.erase.closed.length = 0 := by simp [State.erase, h.open_]
  have := h.full
  have := h.few
  rw [List.length_set] at hl
  omega

/-- From there on, steps only read, and it stays so. -/
theorem warm_step {cap : Nat} (hcap : 1 ≤ cap) {s t : State} {i : Nat} {as : List Access} (h : Warm cap s)
    (st : Step cap false s i as t) : Warm cap t ∧ ∀ a ∈ as, a.kind = .read := by
  have hinv := rinv_step hcap h.inv st
  have hlen := (step_thr st).2
  have keep : ∀ {q : RPC}, q.outside → ∀ (k : Nat) (p : RPC), (s.thr.set i q)[k]? = some p → p.outside := by
    intro q hq k p hk
    rcases set_cases hk with ⟨_, rfl⟩ | ⟨_, hk⟩
    · exact hq
    · exact h.out k p hk
  have mk : t.size = s.size → t.closed = s.closed → (∀ (k : Nat) (p : RPC), t.thr[k]? = some p → p.outside) → Warm cap t :=
    fun a b c => ⟨hinv, a.trans h.full, b.trans h.open_, by rw [hlen]; exact h.few, c⟩
  cases st with
  | getFast h1 h2 => exact ⟨mk rfl rfl (keep trivial), by simp⟩
  | getSlow h1 h2 => exact absurd h2 (warm_idle h h1)
  | defer h1 => exact ⟨mk rfl rfl (keep trivial), by simp [copyAll]⟩
  | putNil h1 => exact ⟨mk rfl rfl (keep trivial), by simp⟩
  | put h1 h2 => exact ⟨mk rfl rfl (keep trivial), by simp⟩
  | closeStart hc _ => cases hc
  | _ => exact absurd (h.out i _ (by assumption)) (by simp [RPC.outside])

theorem warm_steps {cap : Nat} (hcap : 1 ≤ cap) {s t : State} (h : Warm cap s) (st : Steps cap false s t) : Warm cap t := by
  induction st with
  | refl => exact h
  | tail _ h2 ih => exact (warm_step hcap ih h2).1

/-- C115 (partial: it takes a pool that is already full): as many goroutines as the pool holds
connections, or fewer, none of them inside `Get` at the moment the pool is full, never race from then
on. -/
theorem C115_warm_partial {cap n : Nat} (hcap : 1 ≤ cap) {s : State} (hs : Steps cap false (State.init n) s)
    (hf : s.size = cap) (hn : n ≤ cap) (ho : ∀ (i : Nat) (p : RPC), s.thr[i]? = some p → p.outside) :
    ¬ HasRace cap false s := by
  rintro ⟨x, t, u, v, i, j, as, bs, h1, h2, h3, hij, a, ha, b, hb, hl, hl', hk, -⟩
  have hlen : s.thr.length = n := by rw [steps_len hs]; simp [State.init]
  have w : Warm cap s := ⟨rinv_steps hcap (rinv_init cap n) hs, hf, (no_close hs).1, by omega, ho⟩
  have w1 := warm_steps hcap w h1
  have w2 := warm_step hcap w1 h2
  exact hk ⟨w2.2 a ha, (warm_step hcap w2.1 h3).2 b hb⟩

/-- C115: the races do no harm to the pool itself, since the copies are used for the channel only: a run
with them is, without them, a run of the pool machine, of which C53 to C56 hold. -/
theorem C115_pool_unharmed {cap n : Nat} (hcap : 1 ≤ cap) {cl : Bool} {t : State} (h : Steps cap cl (State.init n) t) :
    Pool.Reachable cap n t.erase := erase_steps hcap h

/-- A case of `C115_warm_partial` and `C115_full_partial`: two goroutines have opened the two connections
of their pool and hold them. -/
theorem C115_warm_case : ∃ s, Steps 2 false (State.init 2) s ∧ s.size = 2 ∧ s.thr = [.running (some 0), .running (some 1)] ∧
    ∀ (i : Nat) (p : RPC), s.thr[i]? = some p → p.outside := by
  have h0 := run_second (Nat.le_refl 2) false []
  have h1 : Steps 2 false _ (two [] (.running (some 0)) (.created 1) [] 1 2 true) := .tail h0 (.defer (i := 0) rfl)
  have h2 : Steps 2 false _ (two [] (.running (some 0)) (.counted 1) [] 2 2 true) := .tail h1 (.count (i := 1) rfl)
  have h3 : Steps 2 false _ (two [] (.running (some 0)) .unlocking [1] 2 2 true) := .tail h2 (.push (i := 1) rfl (by decide))
  have h4 : Steps 2 false _ (two [] (.running (some 0)) .waiting [1] 2 2 false) := .tail h3 (.unlock (i := 1) rfl)
  have h5 : Steps 2 false _ (two [] (.running (some 0)) (.returned (some 1)) [] 2 2 false) := .tail h4 (.recv (i := 1) rfl rfl)
  have h6 : Steps 2 false _ (two [] (.running (some 0)) (.running (some 1)) [] 2 2 false) := .tail h5 (.defer (i := 1) rfl)
  refine ⟨_, h6, rfl, rfl, fun i p h => ?_⟩
  match i, h with
  | 0, h => cases h; trivial
  | 1, h => cases h; trivial
  | i + 2, h => simp [two] at h

end Verif.Pool.Race

import Verif.Client.Pool
/-!
# Properties C53 - C56, C83: the connection pool
-/
set_option linter.unusedSimpArgs false

namespace Verif.Pool

/-! ## Counting -/

/-- Sum of a weight over the callers. -/
def wsum (f : PC → Nat) (l : List PC) : Nat := (l.map f).sum

theorem wsum_set (f : PC → Nat) {l : List PC} {i : Nat} {p : PC} (q : PC) (h : l[i]? = some p) :
    wsum f (l.set i q) + f p = wsum f l + f q := by
  induction l generalizing i with
  | nil => simp at h
  | cons a l ih =>
    cases i with
    | zero => simp at h; subst h; simp [wsum]; omega
    | succ i =>
      have := ih (i := i) (by simpa using h)
      simp [wsum] at this ⊢; omega

theorem wsum_ge (f : PC → Nat) {l : List PC} {i : Nat} {p : PC} (h : l[i]? = some p) : f p ≤ wsum f l := by
  induction l generalizing i with
  | nil => simp at h
  | cons a l ih =>
    cases i with
    | zero => simp at h; subst h; simp [wsum]
    | succ i => have := ih (i := i) (by simpa using h); simp [wsum] at this ⊢; omega

theorem wsum_pair (f : PC → Nat) {l : List PC} {i j : Nat} {p q : PC} (hij : i ≠ j) (h : l[i]? = some p)
    (h' : l[j]? = some q) : f p + f q ≤ wsum f l := by
  induction l generalizing i j with
  | nil => simp at h
  | cons a l ih =>
    cases i with
    | zero =>
      cases j with
      | zero => exact absurd rfl hij
      | succ j =>
        simp at h; subst h
        have := wsum_ge f (i := j) (by simpa using h')
        simp [wsum] at this ⊢; omega
    | succ i =>
      cases j with
      | zero =>
        simp at h'; subst h'
        have := wsum_ge f (i := i) (by simpa using h)
        simp [wsum] at this ⊢; omega
      | succ j =>
        have := ih (i := i) (j := j) (by omega) (by simpa using h) (by simpa using h')
        simp [wsum] at this ⊢; omega

theorem wsum_zero (f : PC → Nat) (h : f .idle = 0) (n : Nat) : wsum f (List.replicate n .idle) = 0 := by
  induction n with
  | zero => rfl
  | succ n ih => simp [wsum, List.replicate_succ, h] at ih ⊢

theorem wsum_pos (f : PC → Nat) {l : List PC} (h : 0 < wsum f l) : ∃ (i : Nat) (p : PC), l[i]? = some p ∧ 0 < f p := by
  induction l with
  | nil => simp [wsum] at h
  | cons a l ih =>
    by_cases ha : 0 < f a
    · exact ⟨0, a, rfl, ha⟩
    · obtain ⟨i, p, h1, h2⟩ := ih (by simp [wsum] at h ⊢; omega)
      exact ⟨i + 1, p, by simpa using h1, h2⟩

/-- 1 if `b`. -/
def bit (b : Bool) : Nat := if b then 1 else 0

/-- 1 if `c < n`. -/
def below (c n : Nat) : Nat := if c < n then 1 else 0

theorem below_succ (c n : Nat) : below c (n + 1) = below c n + if n = c then 1 else 0 := by
  unfold below
  rcases Nat.lt_trichotomy c n with h | h | h
  · rw [if_pos h, if_pos (by omega), if_neg (by omega)]
  · subst h; simp
  · rw [if_neg (by omega), if_neg (by omega), if_neg (by omega)]

/-- The caller has `c` in hand (also while handing it to the channel inside `Get`). -/
def has (c : Conn) : PC → Nat
  | .created d | .counted d | .holding d => if d = c then 1 else 0
  | _ => 0

/-- Connections counted in `size` and in hand. -/
def heldW : PC → Nat
  | .counted _ | .holding _ => 1
  | _ => 0

/-- Just dialled, not yet counted. -/
def freshW : PC → Nat
  | .created _ => 1
  | _ => 0

/-- In the critical section otherwise. -/
def critW : PC → Nat
  | .locked | .counted _ | .unlocking => 1
  | _ => 0

/-- What every reachable state satisfies. -/
structure Inv (cap : Nat) (s : State) : Prop where
  each : ∀ c, s.chan.count c + s.leaked.count c + s.closed.count c + wsum (has c) s.thr = below c s.opened
  size : s.size = s.chan.length + s.closed.length + wsum heldW s.thr
  room : s.size + wsum freshW s.thr + s.leaked.length ≤ cap
  mutex : wsum freshW s.thr + wsum critW s.thr + bit s.broken = bit s.lock
  open_ : s.opened = s.size + wsum freshW s.thr + s.leaked.length
  leak : s.broken = false → s.leaked = []

theorem inv_init (cap n : Nat) : Inv cap (State.init n) where
  each := by intro c; simp [State.init, wsum_zero (has c) rfl, below]
  size := by simp [State.init, wsum_zero heldW rfl]
  room := by simp [State.init, wsum_zero freshW rfl]
  mutex := by simp [State.init, wsum_zero freshW rfl, wsum_zero critW rfl, bit]
  open_ := by simp [State.init, wsum_zero freshW rfl]
  leak := by simp [State.init]

theorem count_append_one (l : List Nat) (c d : Nat) : (l ++ [c]).count d = l.count d + if c = d then 1 else 0 := by
  simp [List.count_append, List.count_cons]

theorem inv_step {cap : Nat} {s t : State} (h : Inv cap s) (st : Step cap s t) : Inv cap t := by
  obtain ⟨he, hs, hr, hm, ho, hl⟩ := h
  have key : ∀ {i p} (q : PC), s.thr[i]? = some p →
      (∀ c, wsum (has c) (s.thr.set i q) + has c p = wsum (has c) s.thr + has c q) ∧
      wsum heldW (s.thr.set i q) + heldW p = wsum heldW s.thr + heldW q ∧
      wsum freshW (s.thr.set i q) + freshW p = wsum freshW s.thr + freshW q ∧
      wsum critW (s.thr.set i q) + critW p = wsum critW s.thr + critW q ∧ freshW p ≤ wsum freshW s.thr ∧ critW p ≤ wsum critW s.thr :=
    fun q h => ⟨fun c => wsum_set _ q h, wsum_set _ q h, wsum_set _ q h, wsum_set _ q h, wsum_ge _ h, wsum_ge _ h⟩
  have hL : bit s.lock ≤ 1 := by unfold bit; split <;> omega
  cases st with
  | @getFast i c cs h1 h2 =>
    obtain ⟨k1, k2, k3, k4, g1, g2⟩ := key (.holding c) h1
    simp only [has, heldW, freshW, critW, Nat.add_zero] at k1 k2 k3 k4 g1 g2
    simp only [h2, List.count_cons, beq_iff_eq, List.length_cons] at he hs
    refine ⟨fun d => ?_, ?_, ?_, ?_, ?_, hl⟩
    · have e1 := he d
      have e2 := k1 d
      simp only [State.at, List.count_cons, count_append_one, beq_iff_eq]
      omega
    all_goals simp only [State.at, List.length_append, List.length_cons, List.length_nil, show bit true = 1 from rfl]
    all_goals omega
  | @getSlow i h1 h2 =>
    obtain ⟨k1, k2, k3, k4, g1, g2⟩ := key .wantLock h1
    simp only [has, heldW, freshW, critW, Nat.add_zero] at k1 k2 k3 k4 g1 g2
    refine ⟨fun d => ?_, ?_, ?_, ?_, ?_, hl⟩
    · have e1 := he d
      have e2 := k1 d
      simp only [State.at, List.count_cons, count_append_one, beq_iff_eq]
      omega
    all_goals simp only [State.at, List.length_append, List.length_cons, List.length_nil, show bit true = 1 from rfl]
    all_goals omega
  | @lock i h1 h2 =>
    obtain ⟨k1, k2, k3, k4, g1, g2⟩ := key .locked h1
    simp only [has, heldW, freshW, critW, Nat.add_zero] at k1 k2 k3 k4 g1 g2
    rw [h2] at hm
    simp only [show bit false = 0 from rfl] at hm
    refine ⟨fun d => ?_, ?_, ?_, ?_, ?_, hl⟩
    · have e1 := he d
      have e2 := k1 d
      simp only [State.at, List.count_cons, count_append_one, beq_iff_eq]
      omega
    all_goals simp only [State.at, List.length_append, List.length_cons, List.length_nil, show bit true = 1 from rfl]
    all_goals omega
  | @dialOk i h1 h2 =>
    obtain ⟨k1, k2, k3, k4, g1, g2⟩ := key (.created s.opened) h1
    simp only [has, heldW, freshW, critW, Nat.add_zero] at k1 k2 k3 k4 g1 g2
    have hb : s.broken = false := by
      cases hb : s.broken with
      | false => rfl
      | true => rw [hb] at hm; simp only [show bit true = 1 from rfl] at hm; omega
    have hlk := hl hb
    rw [hb] at hm
    simp only [show bit false = 0 from rfl] at hm
    simp only [hlk, List.count_nil, List.length_nil] at he hr ho
    refine ⟨fun d => ?_, ?_, ?_, ?_, ?_, fun _ => hlk⟩
    · have e1 := he d
      have e2 := k1 d
      simp only [State.at, List.count_cons, count_append_one, beq_iff_eq, hlk, hb, List.length_cons, List.length_nil, List.count_nil, show bit false = 0 from rfl]
      have e3 := below_succ d s.opened
      omega
    all_goals simp only [State.at, List.length_append, List.length_cons, List.length_nil, hlk, hb, List.length_cons, List.length_nil, List.count_nil, show bit true = 1 from rfl, show bit false = 0 from rfl]
    all_goals omega
  | @dialFail i h1 h2 =>
    obtain ⟨k1, k2, k3, k4, g1, g2⟩ := key .idle h1
    simp only [has, heldW, freshW, critW, Nat.add_zero] at k1 k2 k3 k4 g1 g2
    have hb : s.broken = false := by
      cases hb : s.broken with
      | false => rfl
      | true => rw [hb] at hm; simp only [show bit true = 1 from rfl] at hm; omega
    have hlk := hl hb
    rw [hb] at hm
    simp only [show bit false = 0 from rfl] at hm
    simp only [hlk, List.count_nil, List.length_nil] at he hr ho
    refine ⟨fun d => ?_, ?_, ?_, ?_, ?_, by simp [State.at]⟩
    · have e1 := he d
      have e2 := k1 d
      simp only [State.at, List.count_cons, count_append_one, beq_iff_eq, hlk, hb, List.length_cons, List.length_nil, List.count_nil, show bit false = 0 from rfl]
      omega
    all_goals simp only [State.at, List.length_append, List.length_cons, List.length_nil, hlk, hb, List.length_cons, List.length_nil, List.count_nil, show bit true = 1 from rfl, show bit false = 0 from rfl]
    all_goals omega
  | @openFail i h1 h2 =>
    obtain ⟨k1, k2, k3, k4, g1, g2⟩ := key .idle h1
    simp only [has, heldW, freshW, critW, Nat.add_zero] at k1 k2 k3 k4 g1 g2
    have hb : s.broken = false := by
      cases hb : s.broken with
      | false => rfl
      | true => rw [hb] at hm; simp only [show bit true = 1 from rfl] at hm; omega
    have hlk := hl hb
    rw [hb] at hm
    simp only [show bit false = 0 from rfl] at hm
    simp only [hlk, List.count_nil, List.length_nil] at he hr ho
    refine ⟨fun d => ?_, ?_, ?_, ?_, ?_, by simp [State.at]⟩
    · have e1 := he d
      have e2 := k1 d
      simp only [State.at, List.count_cons, count_append_one, beq_iff_eq, hlk, hb, List.length_cons, List.length_nil, List.count_nil, show bit false = 0 from rfl]
      have e3 := below_succ d s.opened
      omega
    all_goals simp only [State.at, List.length_append, List.length_cons, List.length_nil, hlk, hb, List.length_cons, List.length_nil, List.count_nil, show bit true = 1 from rfl, show bit false = 0 from rfl]
    all_goals omega
  | @noRoom i h1 h2 =>
    obtain ⟨k1, k2, k3, k4, g1, g2⟩ := key .unlocking h1
    simp only [has, heldW, freshW, critW, Nat.add_zero] at k1 k2 k3 k4 g1 g2
    refine ⟨fun d => ?_, ?_, ?_, ?_, ?_, hl⟩
    · have e1 := he d
      have e2 := k1 d
      simp only [State.at, List.count_cons, count_append_one, beq_iff_eq]
      omega
    all_goals simp only [State.at, List.length_append, List.length_cons, List.length_nil, show bit true = 1 from rfl]
    all_goals omega
  | @count i c h1 =>
    obtain ⟨k1, k2, k3, k4, g1, g2⟩ := key (.counted c) h1
    simp only [has, heldW, freshW, critW, Nat.add_zero] at k1 k2 k3 k4 g1 g2
    refine ⟨fun d => ?_, ?_, ?_, ?_, ?_, hl⟩
    · have e1 := he d
      have e2 := k1 d
      simp only [State.at, List.count_cons, count_append_one, beq_iff_eq]
      omega
    all_goals simp only [State.at, List.length_append, List.length_cons, List.length_nil, show bit true = 1 from rfl]
    all_goals omega
  | @push i c h1 h2 =>
    obtain ⟨k1, k2, k3, k4, g1, g2⟩ := key .unlocking h1
    simp only [has, heldW, freshW, critW, Nat.add_zero] at k1 k2 k3 k4 g1 g2
    refine ⟨fun d => ?_, ?_, ?_, ?_, ?_, hl⟩
    · have e1 := he d
      have e2 := k1 d
      simp only [State.at, List.count_cons, count_append_one, beq_iff_eq]
      omega
    all_goals simp only [State.at, List.length_append, List.length_cons, List.length_nil, show bit true = 1 from rfl]
    all_goals omega
  | @unlock i h1 =>
    obtain ⟨k1, k2, k3, k4, g1, g2⟩ := key .waiting h1
    simp only [has, heldW, freshW, critW, Nat.add_zero] at k1 k2 k3 k4 g1 g2
    refine ⟨fun d => ?_, ?_, ?_, ?_, ?_, hl⟩
    · have e1 := he d
      have e2 := k1 d
      simp only [State.at, List.count_cons, count_append_one, beq_iff_eq]
      omega
    all_goals simp only [State.at, List.length_append, List.length_cons, List.length_nil, show bit true = 1 from rfl, show bit false = 0 from rfl]
    all_goals omega
  | @recv i c cs h1 h2 =>
    obtain ⟨k1, k2, k3, k4, g1, g2⟩ := key (.holding c) h1
    simp only [has, heldW, freshW, critW, Nat.add_zero] at k1 k2 k3 k4 g1 g2
    simp only [h2, List.count_cons, beq_iff_eq, List.length_cons] at he hs
    refine ⟨fun d => ?_, ?_, ?_, ?_, ?_, hl⟩
    · have e1 := he d
      have e2 := k1 d
      simp only [State.at, List.count_cons, count_append_one, beq_iff_eq]
      omega
    all_goals simp only [State.at, List.length_append, List.length_cons, List.length_nil, show bit true = 1 from rfl]
    all_goals omega
  | @timeout i h1 =>
    obtain ⟨k1, k2, k3, k4, g1, g2⟩ := key .idle h1
    simp only [has, heldW, freshW, critW, Nat.add_zero] at k1 k2 k3 k4 g1 g2
    refine ⟨fun d => ?_, ?_, ?_, ?_, ?_, hl⟩
    · have e1 := he d
      have e2 := k1 d
      simp only [State.at, List.count_cons, count_append_one, beq_iff_eq]
      omega
    all_goals simp only [State.at, List.length_append, List.length_cons, List.length_nil, show bit true = 1 from rfl]
    all_goals omega
  | @put i c h1 h2 =>
    obtain ⟨k1, k2, k3, k4, g1, g2⟩ := key .idle h1
    simp only [has, heldW, freshW, critW, Nat.add_zero] at k1 k2 k3 k4 g1 g2
    refine ⟨fun d => ?_, ?_, ?_, ?_, ?_, hl⟩
    · have e1 := he d
      have e2 := k1 d
      simp only [State.at, List.count_cons, count_append_one, beq_iff_eq]
      omega
    all_goals simp only [State.at, List.length_append, List.length_cons, List.length_nil, show bit true = 1 from rfl]
    all_goals omega
  | @closeStart i h1 =>
    obtain ⟨k1, k2, k3, k4, g1, g2⟩ := key .closing h1
    simp only [has, heldW, freshW, critW, Nat.add_zero] at k1 k2 k3 k4 g1 g2
    refine ⟨fun d => ?_, ?_, ?_, ?_, ?_, hl⟩
    · have e1 := he d
      have e2 := k1 d
      simp only [State.at, List.count_cons, count_append_one, beq_iff_eq]
      omega
    all_goals simp only [State.at, List.length_append, List.length_cons, List.length_nil, show bit true = 1 from rfl]
    all_goals omega
  | @closeErr i c cs h1 h2 =>
    obtain ⟨k1, k2, k3, k4, g1, g2⟩ := key .idle h1
    simp only [has, heldW, freshW, critW, Nat.add_zero] at k1 k2 k3 k4 g1 g2
    simp only [h2, List.count_cons, beq_iff_eq, List.length_cons] at he hs
    refine ⟨fun d => ?_, ?_, ?_, ?_, ?_, hl⟩
    · have e1 := he d
      have e2 := k1 d
      simp only [State.at, List.count_cons, count_append_one, beq_iff_eq]
      omega
    all_goals simp only [State.at, List.length_append, List.length_cons, List.length_nil, show bit true = 1 from rfl]
    all_goals omega
  | @closeOne i c cs h1 h2 =>
    simp only [h2, List.count_cons, beq_iff_eq, List.length_cons] at he hs
    refine ⟨fun d => ?_, ?_, hr, hm, ho, hl⟩
    · have e1 := he d
      simp only [List.count_cons, beq_iff_eq]
      omega
    · simp only [List.length_cons]
      omega

theorem inv_reachable {cap n : Nat} {s : State} (h : Reachable cap n s) : Inv cap s := by
  unfold Reachable at h
  generalize hs : State.init n = s0 at h
  induction h with
  | refl => subst hs; exact inv_init cap n
  | tail _ st ih => exact inv_step ih st

theorem Steps.trans {cap : Nat} {s t u : State} (h1 : Steps cap s t) (h2 : Steps cap t u) : Steps cap s u := by
  induction h2 with
  | refl => exact h1
  | tail _ st ih => exact .tail ih st

theorem Steps.one {cap : Nat} {s t : State} (h : Step cap s t) : Steps cap s t := .tail .refl h

theorem inv_steps {cap : Nat} {s t : State} (h : Inv cap s) (st : Steps cap s t) : Inv cap t := by
  induction st with
  | refl => exact h
  | tail _ st ih => exact inv_step ih st

/-! ## C53 -/

/-- C53: in every schedule of any number of callers, at most as many connections are ever opened as
the option asks for, and at most twenty when it asks for none. -/
theorem C53_capacity (requested : Int) (n : Nat) (s : State) (h : Reachable (capacity requested) n s) :
    (requested ≤ 0 → s.opened ≤ 20) ∧ (0 < requested → (s.opened : Int) ≤ requested) := by
  have hi := inv_reachable h
  have h1 := hi.open_
  have h2 := hi.room
  refine ⟨fun hr => ?_, fun hr => ?_⟩
  · have : capacity requested = 20 := if_pos hr
    omega
  · have : capacity requested = requested.toNat := if_neg (by omega)
    omega

/-- The first `m` of `n` callers hold a connection each. -/
def served (n m : Nat) : State :=
  ⟨[], m, false, m, [], [], false, 0, (List.range m).map .holding ++ List.replicate (n - m) .idle⟩

theorem served_next {cap n m : Nat} (hm : m < n) (hc : m < cap) : Steps cap (served n m) (served n (m + 1)) := by
  obtain ⟨r, hr⟩ : ∃ r, n - m = r + 1 := ⟨n - m - 1, by omega⟩
  have hr' : n - (m + 1) = r := by omega
  have look : ∀ (x : PC) (l : List PC), ((List.range m).map PC.holding ++ x :: l)[m]? = some x := by simp
  have put : ∀ (x y : PC) (l : List PC), ((List.range m).map PC.holding ++ x :: l).set m y = (List.range m).map PC.holding ++ y :: l := by
    intro x y l
    rw [List.set_append_right _ _ (by simp)]
    simp
  let Q (chan : List Conn) (size : Nat) (lock : Bool) (opened : Nat) (x : PC) : State :=
    ⟨chan, size, lock, opened, [], [], false, 0, (List.range m).map PC.holding ++ x :: List.replicate r .idle⟩
  have e : served n m = Q [] m false m .idle := by
    simp [served, hr, List.replicate_succ, Q]
  have e' : served n (m + 1) = Q [] (m + 1) false (m + 1) (.holding m) := by
    simp [served, hr', List.range_succ, Q]
  rw [e, e']
  have s1 : Step cap (Q [] m false m .idle) (Q [] m false m .wantLock) := by
    simpa [Q, State.at, put] using Step.getSlow (cap := cap) (s := Q [] m false m .idle) (i := m) (look _ _) rfl
  have s2 : Step cap (Q [] m false m .wantLock) (Q [] m true m .locked) := by
    simpa [Q, State.at, put] using Step.lock (cap := cap) (s := Q [] m false m .wantLock) (i := m) (look _ _) rfl
  have s3 : Step cap (Q [] m true m .locked) (Q [] m true (m + 1) (.created m)) := by
    simpa [Q, State.at, put] using Step.dialOk (cap := cap) (s := Q [] m true m .locked) (i := m) (look _ _) hc
  have s4 : Step cap (Q [] m true (m + 1) (.created m)) (Q [] (m + 1) true (m + 1) (.counted m)) := by
    simpa [Q, State.at, put] using Step.count (cap := cap) (s := Q [] m true (m + 1) (.created m)) (i := m) (look _ _)
  have s5 : Step cap (Q [] (m + 1) true (m + 1) (.counted m)) (Q [m] (m + 1) true (m + 1) .unlocking) := by
    simpa [Q, State.at, put] using Step.push (cap := cap) (s := Q [] (m + 1) true (m + 1) (.counted m)) (i := m) (look _ _) (by simp [Q]; omega)
  have s6 : Step cap (Q [m] (m + 1) true (m + 1) .unlocking) (Q [m] (m + 1) false (m + 1) .waiting) := by
    simpa [Q, State.at, put] using Step.unlock (cap := cap) (s := Q [m] (m + 1) true (m + 1) .unlocking) (i := m) (look _ _)
  have s7 : Step cap (Q [m] (m + 1) false (m + 1) .waiting) (Q [] (m + 1) false (m + 1) (.holding m)) := by
    simpa [Q, State.at, put] using Step.recv (cap := cap) (s := Q [m] (m + 1) false (m + 1) .waiting) (i := m) (look _ _) rfl
  exact .tail (.tail (.tail (.tail (.tail (.tail (.tail .refl s1) s2) s3) s4) s5) s6) s7

/-- C53: the bound is met.  As many callers as the pool has room for can hold a connection of their own
at the same time. -/
theorem C53_capacity_reached (requested : Int) (n : Nat) (h : n ≤ if requested ≤ 0 then 20 else requested.toNat) :
    ∃ s, Reachable (capacity requested) n s ∧ s.opened = n ∧ ∀ i, i < n → s.thr[i]? = some (.holding i) := by
  have all : ∀ m, m ≤ n → Steps (capacity requested) (State.init n) (served n m) := by
    intro m
    induction m with
    | zero => intro _; exact .refl
    | succ m ih => intro hm; exact (ih (by omega)).trans (served_next (by omega) (by unfold capacity; omega))
  refine ⟨served n n, all n (Nat.le_refl n), rfl, fun i hi => ?_⟩
  simp [served, hi]

/-- C53: no connection is held by two callers, nor held and idle at once, nor closed while held. -/
theorem C53_exclusive (cap n : Nat) (s : State) (h : Reachable cap n s) (i : Nat) (c : Conn)
    (hi : s.thr[i]? = some (.holding c)) :
    (∀ j : Nat, s.thr[j]? = some (.holding c) → j = i) ∧ c ∉ s.chan ∧ c ∉ s.closed := by
  have hinv := (inv_reachable h).each c
  have hb : below c s.opened ≤ 1 := by unfold below; split <;> omega
  have h1 := wsum_ge (has c) hi
  simp only [has, if_true] at h1
  refine ⟨fun j hj => ?_, ?_, ?_⟩
  · refine Classical.byContradiction (fun hne => ?_)
    have h2 := wsum_pair (has c) (fun e => hne e.symm) hi hj
    simp only [has, if_true] at h2
    omega
  · intro hm
    have := List.count_pos_iff.mpr hm
    omega
  · intro hm
    have := List.count_pos_iff.mpr hm
    omega

/-! ### Running a schedule (for the witnesses) -/

/-- The move of caller `i` in a state, if it has one; `fail` chooses the failing outcomes and the
timeout, `close` chooses `Close` over `Get`. -/
structure Move where
  i : Nat
  fail : Bool := false
  leak : Bool := false
  close : Bool := false

/-- The regular move. -/
def go (i : Nat) : Move := { i := i }

def move (cap : Nat) (m : Move) (s : State) : Option State :=
  match s.thr[m.i]? with
  | none => none
  | some .idle =>
    if m.close then some (s.at m.i .closing)
    else match s.chan with
      | c :: cs => some { s.at m.i (.holding c) with chan := cs }
      | [] => some (s.at m.i .wantLock)
  | some .wantLock => if s.lock = false then some { s.at m.i .locked with lock := true } else none
  | some .locked =>
    if s.size < cap then
      if m.fail then some { s.at m.i .idle with broken := true }
      else if m.leak then some { s.at m.i .idle with broken := true, opened := s.opened + 1, leaked := s.opened :: s.leaked }
      else some { s.at m.i (.created s.opened) with opened := s.opened + 1 }
    else some (s.at m.i .unlocking)
  | some (.created c) => some { s.at m.i (.counted c) with size := s.size + 1 }
  | some (.counted c) => if s.chan.length < cap then some { s.at m.i .unlocking with chan := s.chan ++ [c] } else none
  | some .unlocking => some { s.at m.i .waiting with lock := false }
  | some .waiting =>
    if m.fail then some (s.at m.i .idle)
    else match s.chan with
      | c :: cs => some { s.at m.i (.holding c) with chan := cs }
      | [] => none
  | some (.holding c) => if s.chan.length < cap then some { s.at m.i .idle with chan := s.chan ++ [c] } else none
  | some .closing =>
    match s.chan with
    | c :: cs =>
      if m.fail then some { s.at m.i .idle with chan := cs, closed := c :: s.closed, closeErrs := s.closeErrs + 1 }
      else some { s with chan := cs, closed := c :: s.closed }
    | [] => none

theorem move_step {cap : Nat} {m : Move} {s t : State} (h : move cap m s = some t) : Step cap s t := by
  unfold move at h
  split at h
  · simp at h
  · rename_i hp
    split at h
    · simp only [Option.some.injEq] at h; subst h; exact .closeStart hp
    · split at h <;> simp only [Option.some.injEq] at h <;> subst h
      · rename_i hc; exact .getFast hp hc
      · rename_i hc; exact .getSlow hp hc
  · rename_i hp
    split at h <;> simp at h
    subst h; rename_i hl; exact .lock hp hl
  · rename_i hp
    split at h
    · rename_i hs
      split at h
      · simp only [Option.some.injEq] at h; subst h; exact .dialFail hp hs
      · split at h <;> simp only [Option.some.injEq] at h <;> subst h
        · exact .openFail hp hs
        · exact .dialOk hp hs
    · simp only [Option.some.injEq] at h; subst h; exact .noRoom hp (by omega)
  · rename_i hp
    simp only [Option.some.injEq] at h; subst h; exact .count hp
  · rename_i hp
    split at h <;> simp at h
    subst h; rename_i hl; exact .push hp hl
  · rename_i hp
    simp only [Option.some.injEq] at h; subst h; exact .unlock hp
  · rename_i hp
    split at h
    · simp only [Option.some.injEq] at h; subst h; exact .timeout hp
    · split at h <;> simp only [Option.some.injEq, reduceCtorEq] at h
      subst h; rename_i hc; exact .recv hp hc
  · rename_i hp
    split at h <;> simp at h
    subst h; rename_i hl; exact .put hp hl
  · rename_i hp
    split at h
    · rename_i hc
      split at h <;> simp only [Option.some.injEq] at h <;> subst h
      · exact .closeErr hp hc
      · exact .closeOne hp hc
    · simp at h

def run (cap : Nat) : List Move → State → Option State
  | [], s => some s
  | m :: ms, s => (move cap m s).bind (run cap ms)

theorem run_steps {cap : Nat} {ms : List Move} {s t : State} (h : run cap ms s = some t) : Steps cap s t := by
  induction ms generalizing s with
  | nil => simp [run] at h; subst h; exact .refl
  | cons m ms ih =>
    simp only [run, Option.bind_eq_some_iff] at h
    obtain ⟨u, h1, h2⟩ := h
    exact (Steps.one (move_step h1)).trans (ih h2)

/-- Two callers of a pool of two, both holding a connection of their own: the hypotheses of
`C53_exclusive` are met. -/
example : ∃ s, Reachable (capacity 2) 2 s ∧ s.thr = [.holding 0, .holding 1] ∧ s.opened = 2 :=
  ⟨_, run_steps (ms := [go 0, go 0, go 0, go 0,
    go 0, go 0, go 0,
    go 1, go 1, go 1, go 1,
    go 1, go 1, go 1]) (t := ⟨[], 2, false, 2, [], [], false, 0, [.holding 0, .holding 1]⟩)
    (by decide), rfl, rfl⟩

/-! ## C54 -/

/-- C54: `Put` of a connection that a caller holds never blocks. -/
theorem C54_put_never_blocks (cap n : Nat) (s : State) (h : Reachable cap n s) (i : Nat) (c : Conn)
    (hi : s.thr[i]? = some (.holding c)) :
    ∃ t, Step cap s t ∧ t.thr = s.thr.set i .idle ∧ t.chan = s.chan ++ [c] := by
  have hinv := inv_reachable h
  have h1 := wsum_ge heldW hi
  simp only [heldW] at h1
  have := hinv.size
  have := hinv.room
  exact ⟨_, .put hi (by omega), rfl, rfl⟩

/-- C54: nor does the send inside `Get`, which happens under the mutex. -/
theorem C54_get_never_blocks_locked (cap n : Nat) (s : State) (h : Reachable cap n s) (i : Nat) (c : Conn)
    (hi : s.thr[i]? = some (.counted c)) : ∃ t, Step cap s t ∧ t.thr = s.thr.set i .unlocking := by
  have hinv := inv_reachable h
  have h1 := wsum_ge heldW hi
  simp only [heldW] at h1
  have := hinv.size
  have := hinv.room
  exact ⟨_, .push hi (by omega), rfl⟩

/-- C54, conservation, is false of the code when an open handler (authentication, database
selection) fails: the connection is open but neither idle nor in anybody's hands, and not closed. -/
theorem C54_violated : ∃ s, Reachable (capacity 1) 1 s ∧ s.opened = 1 ∧ s.chan = [] ∧ s.closed = [] ∧ s.thr = [.idle] :=
  ⟨_, run_steps (ms := [go 0, go 0, ⟨0, false, true, false⟩])
    (t := ⟨[], 0, true, 1, [0], [], true, 0, [.idle]⟩) (by decide), rfl, rfl, rfl, rfl⟩

/-- C54, conservation, as far as it holds: as long as no dial or open handler failed, every opened
connection is in exactly one place - idle, taken by `Close`, or in the hands of one caller. -/
theorem C54_conserved_partial (cap n : Nat) (s : State) (h : Reachable cap n s) (hb : s.broken = false)
    (c : Conn) (hc : c < s.opened) :
    s.chan.count c + s.closed.count c + wsum (has c) s.thr = 1 := by
  have hinv := inv_reachable h
  have h1 := hinv.each c
  rw [hinv.leak hb] at h1
  simp only [below, if_pos hc, List.count_nil] at h1
  omega

/-- Idle and held connections side by side. -/
example : ∃ s, Reachable (capacity 0) 2 s ∧ s.broken = false ∧ s.opened = 2 ∧ s.chan = [1] ∧ s.thr = [.holding 0, .idle] :=
  ⟨_, run_steps (ms := [go 0, go 0, go 0, go 0,
    go 0, go 0, go 0,
    go 1, go 1, go 1, go 1,
    go 1, go 1, go 1, go 1])
    (t := ⟨[1], 2, false, 2, [], [], false, 0, [.holding 0, .idle]⟩)
    (by decide), rfl, rfl, rfl, rfl⟩

/-! ## C55 -/

/-- Once a `Get` returned with the mutex held, nobody ever gets past it again. -/
theorem stuck_steps {cap : Nat} {s t : State} (h : Inv cap s) (hb : s.broken = true) (st : Steps cap s t) :
    t.broken = true ∧ t.opened = s.opened ∧ ∀ i : Nat, s.thr[i]? = some .wantLock → t.thr[i]? = some .wantLock := by
  induction st with
  | refl => exact ⟨hb, rfl, fun _ h => h⟩
  | @tail t u st1 st2 ih =>
    obtain ⟨i1, i2, i3⟩ := ih
    have hinv := inv_steps h st1
    have hm := hinv.mutex
    rw [i1] at hm
    have hbit : bit t.lock ≤ 1 := by unfold bit; split <;> omega
    have e1 : bit true = 1 := rfl
    have hlock : t.lock = true := by
      cases hl : t.lock with
      | true => rfl
      | false => rw [hl, e1] at hm; have : bit false = 0 := rfl; omega
    have other : ∀ (q : PC) (j : Nat), t.thr[j]? ≠ some .wantLock →
        ∀ i : Nat, s.thr[i]? = some .wantLock → (t.thr.set j q)[i]? = some .wantLock := by
      intro q j hj i hi
      have := i3 i hi
      by_cases hij : j = i
      · subst hij; exact absurd this hj
      · rw [List.getElem?_set_ne hij]; exact this
    have nolocked : ∀ j : Nat, t.thr[j]? ≠ some .locked := by
      intro j hj
      have := wsum_ge critW hj
      simp only [critW] at this
      omega
    cases st2 with
    | getFast h1 _ => exact ⟨i1, i2, other _ _ (by rw [h1]; simp)⟩
    | getSlow h1 _ => exact ⟨i1, i2, other _ _ (by rw [h1]; simp)⟩
    | lock h1 h2 => rw [hlock] at h2; simp at h2
    | dialOk h1 _ => exact absurd h1 (nolocked _)
    | dialFail h1 _ => exact absurd h1 (nolocked _)
    | openFail h1 _ => exact absurd h1 (nolocked _)
    | noRoom h1 _ => exact absurd h1 (nolocked _)
    | count h1 => exact ⟨i1, i2, other _ _ (by rw [h1]; simp)⟩
    | push h1 _ => exact ⟨i1, i2, other _ _ (by rw [h1]; simp)⟩
    | unlock h1 => exact ⟨i1, i2, other _ _ (by rw [h1]; simp)⟩
    | recv h1 _ => exact ⟨i1, i2, other _ _ (by rw [h1]; simp)⟩
    | timeout h1 => exact ⟨i1, i2, other _ _ (by rw [h1]; simp)⟩
    | put h1 _ => exact ⟨i1, i2, other _ _ (by rw [h1]; simp)⟩
    | closeStart h1 => exact ⟨i1, i2, other _ _ (by rw [h1]; simp)⟩
    | closeOne h1 _ => exact ⟨i1, i2, i3⟩
    | closeErr h1 _ => exact ⟨i1, i2, other _ _ (by rw [h1]; simp)⟩

/-- C55 is false of the code: after the first dial of a fresh pool failed, no caller ever gets a
connection again, in any continuation (they block at the mutex). -/
theorem C55_violated : ∃ s, Reachable (capacity 1) 2 s ∧ s.opened = 0 ∧ s.thr = [.idle, .idle] ∧
    ∀ t, Steps (capacity 1) s t → ∀ (i : Nat) c, t.thr[i]? ≠ some (.holding c) := by
  have hr : Reachable (capacity 1) 2 ⟨[], 0, true, 0, [], [], true, 0, [.idle, .idle]⟩ :=
    run_steps (ms := [go 0, go 0, ⟨0, true, false, false⟩]) (by decide)
  refine ⟨_, hr, rfl, rfl, fun t st i c hi => ?_⟩
  have hinv := inv_reachable hr
  obtain ⟨_, h2, _⟩ := stuck_steps hinv rfl st
  have h3 := (inv_steps hinv st).each c
  rw [h2] at h3
  have h4 := wsum_ge (has c) hi
  simp only [has, if_true] at h4
  simp [below] at h3
  omega

/-- The blocked callers stay blocked, whatever happens. -/
theorem C55_violated_forever (cap n : Nat) (s t : State) (h : Reachable cap n s) (hb : s.broken = true)
    (st : Steps cap s t) (i : Nat) (hi : s.thr[i]? = some .wantLock) : t.thr[i]? = some .wantLock :=
  (stuck_steps (inv_reachable h) hb st).2.2 i hi

/-- Connections out of circulation: in somebody's hands or closed. -/
def busy (s : State) : Nat := wsum heldW s.thr + wsum freshW s.thr + s.closed.length

/-- What finishing the critical section of caller `j` leads to. -/
def Released (cap : Nat) (s : State) (j : Nat) (t : State) : Prop :=
  Steps cap s t ∧ t.lock = false ∧ t.broken = false ∧ busy t ≤ busy s ∧ (∀ k, k ≠ j → t.thr[k]? = s.thr[k]?) ∧
  t.thr[j]? = some .waiting

theorem set_same {l : List PC} {i : Nat} {p q : PC} (h : l[i]? = some p) : (l.set i q)[i]? = some q := by
  obtain ⟨hlt, _⟩ := List.getElem?_eq_some_iff.mp h
  rw [List.getElem?_set_self hlt]

theorem set_other {l : List PC} {i k : Nat} {q : PC} (h : k ≠ i) : (l.set i q)[k]? = l[k]? :=
  List.getElem?_set_ne (fun e => h e.symm)

theorem release_unlocking {cap : Nat} {s : State} {j : Nat} (hb : s.broken = false)
    (hj : s.thr[j]? = some .unlocking) : ∃ t, Released cap s j t ∧ t.chan = s.chan := by
  refine ⟨_, ⟨.one (.unlock hj), rfl, hb, ?_, fun k hk => set_other hk, set_same hj⟩, rfl⟩
  have h1 := wsum_set heldW .waiting hj
  have h2 := wsum_set freshW .waiting hj
  simp only [heldW, freshW] at h1 h2
  simp only [busy, State.at]
  omega

theorem Released.before {cap : Nat} {s s' t : State} {j : Nat} (st : Step cap s s') (h : Released cap s' j t)
    (hb : busy t ≤ busy s) (ho : ∀ k, k ≠ j → s'.thr[k]? = s.thr[k]?) : Released cap s j t := by
  obtain ⟨h1, h2, h3, _, h5, h6⟩ := h
  exact ⟨(Steps.one st).trans h1, h2, h3, hb, fun k hk => (h5 k hk).trans (ho k hk), h6⟩

theorem release_counted {cap : Nat} {s : State} {j : Nat} {c : Conn} (h : Inv cap s) (hb : s.broken = false)
    (hj : s.thr[j]? = some (.counted c)) : ∃ t, Released cap s j t ∧ t.chan ≠ [] ∧ busy t + 1 ≤ busy s := by
  have h1 := wsum_ge heldW hj
  simp only [heldW] at h1
  have := h.size
  have := h.room
  have st : Step cap s { s.at j .unlocking with chan := s.chan ++ [c] } := .push hj (by omega)
  obtain ⟨t, ht, hc⟩ := release_unlocking (cap := cap) (s := { s.at j .unlocking with chan := s.chan ++ [c] }) (j := j) hb (set_same hj)
  have k1 := wsum_set heldW .unlocking hj
  have k2 := wsum_set freshW .unlocking hj
  simp only [heldW, freshW] at k1 k2
  have hbt : busy t + 1 ≤ busy s := by
    have := ht.2.2.2.1
    simp only [busy, State.at] at this ⊢
    omega
  exact ⟨t, ht.before st (by omega) (fun k hk => set_other hk), by rw [hc]; simp, hbt⟩

theorem release_created {cap : Nat} {s : State} {j : Nat} {c : Conn} (h : Inv cap s) (hb : s.broken = false)
    (hj : s.thr[j]? = some (.created c)) : ∃ t, Released cap s j t ∧ t.chan ≠ [] ∧ busy t + 1 ≤ busy s := by
  have st : Step cap s { s.at j (.counted c) with size := s.size + 1 } := .count hj
  obtain ⟨t, ht, hc, h4⟩ := release_counted (j := j) (c := c) (inv_step h st) hb (set_same hj)
  have k1 := wsum_set heldW (.counted c) hj
  have k2 := wsum_set freshW (.counted c) hj
  simp only [heldW, freshW] at k1 k2
  have hbt : busy t + 1 ≤ busy s := by
    simp only [busy, State.at] at h4 ⊢
    omega
  exact ⟨t, ht.before st (by omega) (fun k hk => set_other hk), hc, hbt⟩

theorem release_locked {cap : Nat} {s : State} {j : Nat} (h : Inv cap s) (hb : s.broken = false) (hroom : busy s < cap)
    (hj : s.thr[j]? = some .locked) : ∃ t, Released cap s j t ∧ t.chan ≠ [] := by
  by_cases hs : s.size < cap
  · have st : Step cap s { s.at j (.created s.opened) with opened := s.opened + 1 } := .dialOk hj hs
    obtain ⟨t, ht, hc, h4⟩ := release_created (j := j) (c := s.opened) (inv_step h st) hb (set_same hj)
    have k1 := wsum_set heldW (.created s.opened) hj
    have k2 := wsum_set freshW (.created s.opened) hj
    simp only [heldW, freshW] at k1 k2
    have hbt : busy t ≤ busy s := by
      simp only [busy, State.at] at h4 ⊢
      omega
    exact ⟨t, ht.before st hbt (fun k hk => set_other hk), hc⟩
  · have st : Step cap s (s.at j .unlocking) := .noRoom hj (by omega)
    obtain ⟨t, ht, hc⟩ := release_unlocking (cap := cap) (s := s.at j .unlocking) (j := j) hb (set_same hj)
    have k1 := wsum_set heldW .unlocking hj
    have k2 := wsum_set freshW .unlocking hj
    simp only [heldW, freshW] at k1 k2
    have hbt : busy t ≤ busy s := by
      have := ht.2.2.2.1
      simp only [busy, State.at] at this ⊢
      omega
    refine ⟨t, ht.before st hbt (fun k hk => set_other hk), ?_⟩
    rw [hc]
    intro e
    have := h.size
    simp only [State.at] at e
    rw [e] at this
    simp only [busy, List.length_nil] at *
    omega

/-- C55, as far as it holds: as long as no dial or open handler has failed, a caller that enters
`Get` can still be served whenever not all connections are in other callers' hands - whatever the
other callers are doing inside `Get`. -/
theorem C55_can_obtain_partial (cap n : Nat) (s : State) (h : Reachable cap n s) (hb : s.broken = false)
    (hroom : busy s < cap) (i : Nat) (hi : s.thr[i]? = some .idle) :
    ∃ t c, Steps cap s t ∧ t.thr[i]? = some (.holding c) := by
  have hinv := inv_reachable h
  cases hc : s.chan with
  | cons c cs => exact ⟨_, c, .one (.getFast hi hc), set_same hi⟩
  | nil =>
    have st1 : Step cap s (s.at i .wantLock) := .getSlow hi hc
    have inv1 := inv_step hinv st1
    have k1 := wsum_set heldW .wantLock hi
    have k2 := wsum_set freshW .wantLock hi
    simp only [heldW, freshW] at k1 k2
    have hroom1 : busy (s.at i .wantLock) < cap := by simp only [busy, State.at] at hroom ⊢; omega
    have hi1 : (s.at i .wantLock).thr[i]? = some .wantLock := set_same hi
    -- wait for the mutex
    obtain ⟨s2, st2, hl2, hb2, hroom2, hi2⟩ : ∃ s2, Steps cap (s.at i .wantLock) s2 ∧ s2.lock = false ∧ s2.broken = false ∧
        busy s2 < cap ∧ s2.thr[i]? = some .wantLock := by
      cases hl : s.lock with
      | false => exact ⟨_, .refl, hl, hb, hroom1, hi1⟩
      | true =>
        have hm := inv1.mutex
        have e1 : (s.at i .wantLock).broken = false := hb
        have e2 : (s.at i .wantLock).lock = true := hl
        rw [e1, e2] at hm
        have e3 : bit false = 0 := rfl
        have e4 : bit true = 1 := rfl
        have hpos : 0 < wsum (fun p => freshW p + critW p) (s.at i .wantLock).thr := by
          have : ∀ l : List PC, wsum (fun p => freshW p + critW p) l = wsum freshW l + wsum critW l := by
            intro l
            induction l with
            | nil => rfl
            | cons a l ih => simp [wsum] at ih ⊢; omega
          rw [this]; omega
        obtain ⟨j, p, hj, hp⟩ := wsum_pos _ hpos
        have hji : i ≠ j := by
          intro e
          subst e
          rw [hi1] at hj
          simp only [Option.some.injEq] at hj
          subst hj
          simp [freshW, critW] at hp
        have fin : ∀ t, Released cap (s.at i .wantLock) j t → ∃ s2, Steps cap (s.at i .wantLock) s2 ∧ s2.lock = false ∧
            s2.broken = false ∧ busy s2 < cap ∧ s2.thr[i]? = some .wantLock :=
          fun t ht => ⟨t, ht.1, ht.2.1, ht.2.2.1, by have := ht.2.2.2.1; omega, (ht.2.2.2.2.1 i hji).trans hi1⟩
        cases p with
        | locked => obtain ⟨t, ht, _⟩ := release_locked inv1 hb hroom1 hj; exact fin t ht
        | created c => obtain ⟨t, ht, _⟩ := release_created inv1 hb hj; exact fin t ht
        | counted c => obtain ⟨t, ht, _⟩ := release_counted inv1 hb hj; exact fin t ht
        | unlocking => obtain ⟨t, ht, _⟩ := release_unlocking (cap := cap) (s := s.at i .wantLock) hb hj; exact fin t ht
        | idle => simp [freshW, critW] at hp
        | wantLock => simp [freshW, critW] at hp
        | waiting => simp [freshW, critW] at hp
        | holding c => simp [freshW, critW] at hp
        | closing => simp [freshW, critW] at hp
    have inv2 := inv_steps inv1 st2
    have st3 : Step cap s2 { s2.at i .locked with lock := true } := .lock hi2 hl2
    have k1 := wsum_set heldW .locked hi2
    have k2 := wsum_set freshW .locked hi2
    simp only [heldW, freshW] at k1 k2
    obtain ⟨t, ht, hne⟩ := release_locked (j := i) (inv_step inv2 st3) hb2
      (by simp only [busy, State.at] at hroom2 ⊢; omega) (set_same hi2)
    cases hct : t.chan with
    | nil => exact absurd hct hne
    | cons c cs =>
      refine ⟨{ t.at i (.holding c) with chan := cs }, c, ?_, set_same ht.2.2.2.2.2⟩
      exact ((((Steps.one st1).trans st2).tail st3).trans ht.1).tail (.recv ht.2.2.2.2.2 hct)

/-- A state in which another caller is inside the critical section meets the hypotheses. -/
example : ∃ s, Reachable (capacity 1) 2 s ∧ s.broken = false ∧ busy s < capacity 1 ∧ s.thr = [.idle, .locked] :=
  ⟨_, run_steps (ms := [go 1, go 1]) (t := ⟨[], 0, true, 0, [], [], false, 0, [.idle, .locked]⟩) (by decide), rfl, by decide, rfl⟩

/-! ## C56 -/

/-- C56 is false of the code: `Close` never returns unless closing some connection failed, however
long one waits and whatever the other callers do. -/
theorem C56_violated (cap : Nat) (s t : State) (st : Steps cap s t) (i : Nat) (hi : s.thr[i]? = some .closing)
    (he : t.closeErrs = s.closeErrs) : t.thr[i]? = some .closing := by
  suffices h : s.closeErrs ≤ t.closeErrs ∧ (t.closeErrs = s.closeErrs → t.thr[i]? = some .closing) from h.2 he
  clear he
  induction st with
  | refl => exact ⟨Nat.le_refl _, fun _ => hi⟩
  | @tail t u _ st2 ih =>
    obtain ⟨ih1, ih2⟩ := ih
    have other : ∀ (q : PC) (j : Nat), t.thr[j]? ≠ some .closing → t.thr[i]? = some .closing →
        (t.thr.set j q)[i]? = some .closing := by
      intro q j hj h
      by_cases hij : i = j
      · subst hij; exact absurd h hj
      · rw [set_other hij]; exact h
    cases st2 with
    | getFast h1 _ => exact ⟨ih1, fun e => other _ _ (by rw [h1]; simp) (ih2 e)⟩
    | getSlow h1 _ => exact ⟨ih1, fun e => other _ _ (by rw [h1]; simp) (ih2 e)⟩
    | lock h1 h2 => exact ⟨ih1, fun e => other _ _ (by rw [h1]; simp) (ih2 e)⟩
    | dialOk h1 _ => exact ⟨ih1, fun e => other _ _ (by rw [h1]; simp) (ih2 e)⟩
    | dialFail h1 _ => exact ⟨ih1, fun e => other _ _ (by rw [h1]; simp) (ih2 e)⟩
    | openFail h1 _ => exact ⟨ih1, fun e => other _ _ (by rw [h1]; simp) (ih2 e)⟩
    | noRoom h1 _ => exact ⟨ih1, fun e => other _ _ (by rw [h1]; simp) (ih2 e)⟩
    | count h1 => exact ⟨ih1, fun e => other _ _ (by rw [h1]; simp) (ih2 e)⟩
    | push h1 _ => exact ⟨ih1, fun e => other _ _ (by rw [h1]; simp) (ih2 e)⟩
    | unlock h1 => exact ⟨ih1, fun e => other _ _ (by rw [h1]; simp) (ih2 e)⟩
    | recv h1 _ => exact ⟨ih1, fun e => other _ _ (by rw [h1]; simp) (ih2 e)⟩
    | timeout h1 => exact ⟨ih1, fun e => other _ _ (by rw [h1]; simp) (ih2 e)⟩
    | put h1 _ => exact ⟨ih1, fun e => other _ _ (by rw [h1]; simp) (ih2 e)⟩
    | closeStart h1 => exact ⟨ih1, fun e => other _ _ (by rw [h1]; simp) (ih2 e)⟩
    | closeOne h1 _ => exact ⟨ih1, ih2⟩
    | closeErr h1 _ =>
      refine ⟨?_, fun e => ?_⟩
      · simp only [State.at] at *; omega
      · simp only [State.at] at e; omega

/-- A pool with one idle connection on which `Close` was called. -/
example : ∃ s, Reachable (capacity 1) 1 s ∧ s.chan = [0] ∧ s.thr[0]? = some .closing :=
  ⟨_, run_steps (ms := [go 0, go 0, go 0, go 0, go 0, go 0, go 0, go 0, ⟨0, false, false, true⟩])
    (t := ⟨[0], 1, false, 1, [], [], false, 0, [.closing]⟩) (by decide), rfl, rfl⟩

/-- C56, as far as it holds: `Close` does get to close every idle connection, each once. -/
theorem C56_closes_idle_partial (cap : Nat) (s : State) (i : Nat) (hi : s.thr[i]? = some .closing) :
    ∃ t, Steps cap s t ∧ t.chan = [] ∧ t.closed = s.chan.reverse ++ s.closed ∧ t.thr = s.thr := by
  obtain ⟨l, hl⟩ : ∃ l, l = s.chan := ⟨_, rfl⟩
  rw [← hl]
  induction l generalizing s with
  | nil => exact ⟨s, .refl, hl.symm, rfl, rfl⟩
  | cons c cs ih =>
    obtain ⟨t, h1, h2, h3, h4⟩ := ih { s with chan := cs, closed := c :: s.closed } hi rfl
    exact ⟨t, (Steps.one (.closeOne hi hl.symm)).trans h1, h2, by rw [h3]; simp, h4⟩

/-! ## C83 -/

/-- C83 is false of the code: of two callers of an empty pool of two, the one that dialled can lose
its connection to the other and then waits, although a second connection could be opened: no step
gives it a connection. -/
theorem C83_violated : ∃ s, Reachable (capacity 2) 2 s ∧ s.opened = 1 ∧ s.thr = [.waiting, .holding 0] ∧
    ∀ t, Step (capacity 2) s t → ∀ c, t.thr[0]? ≠ some (.holding c) := by
  refine ⟨⟨[], 1, false, 1, [], [], false, 0, [.waiting, .holding 0]⟩,
    run_steps (ms := [go 0, go 0, go 0, go 0, go 0, go 1, go 0]) (by decide), rfl, rfl, ?_⟩
  intro t st c hc
  cases st with
  | @getFast i _ _ h1 h2 => simp at h2
  | @recv i _ _ h1 h2 => simp at h2
  | @dialOk i h1 _ => match i with | 0 => simp at h1 | 1 => simp at h1 | i + 2 => simp at h1
  | @getSlow i h1 _ => match i with | 0 => simp at h1 | 1 => simp at h1 | i + 2 => simp at h1
  | @lock i h1 _ => match i with | 0 => simp at h1 | 1 => simp at h1 | i + 2 => simp at h1
  | @dialFail i h1 _ => match i with | 0 => simp at h1 | 1 => simp at h1 | i + 2 => simp at h1
  | @openFail i h1 _ => match i with | 0 => simp at h1 | 1 => simp at h1 | i + 2 => simp at h1
  | @noRoom i h1 _ => match i with | 0 => simp at h1 | 1 => simp at h1 | i + 2 => simp at h1
  | @count i _ h1 => match i with | 0 => simp at h1 | 1 => simp at h1 | i + 2 => simp at h1
  | @push i _ h1 _ => match i with | 0 => simp at h1 | 1 => simp at h1 | i + 2 => simp at h1
  | @unlock i h1 => match i with | 0 => simp at h1 | 1 => simp at h1 | i + 2 => simp at h1
  | @timeout i h1 => match i with | 0 => simp [State.at] at hc | 1 => simp at h1 | i + 2 => simp at h1
  | @put i _ h1 _ => match i with | 0 => simp at h1 | 1 => simp [State.at] at hc | i + 2 => simp at h1
  | @closeStart i h1 => match i with | 0 => simp at h1 | 1 => simp at h1 | i + 2 => simp at h1
  | @closeOne i _ _ h1 h2 => simp at h2
  | @closeErr i _ _ h1 h2 => simp at h2

/-- A caller past the mutex knows that a connection was opened. -/
theorem waiting_size {cap n : Nat} {s : State} (hcap : 0 < cap) (h : Reachable cap n s) (i : Nat)
    (hi : s.thr[i]? = some .waiting ∨ s.thr[i]? = some .unlocking) : 1 ≤ s.size := by
  unfold Reachable at h
  generalize hs : State.init n = s0 at h
  induction h generalizing i with
  | refl =>
    subst hs
    simp only [State.init, List.getElem?_replicate] at hi
    rcases hi with hi | hi <;> split at hi <;> simp at hi
  | @tail t u st1 st2 ih =>
    have hinv : Inv cap t := inv_reachable (n := n) (by unfold Reachable; rw [hs]; exact st1)
    have other : ∀ (j : Nat) (q : PC), (t.thr.set j q)[i]? = some .waiting ∨ (t.thr.set j q)[i]? = some .unlocking →
        q ≠ .waiting → q ≠ .unlocking → 1 ≤ t.size := by
      intro j q h h1 h2
      by_cases hij : i = j
      · subst hij
        rw [List.getElem?_set_self'] at h
        cases hg : t.thr[i]? with
        | none => rw [hg] at h; simp at h
        | some p => rw [hg] at h; simp at h; rcases h with h | h <;> contradiction
      · rw [set_other hij] at h; exact ih i h
    cases st2 with
    | getFast h1 _ => exact other _ _ hi (by simp) (by simp)
    | getSlow h1 _ => exact other _ _ hi (by simp) (by simp)
    | lock h1 h2 => exact other _ _ hi (by simp) (by simp)
    | dialOk h1 _ => exact other _ _ hi (by simp) (by simp)
    | dialFail h1 _ => exact other _ _ hi (by simp) (by simp)
    | openFail h1 _ => exact other _ _ hi (by simp) (by simp)
    | noRoom h1 h2 => simp only [State.at]; omega
    | count h1 => simp only [State.at]; omega
    | @push j c h1 _ =>
      have := wsum_ge heldW h1
      simp only [heldW] at this
      have := hinv.size
      simp only [State.at]; omega
    | @unlock j h1 => exact ih j (.inr h1)
    | recv h1 _ => exact other _ _ hi (by simp) (by simp)
    | timeout h1 => exact other _ _ hi (by simp) (by simp)
    | put h1 _ => exact other _ _ hi (by simp) (by simp)
    | closeStart h1 => exact other _ _ hi (by simp) (by simp)
    | closeOne h1 _ => exact ih i hi
    | closeErr h1 _ => exact other _ _ hi (by simp) (by simp)

/-- C83, as far as it holds: a caller waits for a connection only while some other caller has one
in hand (or `Close` took it); so a lone caller never waits. -/
theorem C83_waits_for_somebody_partial (requested : Int) (n : Nat) (s : State) (h : Reachable (capacity requested) n s)
    (i : Nat) (hi : s.thr[i]? = some .waiting) (hc : s.chan = []) (hcl : s.closed = []) :
    ∃ j c, j ≠ i ∧ (s.thr[j]? = some (.holding c) ∨ s.thr[j]? = some (.counted c)) := by
  have hcap : 0 < capacity requested := by unfold capacity; split <;> omega
  have h1 := waiting_size hcap h i (.inl hi)
  have h2 := (inv_reachable h).size
  rw [hc, hcl] at h2
  simp only [List.length_nil] at h2
  obtain ⟨j, p, hj, hp⟩ := wsum_pos heldW (l := s.thr) (by omega)
  have hji : j ≠ i := by
    intro e; subst e
    rw [hi] at hj; simp only [Option.some.injEq] at hj; subst hj; simp [heldW] at hp
  cases p with
  | holding c => exact ⟨j, c, hji, .inl hj⟩
  | counted c => exact ⟨j, c, hji, .inr hj⟩
  | _ => simp [heldW] at hp

/-- The state of `C83_violated` meets the hypotheses. -/
example : ∃ s, Reachable (capacity 2) 2 s ∧ s.thr[0]? = some .waiting ∧ s.chan = [] ∧ s.closed = [] :=
  ⟨⟨[], 1, false, 1, [], [], false, 0, [.waiting, .holding 0]⟩,
    run_steps (ms := [go 0, go 0, go 0, go 0, go 0, go 1, go 0]) (by decide), rfl, rfl, rfl⟩

end Verif.Pool

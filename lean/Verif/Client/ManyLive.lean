import Verif.Client.ManyInv
/-!
# Calls of many goroutines on one client come to an end
-/
namespace Verif.Client.Many
open Verif.Resp Verif.Client

variable {bad : Bytes → F64} {o : Opt} {cap : Nat}

/-! ## Sums -/

/-- `f 0 + … + f (n-1)`. -/
def sumTo (f : Nat → Nat) : Nat → Nat
  | 0 => 0
  | n + 1 => sumTo f n + f n

theorem sumTo_congr {f g : Nat → Nat} {n : Nat} (h : ∀ i, i < n → f i = g i) : sumTo f n = sumTo g n := by
  induction n with
  | zero => rfl
  | succ n ih => simp only [sumTo]; rw [ih (fun i hi => h i (by omega)), h n (by omega)]

/-- One term changed. -/
theorem sumTo_change {f g : Nat → Nat} {n i : Nat} (hi : i < n) (h : ∀ j, j ≠ i → g j = f j) :
    sumTo g n + f i = sumTo f n + g i := by
  induction n with
  | zero => omega
  | succ n ih =>
    simp only [sumTo]
    by_cases e : i = n
    · subst e
      rw [sumTo_congr (fun j hj => h j (by omega : j ≠ i))]
      omega
    · have := ih (by omega)
      rw [h n (fun x => e x.symm)]
      omega

/-! ## What is left to do -/

/-- Moves of `Get` still to come, and the rest of the call. -/
def rank : Pool.PC → Nat
  | .idle => 12
  | .wantLock => 11
  | .locked => 10
  | .created _ => 9
  | .counted _ => 8
  | .unlocking => 7
  | .waiting => 6
  | .holding _ => 5
  | .closing => 0

/-- Moves of a goroutine still to come in its call. -/
def stage (s : Sys) (i : Nat) : Nat :=
  match s.job i, s.pool.thr[i]? with
  | .none, _ => 0
  | .want _, some p => rank p
  | .want _, none => 0
  | .sent _, _ => 3
  | .got _ _, _ => 2

/-- Moves to come of the goroutines. -/
def threadWork (n : Nat) (s : Sys) : Nat := sumTo (fun i => 13 * (s.todo i).length + stage s i) n

/-- Requests on their way. -/
def wireWork (s : Sys) : Nat := sumTo (fun c => if (s.pend c).isSome then 1 else 0) s.pool.opened

/-- Work left. -/
def weight (n : Nat) (s : Sys) : Nat := threadWork n s + wireWork s

/-- Where a goroutine is in the pool fits where its call is. -/
def JobAt (j : Job) : Option Pool.PC → Prop
  | none => j = .none
  | some .idle => j = .none ∨ ∃ q, j = .want q
  | some (.holding _) => j ≠ .none
  | some .closing => False
  | some _ => ∃ q, j = .want q

/-- Behind the size check of `Get`. -/
def Past : Pool.PC → Prop
  | .waiting | .unlocking | .counted _ => True
  | _ => False

/-- Beside the invariant of the pool. -/
structure Sync (n : Nat) (s : Sys) : Prop where
  len : s.pool.thr.length = n
  job : ∀ i, JobAt (s.job i) s.pool.thr[i]?
  todo : ∀ i, n ≤ i → s.job i = .none
  closed : s.pool.closed = []
  broken : s.pool.broken = true → ∃ i, .noConn i ∈ s.log
  some_ : ∀ (i : Nat) (a : Pool.PC), s.pool.thr[i]? = some a → Past a → 0 < s.pool.size

/-- What a move of `Get` other than the dial does to the pool. -/
theorem get_move' {p t : Pool.State} {i : Nat} {a : Pool.PC} (hcap : 0 < cap) (ha : p.thr[i]? = some a) (hh : ∀ c, a ≠ .holding c)
    (hcl : a ≠ .closing) (hl : a = .locked → cap ≤ p.size) (h : Pool.move cap (Pool.go i) p = some t)
    (hp : Past a → 0 < p.size) :
    ∃ b, t.thr = p.thr.set i b ∧ t.closed = p.closed ∧ t.broken = p.broken ∧ p.size ≤ t.size ∧ rank b < rank a ∧ b ≠ .closing ∧ b ≠ .idle ∧
      (Past b → 0 < t.size) := by
  simp only [Pool.move, ha, Pool.go, Bool.false_eq_true, if_false] at h
  cases a with
  | holding c => exact absurd rfl (hh c)
  | closing => exact absurd rfl hcl
  | locked =>
    have := hl rfl
    rw [if_neg (Nat.not_lt.2 this)] at h
    cases h
    exact ⟨.unlocking, rfl, rfl, rfl, Nat.le_refl _, by simp [rank], by simp, by simp, fun _ => by simp only [Pool.State.at]; omega⟩
  | idle =>
    simp only at h
    split at h <;> cases h
    · exact ⟨_, rfl, rfl, rfl, Nat.le_refl _, by simp [rank], by simp, by simp, False.elim⟩
    · exact ⟨_, rfl, rfl, rfl, Nat.le_refl _, by simp [rank], by simp, by simp, False.elim⟩
  | wantLock =>
    simp only at h; split at h <;> cases h
    exact ⟨_, rfl, rfl, rfl, Nat.le_refl _, by simp [rank], by simp, by simp, False.elim⟩
  | created c => cases h; exact ⟨_, rfl, rfl, rfl, Nat.le_succ _, by simp [rank], by simp, by simp, fun _ => Nat.succ_pos _⟩
  | counted c =>
    simp only at h; split at h <;> cases h
    exact ⟨_, rfl, rfl, rfl, Nat.le_refl _, by simp [rank], by simp, by simp, hp⟩
  | unlocking => cases h; exact ⟨_, rfl, rfl, rfl, Nat.le_refl _, by simp [rank], by simp, by simp, hp⟩
  | waiting =>
    simp only at h; split at h <;> cases h
    exact ⟨_, rfl, rfl, rfl, Nat.le_refl _, by simp [rank], by simp, by simp, False.elim⟩

theorem sync_init (n : Nat) (srv : Server) (t : Int) (calls : Nat → List Req) : Sync n (Sys.init n srv t calls) where
  len := by simp [Sys.init, Pool.State.init]
  job := fun i => by
    simp only [Sys.init, Pool.State.init]
    rw [List.getElem?_replicate]
    split
    · exact .inl rfl
    · rfl
  todo := fun _ _ => rfl
  closed := rfl
  broken := fun h => by simp [Sys.init, Pool.State.init] at h
  some_ := fun i a h hp => by
    simp only [Sys.init, Pool.State.init] at h
    rw [List.getElem?_replicate] at h
    split at h <;> cases h
    exact hp.elim

theorem lt_of_get {l : List Pool.PC} {i : Nat} {a : Pool.PC} (h : l[i]? = some a) : i < l.length := (List.getElem?_eq_some_iff.1 h).1

theorem get_set_self {l : List Pool.PC} {i : Nat} {a b : Pool.PC} (h : l[i]? = some a) : (l.set i b)[i]? = some b := by
  rw [List.getElem?_set_self (lt_of_get h)]

/-- Moves other than the passing of time and the loss of a connection. -/
def Act.Work : Act → Prop
  | .tick _ | .drop _ _ => False
  | _ => True

/-- The pool's view after goroutine `i` went to `b`. -/
theorem sync_set {n : Nat} {s s' : Sys} {i : Nat} {a b : Pool.PC} (h : Sync n s) (hi : s.pool.thr[i]? = some a)
    (ht : s'.pool.thr = s.pool.thr.set i b) (hj : ∀ j, j ≠ i → s'.job j = s.job j) (hb : JobAt (s'.job i) (some b))
    (hc : s'.pool.closed = []) (hbr : s'.pool.broken = true → ∃ i, .noConn i ∈ s'.log) (hs : s.pool.size ≤ s'.pool.size)
    (hp : Past b → 0 < s'.pool.size) : Sync n s' where
  len := by rw [ht, List.length_set]; exact h.len
  job := fun j => by
    by_cases e : j = i
    · subst e; rw [ht, get_set_self hi]; exact hb
    · rw [ht, set_get e, hj j e]; exact h.job j
  todo := fun j hn => by
    have := lt_of_get hi
    have hl := h.len
    rw [hj j (by omega)]; exact h.todo j hn
  closed := hc
  broken := hbr
  some_ := fun j d hj' hd => by
    by_cases e : j = i
    · subst e
      rw [ht, get_set_self hi] at hj'
      cases hj'
      exact hp hd
    · rw [ht, set_get e] at hj'
      exact Nat.lt_of_lt_of_le (h.some_ j d hj' hd) hs

theorem pend_open {srv : Server} {t : Int} {s : Sys} (h : Inv bad o cap srv t s) {c : Nat} (hc : (s.pend c).isSome) :
    c < s.pool.opened ∧ ∃ q, s.pend c = some (sent q) := by
  obtain ⟨l, _, e2, e3⟩ := h.line c
  have hq : ∃ q, s.pend c = some (sent q) := by
    have key : ∀ p : Option Req, s.pend c = p.map sent → ∃ q, s.pend c = some (sent q) := by
      intro p hp
      cases p with
      | none => rw [hp] at hc; cases hc
      | some q => exact ⟨q, hp⟩
    match l, e2 with
    | .free, e2 => rw [e2.2.1] at hc; cases hc
    | .sent _ q, e2 => exact ⟨q, e2.2.1⟩
    | .ran _ _ _, e2 => rw [e2.1] at hc; cases hc
    | .lost p none _, e2 => exact key p e2.2.2.1
    | .lost p (some (_, _)) none, e2 => exact key p e2.2.1
    | .lost p (some (_, _)) (some _), e2 => exact key p e2.2.1
  refine ⟨?_, hq⟩
  rcases e3 with rfl | e3
  · rw [e2.2.1] at hc; cases hc
  · exact e3.1

/-- What one goroutine's move leaves of the work. -/
theorem weight_thread {n : Nat} {s s' : Sys} {i : Nat} (hi : i < n) (hj : ∀ j, j ≠ i → s'.job j = s.job j)
    (ht : ∀ j, j ≠ i → s'.pool.thr[j]? = s.pool.thr[j]?) (htd : ∀ j, j ≠ i → s'.todo j = s.todo j) :
    threadWork n s' + (13 * (s.todo i).length + stage s i) = threadWork n s + (13 * (s'.todo i).length + stage s' i) := by
  refine sumTo_change (f := fun i => 13 * (s.todo i).length + stage s i) (g := fun i => 13 * (s'.todo i).length + stage s' i) hi (fun j h => ?_)
  simp only [stage, hj j h, ht j h, htd j h]

/-- A goroutine's move. -/
theorem less {n : Nat} {s s' : Sys} {i : Nat} (hi : i < n) (hj : ∀ j, j ≠ i → s'.job j = s.job j)
    (ht : ∀ j, j ≠ i → s'.pool.thr[j]? = s.pool.thr[j]?) (htd : ∀ j, j ≠ i → s'.todo j = s.todo j) (hw : wireWork s' ≤ wireWork s + 1)
    (hlt : 13 * (s'.todo i).length + stage s' i + (wireWork s' - wireWork s) < 13 * (s.todo i).length + stage s i) : weight n s' < weight n s := by
  have := weight_thread hi hj ht htd
  simp only [weight]
  omega

/-- A goroutine's move that touches no wire. -/
theorem less' {n : Nat} {s s' : Sys} {i : Nat} (hi : i < n) (hj : ∀ j, j ≠ i → s'.job j = s.job j)
    (ht : ∀ j, j ≠ i → s'.pool.thr[j]? = s.pool.thr[j]?) (htd : ∀ j, j ≠ i → s'.todo j = s.todo j) (hw : wireWork s' = wireWork s)
    (hlt : 13 * (s'.todo i).length + stage s' i < 13 * (s.todo i).length + stage s i) : weight n s' < weight n s :=
  less hi hj ht htd (by omega) (by omega)

/-- Every move keeps `Sync`; every move of work leaves less to do. -/
theorem sync_act {n : Nat} {srv : Server} {t : Int} {s s' : Sys} {a : Act} (hcap : 0 < cap) (hI : Inv bad o cap srv t s) (h : Sync n s)
    (hs : act bad o cap s a = some s') : Sync n s' ∧ (a.Work → weight n s' < weight n s) := by
  have hbn : ∀ {e : Event}, (s.pool.broken = true → ∃ i, .noConn i ∈ s.log ++ [e]) := fun hb => by
    obtain ⟨i, hi⟩ := h.broken hb; exact ⟨i, by simp [hi]⟩
  have hlen := h.len
  have wire0 : ∀ s' : Sys, s'.pend = s.pend → s'.pool.opened = s.pool.opened → wireWork s' = wireWork s := by
    intro s' e1 e2; simp only [wireWork, e1, e2]
  cases a with
  | tick d =>
    simp only [act, Option.some.injEq] at hs
    subst hs
    exact ⟨⟨h.len, h.job, h.todo, h.closed, h.broken, h.some_⟩, False.elim⟩
  | drop c lose =>
    simp only [act] at hs
    split at hs <;> cases hs
    exact ⟨⟨h.len, h.job, h.todo, h.closed, hbn, h.some_⟩, False.elim⟩
  | call i =>
    simp only [act] at hs
    split at hs <;> cases hs
    rename_i q rest h1 h2 h3
    have hi := lt_of_get h3
    constructor
    · refine ⟨h.len, fun j => ?_, fun j hj => ?_, h.closed, hbn, h.some_⟩
      · by_cases e : j = i
        · subst e; simp only [set_same, h3]; exact .inr ⟨_, rfl⟩
        · simp only [set_ne _ _ e]; exact h.job j
      · simp only [set_ne _ _ (by omega : j ≠ i)]; exact h.todo j hj
    · intro _
      refine less' (i := i) (by omega) (fun j hj => set_ne _ _ hj) (fun _ _ => rfl) (fun j hj => set_ne _ _ hj) (wire0 _ rfl rfl) ?_
      simp only [stage, set_same, h1, h2, h3, List.length_cons, rank]
      omega
  | get i =>
    have key : ∃ a q p, s.pool.thr[i]? = some a ∧ s.job i = .want q ∧ (∀ c, a ≠ .holding c) ∧ (a = .locked → cap ≤ s.pool.size) ∧
        Pool.move cap (Pool.go i) s.pool = some p ∧ s' = { s with pool := p } := by
      simp only [act] at hs
      split at hs
      · cases hs
      · rename_i q h1 h2
        split at hs
        · cases hs
        · rename_i hc
          obtain ⟨p, hp, rfl⟩ := Option.map_eq_some_iff.1 hs
          exact ⟨_, q, p, h2, h1, by simp, fun _ => Nat.le_of_not_lt hc, hp, rfl⟩
      · rename_i q a h3 h4 h1 h2
        obtain ⟨p, hp, rfl⟩ := Option.map_eq_some_iff.1 hs
        exact ⟨a, q, p, h2, h1, (fun c e => h3 c e), (fun e => (h4 e).elim), hp, rfl⟩
      · cases hs
    obtain ⟨a, q, p, h1, h2, h3, h4, h5, rfl⟩ := key
    have hcl : a ≠ .closing := by rintro rfl; have := h.job i; rw [h1] at this; exact this
    obtain ⟨b, g1, g2, g3, g4, g5, g6, g7, g8⟩ := get_move' hcap h1 h3 hcl h4 h5 (h.some_ i a h1)
    obtain ⟨m1, m2, m3⟩ := get_move h1 h3 h4 h5
    constructor
    · refine sync_set h h1 g1 (fun _ _ => rfl) ?_ (g2.trans h.closed) (fun hb => h.broken (g3 ▸ hb)) g4 g8
      simp only [h2]
      cases b <;> first | exact ⟨q, rfl⟩ | exact absurd rfl g6 | exact absurd rfl g7 | exact fun x => by cases x
    · intro _
      refine less (i := i) (by have := lt_of_get h1; omega) (fun j hj => rfl) m3 (fun j hj => rfl) (by simp only [wireWork, m1]; omega) ?_
      rw [show wireWork { s with pool := p } - wireWork s = 0 by simp only [wireWork, m1]; omega]
      simp only [stage, h1, h2, g1, get_set_self h1]
      omega
  | dial i reach cut =>
    simp only [act] at hs
    split at hs
    case h_2 => cases hs
    rename_i q h1 h2
    split at hs
    case isFalse => cases hs
    rename_i hsz
    have hi := lt_of_get h2
    have hpn : s.pend s.pool.opened = none := by
      cases hp : s.pend s.pool.opened with
      | none => rfl
      | some b => exact absurd (pend_open hI (c := s.pool.opened) (by rw [hp]; rfl)).1 (Nat.lt_irrefl _)
    have wire1 : ∀ s' : Sys, s'.pend = s.pend → s'.pool.opened = s.pool.opened + 1 → wireWork s' = wireWork s := by
      intro s' e1 e2; simp [wireWork, e1, e2, sumTo, hpn]
    split at hs
    · split at hs
      · obtain ⟨p, hp, rfl⟩ := Option.map_eq_some_iff.1 hs
        simp only [Pool.move, h2, Pool.go, Bool.false_eq_true, if_false, hsz, if_true, Option.some.injEq] at hp
        subst hp
        constructor
        · exact sync_set h h2 rfl (fun _ _ => rfl) ⟨q, h1⟩ h.closed h.broken (Nat.le_refl _) False.elim
        · intro _
          refine less' (i := i) (by omega) (fun j hj => rfl) (fun j hj => set_get hj) (fun j hj => rfl) (wire1 _ rfl rfl) ?_
          simp only [stage, h1, h2, Pool.State.at, get_set_self h2, rank]
          omega
      · obtain ⟨p, hp, rfl⟩ := Option.map_eq_some_iff.1 hs
        simp only [Pool.move, h2, Bool.false_eq_true, if_false, hsz, if_true, Option.some.injEq] at hp
        subst hp
        constructor
        · exact sync_set h h2 rfl (fun j hj => set_ne _ _ hj) (.inl (set_same _ _ _)) h.closed (fun _ => ⟨i, by simp⟩) (Nat.le_refl _) False.elim
        · intro _
          refine less' (i := i) (by omega) (fun j hj => set_ne _ _ hj) (fun j hj => set_get hj) (fun j hj => rfl) (wire1 _ rfl rfl) ?_
          simp only [stage, h1, h2, Pool.State.at, get_set_self h2, set_same, rank]
          omega
    · obtain ⟨p, hp, rfl⟩ := Option.map_eq_some_iff.1 hs
      simp only [Pool.move, h2, hsz, if_true, Option.some.injEq] at hp
      subst hp
      constructor
      · exact sync_set h h2 rfl (fun j hj => set_ne _ _ hj) (.inl (set_same _ _ _)) h.closed (fun _ => ⟨i, by simp⟩) (Nat.le_refl _) False.elim
      · intro _
        refine less' (i := i) (by omega) (fun j hj => set_ne _ _ hj) (fun j hj => set_get hj) (fun j hj => rfl) (wire0 _ rfl rfl) ?_
        simp only [stage, h1, h2, set_same, rank]
        omega
  | send i =>
    simp only [act] at hs
    split at hs <;> cases hs
    rename_i q c h1 h2
    have hi := lt_of_get h2
    have hc := holder_open hI.pool h2
    constructor
    · refine ⟨h.len, fun j => ?_, fun j hj => ?_, h.closed, hbn, h.some_⟩
      · by_cases e : j = i
        · subst e; simp only [set_same, h2]; exact fun x => by cases x
        · simp only [set_ne _ _ e]; exact h.job j
      · simp only [set_ne _ _ (by omega : j ≠ i)]; exact h.todo j hj
    · intro _
      have w2 : wireWork { s with job := set s.job i (.sent q), pend := if (s.conn c).up then set s.pend c (some (sent q)) else s.pend, log := s.log ++ [.send i c q] } ≤ wireWork s + 1 := by
        have := sumTo_change (f := fun c => if (s.pend c).isSome then 1 else 0)
          (g := fun d => if ((if (s.conn c).up then set s.pend c (some (sent q)) else s.pend) d).isSome then 1 else 0) hc.1
          (fun j hj => by split <;> simp [set_ne _ _ hj])
        have hle : (if ((if (s.conn c).up then set s.pend c (some (sent q)) else s.pend) c).isSome then 1 else 0) ≤ 1 := by
          generalize (Option.isSome _) = b
          cases b <;> decide
        simp only [wireWork]
        omega
      refine less (i := i) (by omega) (fun j hj => set_ne _ _ hj) (fun _ _ => rfl) (fun j hj => rfl) w2 ?_
      simp only [stage, set_same, h1, h2, rank]
      omega
  | run c cut =>
    simp only [act] at hs
    split at hs <;> cases hs
    rename_i line rest hb
    obtain ⟨b, hpb, _⟩ := Option.bind_eq_some_iff.1 hb
    refine ⟨⟨h.len, h.job, h.todo, h.closed, hbn, h.some_⟩, fun _ => ?_⟩
    have hc := pend_open hI (c := c) (by rw [hpb]; rfl)
    have := sumTo_change (f := fun c => if (s.pend c).isSome then 1 else 0) (g := fun d => if (set s.pend c none d).isSome then 1 else 0) hc.1
      (fun j hj => by simp only [set_ne _ _ hj])
    simp only [set_same, hpb, Option.isSome_some, Option.isSome_none, if_true, Bool.false_eq_true, if_false] at this
    have e : threadWork n { s with srv := (serve s.srv (s.conn c).login s.now line).1, pend := set s.pend c none, conn := set s.conn c ⟨(serve s.srv (s.conn c).login s.now line).2.1, if (s.conn c).up then ⟨(s.conn c).rd.buf, (s.conn c).rd.net ++ cut (ser (serve s.srv (s.conn c).login s.now line).2.2)⟩ else (s.conn c).rd, (s.conn c).up⟩, log := s.log ++ [.run c s.now line (serve s.srv (s.conn c).login s.now line).2.2] } = threadWork n s := rfl
    simp only [weight, e, wireWork]
    omega
  | recv i =>
    simp only [act] at hs
    split at hs
    case h_2 => cases hs
    rename_i q c h1 h2
    split at hs <;> cases hs
    have hi := lt_of_get h2
    constructor
    · refine ⟨h.len, fun j => ?_, fun j hj => ?_, h.closed, h.broken, h.some_⟩
      · by_cases e : j = i
        · subst e; simp only [set_same, h2]; exact fun x => by cases x
        · simp only [set_ne _ _ e]; exact h.job j
      · simp only [set_ne _ _ (by omega : j ≠ i)]; exact h.todo j hj
    · intro _
      refine less' (i := i) (by omega) (fun j hj => set_ne _ _ hj) (fun _ _ => rfl) (fun j hj => rfl) (wire0 _ rfl rfl) ?_
      simp only [stage, set_same, h1]
      omega
  | put i =>
    simp only [act] at hs
    split at hs
    case h_2 => cases hs
    rename_i q r c h1 h2
    obtain ⟨p, hp, rfl⟩ := Option.map_eq_some_iff.1 hs
    have hi := lt_of_get h2
    simp only [Pool.move, h2, Pool.go] at hp
    split at hp <;> cases hp
    constructor
    · exact sync_set h h2 rfl (fun j hj => set_ne _ _ hj) (.inl (set_same _ _ _)) h.closed hbn (Nat.le_refl _) False.elim
    · intro _
      refine less' (i := i) (by omega) (fun j hj => set_ne _ _ hj) (fun j hj => set_get hj) (fun j hj => rfl) (wire0 _ rfl rfl) ?_
      simp only [stage, set_same, h1]
      omega

/-- A goroutine that has not finished. -/
def Unfinished (s : Sys) (i : Nat) : Prop := s.todo i ≠ [] ∨ s.job i ≠ .none

theorem wsum_none (f : Pool.PC → Nat) {l : List Pool.PC} (h : ∀ (i : Nat) p, l[i]? = some p → f p = 0) : Pool.wsum f l = 0 := by
  rcases Nat.eq_zero_or_pos (Pool.wsum f l) with h0 | h0
  · exact h0
  · obtain ⟨i, p, h1, h2⟩ := Pool.wsum_pos f h0
    have := h i p h1
    omega

/-- While a goroutine has not finished, somebody can move, if no dial failed before. -/
theorem can_move {n : Nat} {srv : Server} {t : Int} {s : Sys} (hcap : 0 < cap) (hI : Inv bad o cap srv t s) (h : Sync n s)
    (hb : s.pool.broken = false) {i : Nat} (hi : i < n) (hu : Unfinished s i) :
    ∃ a, a.Work ∧ (∀ i cut, a ≠ .dial i false cut) ∧ (act bad o cap s a).isSome := by
  have hP := hI.pool
  -- somebody holds a connection
  by_cases hhold : ∃ (j c : Nat), s.pool.thr[j]? = some (.holding c)
  · obtain ⟨j, c, hj⟩ := hhold
    have hjob := h.job j
    rw [hj] at hjob
    cases hJ : s.job j with
    | none => exact absurd hJ hjob
    | want q => exact ⟨.send j, trivial, by simp, by simp [act, hJ, hj]⟩
    | sent q =>
      by_cases hw : (s.conn c).up ∧ (s.pend c).isSome
      · obtain ⟨_, x, hx⟩ := pend_open hI hw.2
        refine ⟨.run c (fun b => [b]), trivial, by simp, ?_⟩
        have := C47_binary_safe (args x) []
        rw [List.append_nil] at this
        have e : (s.pend c).bind specCommand = some (args x, []) := by rw [hx]; exact this
        simp [act, e]
      · exact ⟨.recv j, trivial, by simp, by simp only [act, hJ, hj]; rw [if_neg hw]; rfl⟩
    | got q r =>
      refine ⟨.put j, trivial, by simp, ?_⟩
      have h1 := Pool.wsum_ge Pool.heldW hj
      simp only [Pool.heldW] at h1
      have := hP.size
      have := hP.room
      have hlt : s.pool.chan.length < cap := by omega
      simp [act, hJ, hj, Pool.move, Pool.go, hlt]
  -- somebody is inside the lock
  by_cases hcrit : ∃ (j : Nat) (p : Pool.PC), s.pool.thr[j]? = some p ∧ 0 < Pool.critW p + Pool.freshW p
  · obtain ⟨j, p, hj, hp⟩ := hcrit
    have hjob := h.job j
    rw [hj] at hjob
    cases p with
    | locked =>
      obtain ⟨q, hJ⟩ := hjob
      by_cases hsz : s.pool.size < cap
      · refine ⟨.dial j true (fun b => [b]), trivial, by simp, ?_⟩
        simp only [act, hJ, hj, hsz, if_true]
        split <;> simp [Pool.move, Pool.go, hj, hsz]
      · exact ⟨.get j, trivial, by simp, by simp [act, hJ, hj, hsz, Pool.move, Pool.go]⟩
    | created c => obtain ⟨q, hJ⟩ := hjob; exact ⟨.get j, trivial, by simp, by simp [act, hJ, hj, Pool.move, Pool.go]⟩
    | counted c =>
      obtain ⟨q, hJ⟩ := hjob
      have h1 := Pool.wsum_ge Pool.heldW hj
      simp only [Pool.heldW] at h1
      have := hP.size
      have := hP.room
      have hlt : s.pool.chan.length < cap := by omega
      exact ⟨.get j, trivial, by simp, by simp [act, hJ, hj, Pool.move, Pool.go, hlt]⟩
    | unlocking => obtain ⟨q, hJ⟩ := hjob; exact ⟨.get j, trivial, by simp, by simp [act, hJ, hj, Pool.move, Pool.go]⟩
    | idle => simp [Pool.critW, Pool.freshW] at hp
    | wantLock => simp [Pool.critW, Pool.freshW] at hp
    | waiting => simp [Pool.critW, Pool.freshW] at hp
    | holding c => simp [Pool.critW, Pool.freshW] at hp
    | closing => simp [Pool.critW, Pool.freshW] at hp
  have hc0 : Pool.wsum Pool.critW s.pool.thr = 0 := wsum_none _ (fun j p hj => by
    rcases Nat.eq_zero_or_pos (Pool.critW p) with h0 | h0
    · exact h0
    · exact absurd ⟨j, p, hj, by omega⟩ hcrit)
  have hf0 : Pool.wsum Pool.freshW s.pool.thr = 0 := wsum_none _ (fun j p hj => by
    rcases Nat.eq_zero_or_pos (Pool.freshW p) with h0 | h0
    · exact h0
    · exact absurd ⟨j, p, hj, by omega⟩ hcrit)
  have hh0 : Pool.wsum Pool.heldW s.pool.thr = 0 := wsum_none _ (fun j p hj => by
    cases p with
    | counted c => exact absurd ⟨j, _, hj, by simp [Pool.critW, Pool.freshW]⟩ hcrit
    | holding c => exact absurd ⟨j, c, hj⟩ hhold
    | _ => rfl)
  have hlock : s.pool.lock = false := by
    have := hP.mutex
    rw [hc0, hf0, hb] at this
    cases hl : s.pool.lock with
    | false => rfl
    | true => rw [hl] at this; simp [Pool.bit] at this
  -- where the unfinished goroutine is
  have hlt : i < s.pool.thr.length := by rw [h.len]; exact hi
  have hp := List.getElem?_eq_getElem hlt
  have hjob := h.job i
  rw [hp] at hjob
  revert hjob hp
  generalize s.pool.thr[i] = p
  intro hp hjob
  cases p with
  | idle =>
    cases hJ : s.job i with
    | none =>
      rcases hu with hu | hu
      · obtain ⟨q, rest, hq⟩ := List.exists_cons_of_ne_nil hu
        exact ⟨.call i, trivial, by simp, by simp [act, hJ, hp, hq]⟩
      · exact absurd hJ hu
    | want q =>
      refine ⟨.get i, trivial, by simp, ?_⟩
      cases hch : s.pool.chan <;> simp [act, hJ, hp, Pool.move, Pool.go, hch]
    | sent q => rw [hJ] at hjob; rcases hjob with h | ⟨_, h⟩ <;> cases h
    | got q r => rw [hJ] at hjob; rcases hjob with h | ⟨_, h⟩ <;> cases h
  | wantLock => obtain ⟨q, hJ⟩ := hjob; exact ⟨.get i, trivial, by simp, by simp [act, hJ, hp, Pool.move, Pool.go, hlock]⟩
  | waiting =>
    obtain ⟨q, hJ⟩ := hjob
    have h1 := h.some_ i _ hp trivial
    have h2 := hP.size
    rw [h.closed, hh0] at h2
    cases hch : s.pool.chan with
    | nil => rw [hch] at h2; simp at h2; omega
    | cons c cs => exact ⟨.get i, trivial, by simp, by simp [act, hJ, hp, Pool.move, Pool.go, hch]⟩
  | locked => exact absurd ⟨i, _, hp, by simp [Pool.critW, Pool.freshW]⟩ hcrit
  | created c => exact absurd ⟨i, _, hp, by simp [Pool.critW, Pool.freshW]⟩ hcrit
  | counted c => exact absurd ⟨i, _, hp, by simp [Pool.critW, Pool.freshW]⟩ hcrit
  | unlocking => exact absurd ⟨i, _, hp, by simp [Pool.critW, Pool.freshW]⟩ hcrit
  | holding c => exact absurd ⟨i, c, hp⟩ hhold
  | closing => exact hjob.elim

theorem sync_runs {n : Nat} {srv : Server} {t : Int} {calls : Nat → List Req} {s : Sys} (hcap : 0 < cap)
    (h : Runs bad o cap Carried (Sys.init n srv t calls) s) : Sync n s := by
  induction h with
  | refl => exact sync_init n srv t calls
  | snoc h1 ha hs ih => exact (sync_act hcap (inv_runs h1) ih hs).1

/-- Runs with the number of moves that are work. -/
inductive Counted (bad : Bytes → F64) (o : Opt) (cap : Nat) (P : Cut → Msg → Prop) (s : Sys) : Nat → Sys → Prop
  | refl : Counted bad o cap P s 0 s
  | work {k a s' s''} : Counted bad o cap P s k s' → a.Work → Allowed P s' a → act bad o cap s' a = some s'' → Counted bad o cap P s (k + 1) s''
  | other {k a s' s''} : Counted bad o cap P s k s' → ¬ a.Work → Allowed P s' a → act bad o cap s' a = some s'' → Counted bad o cap P s k s''

theorem Counted.runs {P : Cut → Msg → Prop} {s s' : Sys} {k : Nat} (h : Counted bad o cap P s k s') : Runs bad o cap P s s' := by
  induction h with
  | refl => exact .refl
  | work _ _ ha hs ih => exact .snoc ih ha hs
  | other _ _ ha hs ih => exact .snoc ih ha hs

theorem weight_other {n : Nat} {s s' : Sys} {a : Act} (ha : ¬ a.Work) (hs : act bad o cap s a = some s') : weight n s' = weight n s := by
  cases a with
  | tick d => simp only [act, Option.some.injEq] at hs; subst hs; rfl
  | drop c lose => simp only [act] at hs; split at hs <;> cases hs; rfl
  | _ => exact absurd trivial ha

theorem counted_weight {n : Nat} {srv : Server} {t : Int} {calls : Nat → List Req} {s : Sys} {k : Nat} (hcap : 0 < cap)
    (h : Counted bad o cap Carried (Sys.init n srv t calls) k s) : k + weight n s ≤ weight n (Sys.init n srv t calls) := by
  induction h with
  | refl => omega
  | work h1 hw ha hs ih =>
    have := (sync_act hcap (inv_runs h1.runs) (sync_runs hcap h1.runs) hs).2 hw
    omega
  | other h1 hw ha hs ih => rw [weight_other hw hs]; exact ih

theorem weight_init (n : Nat) (srv : Server) (t : Int) (calls : Nat → List Req) :
    weight n (Sys.init n srv t calls) = 13 * sumTo (fun i => (calls i).length) n := by
  have h : ∀ n, sumTo (fun i => 13 * (calls i).length + 0) n = 13 * sumTo (fun i => (calls i).length) n := by
    intro n
    induction n with
    | zero => rfl
    | succ n ih => simp only [sumTo, ih]; omega
  simp only [weight, threadWork, wireWork, Sys.init, stage, Pool.State.init, sumTo, h]
  rfl

end Verif.Client.Many

import Verif.Client.Many
/-!
# The invariant of many goroutines on one client
-/
namespace Verif.Client.Many
open Verif.Resp Verif.Client

variable {bad : Bytes → F64} {o : Opt} {cap : Nat}

theorem holder_unique {p : Pool.State} (h : Pool.Inv cap p) {i j : Nat} {c : Nat} (hi : p.thr[i]? = some (.holding c))
    (hj : p.thr[j]? = some (.holding c)) : i = j := by
  have hinv := h.each c
  have hb : Pool.below c p.opened ≤ 1 := by unfold Pool.below; split <;> omega
  refine Classical.byContradiction (fun hne => ?_)
  have h2 := Pool.wsum_pair (Pool.has c) hne hi hj
  simp only [Pool.has, if_true] at h2
  omega

theorem holder_open {p : Pool.State} (h : Pool.Inv cap p) {i : Nat} {c : Nat} (hi : p.thr[i]? = some (.holding c)) :
    c < p.opened ∧ c ∉ p.leaked := by
  have hinv := h.each c
  have h1 := Pool.wsum_ge (Pool.has c) hi
  simp only [Pool.has, if_true] at h1
  unfold Pool.below at hinv
  split at hinv
  · refine ⟨by assumption, fun hm => ?_⟩
    have := List.count_pos_iff.mpr hm
    omega
  · omega

theorem set_get {p : List Pool.PC} {i j : Nat} {a : Pool.PC} (h : j ≠ i) : (p.set i a)[j]? = p[j]? := by
  rw [List.getElem?_set]
  simp [Ne.symm h]

theorem set_at {p : List Pool.PC} {i : Nat} {a b : Pool.PC} (h : (p.set i a)[i]? = some b) : b = a := by
  rw [List.getElem?_set] at h
  simp at h
  exact h.2.symm

/-- What a move of `Get` other than the dial does. -/
theorem get_move {p t : Pool.State} {i : Nat} {a : Pool.PC} (ha : p.thr[i]? = some a) (hh : ∀ c, a ≠ .holding c)
    (hl : a = .locked → cap ≤ p.size) (h : Pool.move cap (Pool.go i) p = some t) :
    t.opened = p.opened ∧ t.leaked = p.leaked ∧ ∀ j, j ≠ i → t.thr[j]? = p.thr[j]? := by
  simp only [Pool.move, ha, Pool.go, Bool.false_eq_true, if_false] at h
  cases a with
  | holding c => exact absurd rfl (hh c)
  | locked =>
    have := hl rfl
    rw [if_neg (Nat.not_lt.2 this)] at h
    cases h
    exact ⟨rfl, rfl, fun j hj => set_get hj⟩
  | idle => simp only at h; split at h <;> (cases h; exact ⟨rfl, rfl, fun j hj => set_get hj⟩)
  | wantLock => simp only at h; split at h <;> cases h; exact ⟨rfl, rfl, fun j hj => set_get hj⟩
  | created c => cases h; exact ⟨rfl, rfl, fun j hj => set_get hj⟩
  | counted c => simp only at h; split at h <;> cases h; exact ⟨rfl, rfl, fun j hj => set_get hj⟩
  | unlocking => cases h; exact ⟨rfl, rfl, fun j hj => set_get hj⟩
  | waiting => simp only at h; split at h <;> cases h; exact ⟨rfl, rfl, fun j hj => set_get hj⟩
  | closing => simp only at h; split at h <;> cases h; exact ⟨rfl, rfl, fun j hj => rfl⟩

/-- Goroutine `i` has connection `c` and its call is at `j`. -/
def AtIt (s : Sys) (c i : Nat) (j : Job) : Prop := s.pool.thr[i]? = some (.holding c) ∧ s.job i = j

/-- Whoever has connection `c` has not sent yet. -/
def Rest (s : Sys) (c : Nat) : Prop := ∀ i, s.pool.thr[i]? = some (.holding c) → ∃ q, s.job i = .want q

/-- The reader is about to deliver exactly the message `m`. -/
def Has (m : Msg) (r : Rd) : Prop := ∃ r', readMessage r = (.ok m, r') ∧ Rd.Quiet r'

/-- The system is, for connection `c`, where the events say it is. -/
def Fit (s : Sys) (c : Nat) : Line → Prop
  | .free => Rest s c ∧ s.pend c = none ∧ (s.conn c).Ready
  | .sent i q => AtIt s c i (.sent q) ∧ s.pend c = some (sent q) ∧ (s.conn c).Ready
  | .ran i q m => s.pend c = none ∧ (s.conn c).up = true ∧
      (AtIt s c i (.sent q) ∧ Has m (s.conn c).rd ∨ AtIt s c i (.got q (.ok m)) ∧ Rd.Quiet (s.conn c).rd)
  | .lost p none m => m = none ∧ (s.conn c).up = false ∧ s.pend c = p.map sent ∧ Rest s c ∧ Rd.Quiet (s.conn c).rd
  | .lost p (some (i, q)) none => (s.conn c).up = false ∧ s.pend c = p.map sent ∧ Rd.Quiet (s.conn c).rd ∧
      (AtIt s c i (.sent q) ∨ AtIt s c i (.got q (.err .eof)))
  | .lost p (some (i, q)) (some m) => (s.conn c).up = false ∧ s.pend c = p.map sent ∧
      (AtIt s c i (.sent q) ∧ Has m (s.conn c).rd ∨ AtIt s c i (.got q (.ok m)) ∧ Rd.Quiet (s.conn c).rd)

/-- A job that is under way on a connection. -/
def Job.Out : Job → Prop
  | .sent _ | .got _ _ => True
  | _ => False

theorem fit_frame {s s' : Sys} {c : Nat} {l : Line} (h : Fit s c l) (hc : s'.conn c = s.conn c) (hp : s'.pend c = s.pend c)
    (ha : ∀ i j, j.Out → AtIt s c i j → AtIt s' c i j) (hr : Rest s c → Rest s' c) : Fit s' c l := by
  have h1 : ∀ i q, AtIt s c i (.sent q) → AtIt s' c i (.sent q) := fun i q => ha i _ trivial
  have h2 : ∀ i q r, AtIt s c i (.got q r) → AtIt s' c i (.got q r) := fun i q r => ha i _ trivial
  match l with
  | .free => exact ⟨hr h.1, hp.trans h.2.1, hc ▸ h.2.2⟩
  | .sent i q => exact ⟨h1 _ _ h.1, hp.trans h.2.1, hc ▸ h.2.2⟩
  | .ran i q m =>
    simp only [Fit, hc, hp] at h ⊢
    exact ⟨h.1, h.2.1, h.2.2.imp (fun x => ⟨h1 _ _ x.1, x.2⟩) (fun x => ⟨h2 _ _ _ x.1, x.2⟩)⟩
  | .lost p none m =>
    simp only [Fit, hc, hp] at h ⊢
    exact ⟨h.1, h.2.1, h.2.2.1, hr h.2.2.2.1, h.2.2.2.2⟩
  | .lost p (some (i, q)) none =>
    simp only [Fit, hc, hp] at h ⊢
    exact ⟨h.1, h.2.1, h.2.2.1, h.2.2.2.imp (h1 _ _) (h2 _ _ _)⟩
  | .lost p (some (i, q)) (some m) =>
    simp only [Fit, hc, hp] at h ⊢
    exact ⟨h.1, h.2.1, h.2.2.imp (fun x => ⟨h1 _ _ x.1, x.2⟩) (fun x => ⟨h2 _ _ _ x.1, x.2⟩)⟩

/-- The system is, for goroutine `i`, where the events say it is. -/
def TFit (s : Sys) (i : Nat) : Turn → Prop
  | .idle => s.job i = .none
  | .called q => s.job i = .want q
  | .sentOn c q => AtIt s c i (.sent q) ∨ ∃ r, AtIt s c i (.got q r)

/-- The invariant. -/
structure Inv (bad : Bytes → F64) (o : Opt) (cap : Nat) (srv : Server) (t : Int) (s : Sys) : Prop where
  pool : Pool.Inv cap s.pool
  fresh : ∀ c, s.pool.opened ≤ c → s.conn c = Conn.fresh
  line : ∀ c, ∃ l, Path (Line.Next bad) .free (s.log.filter (onConn c)) l ∧ Fit s c l ∧ (l = .free ∨ c < s.pool.opened ∧ c ∉ s.pool.leaked)
  turn : ∀ i, ∃ u, Path Turn.Next .idle (s.log.filter (byThread i)) u ∧ TFit s i u
  served : ∃ ls u, Served srv (fun _ => wanted o) t s.log s.srv ls u ∧ u ≤ s.now ∧
    ∀ c, (c < s.pool.opened → c ∉ s.pool.leaked → (s.conn c).login = ls c) ∧ (s.pool.opened ≤ c → ls c = wanted o)

theorem inv_init (n : Nat) (srv : Server) (t : Int) (calls : Nat → List Req) : Inv bad o cap srv t (Sys.init n srv t calls) where
  pool := Pool.inv_init cap n
  fresh := fun _ _ => rfl
  line := fun c => ⟨.free, .nil _, ⟨(fun i h => by
    simp only [Sys.init, Pool.State.init] at h
    rw [List.getElem?_replicate] at h
    split at h <;> cases h), rfl, fresh_ready⟩, .inl rfl⟩
  turn := fun i => ⟨.idle, .nil _, rfl⟩
  served := ⟨_, t, .nil _ _ _, Int.le_refl _, fun c => ⟨fun h => by simp [Sys.init, Pool.State.init] at h, fun _ => rfl⟩⟩

theorem path_snoc {σ : Type} {next : σ → Event → σ → Prop} {a b c : σ} {L : List Event} {P : Event → Bool} {e : Event}
    (h : Path next a (L.filter P) b) (he : P e = true) (hn : next b e c) : Path next a ((L ++ [e]).filter P) c := by
  rw [List.filter_append, List.filter_cons_of_pos he]
  exact .snoc h hn

theorem path_skip {σ : Type} {next : σ → Event → σ → Prop} {a b : σ} {L : List Event} {P : Event → Bool} {e : Event}
    (h : Path next a (L.filter P) b) (he : P e = false) : Path next a ((L ++ [e]).filter P) b := by
  rw [List.filter_append, List.filter_cons_of_neg (by simp [he]), List.filter_nil, List.append_nil]
  exact h

/-- A goroutine that is not concerned. -/
theorem turn_frame {s s' : Sys} {i : Nat} {u : Turn} (h : TFit s i u) (hj : s'.job i = s.job i)
    (hp : ∀ c, s.pool.thr[i]? = some (.holding c) → s'.pool.thr[i]? = some (.holding c)) : TFit s' i u := by
  cases u with
  | idle => exact hj.trans h
  | called q => exact hj.trans h
  | sentOn c q =>
    rcases h with ⟨h1, h2⟩ | ⟨r, h1, h2⟩
    · exact .inl ⟨hp _ h1, hj.trans h2⟩
    · exact .inr ⟨r, hp _ h1, hj.trans h2⟩

/-- Who holds a connection with a call under way is the one the events name. -/
theorem fit_sent {s : Sys} (hp : Pool.Inv cap s.pool) {c i : Nat} {q : Req} {l : Line} (h : Fit s c l) (ha : AtIt s c i (.sent q)) :
    l = .sent i q ∨ (∃ m, l = .ran i q m ∧ Has m (s.conn c).rd) ∨ (∃ p, l = .lost p (some (i, q)) none) ∨
    ∃ p m, l = .lost p (some (i, q)) (some m) ∧ Has m (s.conn c).rd := by
  have key : ∀ {j J}, AtIt s c j J → j = i ∧ J = .sent q := by
    intro j J hj
    have := holder_unique hp hj.1 ha.1
    subst this
    exact ⟨rfl, hj.2.symm.trans ha.2⟩
  match l, h with
  | .free, h => obtain ⟨x, hx⟩ := h.1 i ha.1; rw [ha.2] at hx; cases hx
  | .sent j x, h => obtain ⟨rfl, e⟩ := key h.1; cases e; exact .inl rfl
  | .ran j x m, h =>
    rcases h.2.2 with ⟨h1, h2⟩ | ⟨h1, h2⟩
    · obtain ⟨rfl, e⟩ := key h1; cases e; exact .inr (.inl ⟨m, rfl, h2⟩)
    · obtain ⟨_, e⟩ := key h1; cases e
  | .lost p none m, h => obtain ⟨x, hx⟩ := h.2.2.2.1 i ha.1; rw [ha.2] at hx; cases hx
  | .lost p (some (j, x)) none, h =>
    rcases h.2.2.2 with h1 | h1
    · obtain ⟨rfl, e⟩ := key h1; cases e; exact .inr (.inr (.inl ⟨p, rfl⟩))
    · obtain ⟨_, e⟩ := key h1; cases e
  | .lost p (some (j, x)) (some m), h =>
    rcases h.2.2 with ⟨h1, h2⟩ | ⟨h1, h2⟩
    · obtain ⟨rfl, e⟩ := key h1; cases e; exact .inr (.inr (.inr ⟨p, m, rfl, h2⟩))
    · obtain ⟨_, e⟩ := key h1; cases e

theorem fit_got {s : Sys} (hp : Pool.Inv cap s.pool) {c i : Nat} {q : Req} {r : RRes Msg} {l : Line} (h : Fit s c l)
    (ha : AtIt s c i (.got q r)) :
    (∃ m, l = .ran i q m ∧ r = .ok m ∧ Rd.Quiet (s.conn c).rd) ∨ (∃ p, l = .lost p (some (i, q)) none ∧ r = .err .eof) ∨
    ∃ p m, l = .lost p (some (i, q)) (some m) ∧ r = .ok m ∧ Rd.Quiet (s.conn c).rd := by
  have key : ∀ {j J}, AtIt s c j J → j = i ∧ J = .got q r := by
    intro j J hj
    have := holder_unique hp hj.1 ha.1
    subst this
    exact ⟨rfl, hj.2.symm.trans ha.2⟩
  match l, h with
  | .free, h => obtain ⟨x, hx⟩ := h.1 i ha.1; rw [ha.2] at hx; cases hx
  | .sent j x, h => obtain ⟨_, e⟩ := key h.1; cases e
  | .ran j x m, h =>
    rcases h.2.2 with ⟨h1, h2⟩ | ⟨h1, h2⟩
    · obtain ⟨_, e⟩ := key h1; cases e
    · obtain ⟨rfl, e⟩ := key h1; cases e; exact .inl ⟨m, rfl, rfl, h2⟩
  | .lost p none m, h => obtain ⟨x, hx⟩ := h.2.2.2.1 i ha.1; rw [ha.2] at hx; cases hx
  | .lost p (some (j, x)) none, h =>
    rcases h.2.2.2 with h1 | h1
    · obtain ⟨_, e⟩ := key h1; cases e
    · obtain ⟨rfl, e⟩ := key h1; cases e; exact .inr (.inl ⟨p, rfl, rfl⟩)
  | .lost p (some (j, x)) (some m), h =>
    rcases h.2.2 with ⟨h1, h2⟩ | ⟨h1, h2⟩
    · obtain ⟨_, e⟩ := key h1; cases e
    · obtain ⟨rfl, e⟩ := key h1; cases e; exact .inr (.inr ⟨p, m, rfl, rfl, h2⟩)

theorem fit_want {s : Sys} (hp : Pool.Inv cap s.pool) {c i : Nat} {q : Req} {l : Line} (h : Fit s c l) (ha : AtIt s c i (.want q)) :
    l = .free ∨ ∃ p, l = .lost p none none := by
  have key : ∀ {j J}, J.Out → AtIt s c j J → False := by
    intro j J hJ hj
    have := holder_unique hp hj.1 ha.1
    subst this
    have := hj.2.symm.trans ha.2
    subst this
    exact hJ
  match l, h with
  | .free, _ => exact .inl rfl
  | .sent j x, h => exact (key (by trivial) h.1).elim
  | .ran j x m, h => rcases h.2.2 with ⟨h1, h2⟩ | ⟨h1, h2⟩ <;> exact (key (by trivial) h1).elim
  | .lost p none m, h => obtain ⟨rfl, _⟩ := h; exact .inr ⟨p, rfl⟩
  | .lost p (some (j, x)) none, h => rcases h.2.2.2 with h1 | h1 <;> exact (key (by trivial) h1).elim
  | .lost p (some (j, x)) (some m), h => rcases h.2.2 with ⟨h1, h2⟩ | ⟨h1, h2⟩ <;> exact (key (by trivial) h1).elim

theorem served_skip {srv : Server} {ls0 ls : Nat → Login} {t u : Int} {L : List Event} {s : Server} (h : Served srv ls0 t L s ls u) {e : Event}
    (he : ∀ c u line m, e ≠ .run c u line m) : Served srv ls0 t (L ++ [e]) s ls u := .skip e h he

/-- The handshake arrives in order, and replies on connections that are up arrive so that they can be read. -/
def Clear (s : Sys) : Act → Prop
  | .dial _ _ cut => cut.Faithful
  | .run c cut => (s.conn c).up = true → ∀ line rest, (s.pend c).bind specCommand = some (line, rest) →
      Carried cut (serve s.srv (s.conn c).login s.now line).2.2
  | _ => True

/-- Every move keeps the invariant, if replies arrive so that they can be read. -/
theorem inv_clear {srv : Server} {t : Int} {s s' : Sys} {a : Act} (h : Inv bad o cap srv t s) (ha : Clear s a)
    (hs : act bad o cap s a = some s') : Inv bad o cap srv t s' := by
  obtain ⟨hP, hF, hL, hT, ls, u, hS, hu, hls⟩ := h
  cases a with
  | tick d =>
    simp only [act, Option.some.injEq] at hs
    subst hs
    exact ⟨hP, hF, fun c => by obtain ⟨l, h1, h2, h3⟩ := hL c; exact ⟨l, h1, fit_frame h2 rfl rfl (fun _ _ _ h => h) id, h3⟩,
      fun i => by obtain ⟨v, h1, h2⟩ := hT i; exact ⟨v, h1, turn_frame h2 rfl (fun _ h => h)⟩,
      ls, u, hS, by simp only; omega, hls⟩
  | call i =>
    simp only [act] at hs
    split at hs <;> cases hs
    rename_i q rest h1 h2 h3
    have hne : ∀ j c, s.pool.thr[j]? = some (.holding c) → j ≠ i := by
      rintro j c hj rfl; rw [h3] at hj; cases hj
    refine ⟨hP, hF, fun c => ?_, fun j => ?_, ls, u, served_skip hS (by simp), hu, hls⟩
    · obtain ⟨l, e1, e2, e3⟩ := hL c
      refine ⟨l, path_skip e1 rfl, fit_frame e2 rfl rfl (fun j J _ hj => ⟨hj.1, ?_⟩) (fun hr j hj => ?_), e3⟩
      · exact (set_ne _ _ (hne j c hj.1)).trans hj.2
      · obtain ⟨x, hx⟩ := hr j hj
        exact ⟨x, (set_ne _ _ (hne j c hj)).trans hx⟩
    · obtain ⟨v, e1, e2⟩ := hT j
      by_cases e : j = i
      · subst e
        cases v with
        | idle => exact ⟨.called q, path_snoc e1 (by simp [byThread]) (.inv j q), set_same _ _ _⟩
        | called x => rw [show s.job j = _ from e2] at h2; cases h2
        | sentOn c x => rcases e2 with ⟨_, e2⟩ | ⟨r, _, e2⟩ <;> (rw [e2] at h2; cases h2)
      · exact ⟨v, path_skip e1 (by simpa [byThread] using Ne.symm e), turn_frame e2 (set_ne _ _ e) (fun _ h => h)⟩
  | get i =>
    have key : ∃ a q p, s.pool.thr[i]? = some a ∧ s.job i = .want q ∧ (∀ c, a ≠ .holding c) ∧ (a = .locked → cap ≤ s.pool.size) ∧
        Pool.move cap (Pool.go i) s.pool = some p ∧ s' = { s with pool := p } := by
      simp only [act] at hs
      split at hs
      · cases hs
      · rename_i q h1 h2
        split at hs
        · cases hs
        · rename_i hc
          obtain ⟨p, hp, rfl⟩ := Option.map_eq_some_iff.1 hs
          exact ⟨_, q, p, h2, h1, by simp, fun _ => Nat.le_of_not_lt hc, hp, rfl⟩
      · rename_i q a h3 h4 h1 h2
        obtain ⟨p, hp, rfl⟩ := Option.map_eq_some_iff.1 hs
        exact ⟨a, q, p, h2, h1, (fun c e => h3 c e), (fun e => (h4 e).elim), hp, rfl⟩
      · cases hs
    obtain ⟨a, q, p, h1, h2, h3, h4, h5, rfl⟩ := key
    obtain ⟨m1, m2, m3⟩ := get_move h1 h3 h4 h5
    have hne : ∀ j c, s.pool.thr[j]? = some (.holding c) → j ≠ i := by
      rintro j c hj rfl; rw [h1] at hj; exact h3 c (by simpa using hj)
    refine ⟨Pool.inv_step hP (Pool.move_step h5), fun c hc => hF c (m1 ▸ hc), fun c => ?_, fun j => ?_, ls, u, hS, hu, fun c => ?_⟩
    · obtain ⟨l, e1, e2, e3⟩ := hL c
      refine ⟨l, e1, fit_frame e2 rfl rfl (fun j J _ hj => ⟨(m3 j (hne j c hj.1)).trans hj.1, hj.2⟩) (fun hr j hj => ?_), ?_⟩
      · by_cases e : j = i
        · subst e; exact ⟨q, h2⟩
        · exact hr j ((m3 j e).symm.trans hj)
      · simp only [m1, m2]; exact e3
    · obtain ⟨v, e1, e2⟩ := hT j
      exact ⟨v, e1, turn_frame e2 rfl (fun c hc => (m3 j (hne j c hc)).trans hc)⟩
    · simp only [m1, m2]; exact hls c
  | dial i reach cut =>
    simp only [act] at hs
    split at hs
    case h_2 => cases hs
    rename_i q h1 h2
    split at hs
    case isFalse => cases hs
    rename_i hsz
    have hne : ∀ j c, s.pool.thr[j]? = some (.holding c) → j ≠ i := by
      rintro j c hj rfl; rw [h2] at hj; cases hj
    obtain ⟨o1, o2⟩ := openConn_spec s.srv o s.now cut ha
    split at hs
    · split at hs
      · rename_i hok
        obtain ⟨p, hp, rfl⟩ := Option.map_eq_some_iff.1 hs
        have hp' := hp
        simp only [Pool.move, h2, Pool.go, Bool.false_eq_true, if_false, hsz, if_true, Option.some.injEq] at hp'
        subst hp'
        obtain ⟨o3, o4⟩ := o2 hok
        refine ⟨Pool.inv_step hP (Pool.move_step hp), fun c hc => ?_, fun c => ?_, fun j => ?_, ls, u, ?_, hu, fun c => ?_⟩
        · simp only at hc ⊢
          rw [set_ne _ _ (by omega)]
          exact hF c (by omega)
        · obtain ⟨l, e1, e2, e3⟩ := hL c
          have hrest : Rest s c → Rest { s with pool := { s.pool.at i (.created s.pool.opened) with opened := s.pool.opened + 1 }, conn := set s.conn s.pool.opened (openConn s.now cut (openCmds o) s.srv Conn.fresh).2.1, srv := (openConn s.now cut (openCmds o) s.srv Conn.fresh).1 } c := by
            intro hr j hj
            by_cases e : j = i
            · subst e; exact absurd (set_at hj) (by simp)
            · exact hr j ((set_get e).symm.trans hj)
          by_cases e : c = s.pool.opened
          · subst e
            rcases e3 with rfl | e3
            · refine ⟨.free, e1, ⟨hrest e2.1, e2.2.1, ?_⟩, .inl rfl⟩
              simp only [set_same]; exact o4
            · exact absurd e3.1 (Nat.lt_irrefl _)
          · refine ⟨l, e1, fit_frame e2 (set_ne _ _ e) rfl (fun j J _ hj => ⟨(set_get (hne j c hj.1)).trans hj.1, hj.2⟩) hrest, ?_⟩
            exact e3.imp id (fun x => ⟨Nat.lt_succ_of_lt x.1, x.2⟩)
        · obtain ⟨v, e1, e2⟩ := hT j
          exact ⟨v, e1, turn_frame e2 rfl (fun c hc => (set_get (hne j c hc)).trans hc)⟩
        · rw [o1]; exact hS
        · simp only
          refine ⟨fun hc hl => ?_, fun hc => (hls c).2 (by omega)⟩
          by_cases e : c = s.pool.opened
          · subst e; rw [set_same, o3, (hls _).2 (Nat.le_refl _)]
          · rw [set_ne _ _ e]; exact (hls c).1 (by omega) hl
      · obtain ⟨p, hp, rfl⟩ := Option.map_eq_some_iff.1 hs
        have hp' := hp
        simp only [Pool.move, h2, Bool.false_eq_true, if_false, hsz, if_true, Option.some.injEq] at hp'
        subst hp'
        refine ⟨Pool.inv_step hP (Pool.move_step hp), fun c hc => hF c (by simp only at hc; omega), fun c => ?_, fun j => ?_, ls, u, ?_, hu, fun c => ?_⟩
        · obtain ⟨l, e1, e2, e3⟩ := hL c
          refine ⟨l, path_skip e1 rfl, fit_frame e2 rfl rfl (fun j J _ hj => ⟨(set_get (hne j c hj.1)).trans hj.1, (set_ne _ _ (hne j c hj.1)).trans hj.2⟩)
            (fun hr j hj => ?_), ?_⟩
          · by_cases e : j = i
            · subst e; exact absurd (set_at hj) (by simp)
            · obtain ⟨x, hx⟩ := hr j ((set_get e).symm.trans hj)
              exact ⟨x, (set_ne _ _ e).trans hx⟩
          · refine e3.imp id (fun x => ⟨Nat.lt_succ_of_lt x.1, ?_⟩)
            simp only [List.mem_cons, not_or]
            exact ⟨fun e => absurd x.1 (by omega), x.2⟩
        · obtain ⟨v, e1, e2⟩ := hT j
          by_cases e : j = i
          · subst e
            cases v with
            | idle => rw [show s.job j = _ from e2] at h1; cases h1
            | called x => exact ⟨.idle, path_snoc e1 (by simp [byThread]) (.noConn j x), set_same _ _ _⟩
            | sentOn d x => rcases e2 with ⟨_, e2⟩ | ⟨r, _, e2⟩ <;> (rw [e2] at h1; cases h1)
          · exact ⟨v, path_skip e1 (by simpa [byThread] using Ne.symm e), turn_frame e2 (set_ne _ _ e) (fun c hc => (set_get e).trans hc)⟩
        · rw [o1]; exact served_skip hS (by simp)
        · simp only [List.mem_cons, not_or]
          exact ⟨fun hc hl => (hls c).1 (by omega) hl.2, fun hc => (hls c).2 (by omega)⟩
    · obtain ⟨p, hp, rfl⟩ := Option.map_eq_some_iff.1 hs
      have hp' := hp
      simp only [Pool.move, h2, hsz, if_true, Option.some.injEq] at hp'
      subst hp'
      refine ⟨Pool.inv_step hP (Pool.move_step hp), hF, fun c => ?_, fun j => ?_, ls, u, served_skip hS (by simp), hu, hls⟩
      · obtain ⟨l, e1, e2, e3⟩ := hL c
        refine ⟨l, path_skip e1 rfl, fit_frame e2 rfl rfl (fun j J _ hj => ⟨(set_get (hne j c hj.1)).trans hj.1, (set_ne _ _ (hne j c hj.1)).trans hj.2⟩)
          (fun hr j hj => ?_), e3⟩
        by_cases e : j = i
        · subst e; exact absurd (set_at hj) (by simp)
        · obtain ⟨x, hx⟩ := hr j ((set_get e).symm.trans hj)
          exact ⟨x, (set_ne _ _ e).trans hx⟩
      · obtain ⟨v, e1, e2⟩ := hT j
        by_cases e : j = i
        · subst e
          cases v with
          | idle => rw [show s.job j = _ from e2] at h1; cases h1
          | called x => exact ⟨.idle, path_snoc e1 (by simp [byThread]) (.noConn j x), set_same _ _ _⟩
          | sentOn d x => rcases e2 with ⟨_, e2⟩ | ⟨r, _, e2⟩ <;> (rw [e2] at h1; cases h1)
        · exact ⟨v, path_skip e1 (by simpa [byThread] using Ne.symm e), turn_frame e2 (set_ne _ _ e) (fun c hc => (set_get e).trans hc)⟩
  | send i =>
    simp only [act] at hs
    split at hs <;> cases hs
    rename_i q c h1 h2
    have hat : AtIt s c i (.want q) := ⟨h2, h1⟩
    have hc := holder_open hP h2
    have hold : ∀ d, s.pool.thr[i]? = some (.holding d) → d = c := by
      intro d hd; rw [h2] at hd; simpa using hd.symm
    refine ⟨hP, hF, fun d => ?_, fun j => ?_, ls, u, served_skip hS (by simp), hu, hls⟩
    · obtain ⟨l, e1, e2, e3⟩ := hL d
      by_cases e : d = c
      · subst e
        have hnew : AtIt { s with job := set s.job i (.sent q), pend := if (s.conn d).up then set s.pend d (some (sent q)) else s.pend, log := s.log ++ [.send i d q] } d i (.sent q) :=
          ⟨h2, set_same _ _ _⟩
        rcases fit_want hP e2 hat with rfl | ⟨p, rfl⟩
        · refine ⟨.sent i q, path_snoc e1 (by simp [onConn]) (.send i d q), ⟨hnew, ?_, e2.2.2⟩, .inr hc⟩
          simp [e2.2.2.1]
        · obtain ⟨_, f1, f2, f3, f4⟩ := e2
          refine ⟨.lost p (some (i, q)) none, path_snoc e1 (by simp [onConn]) (.lostSend i d q p), ⟨f1, ?_, f4, .inl hnew⟩, .inr hc⟩
          simpa [f1] using f2
      · refine ⟨l, path_skip e1 (by simpa [onConn] using Ne.symm e), fit_frame e2 rfl ?_ (fun j J hJ hj => ⟨hj.1, ?_⟩) (fun hr j hj => ?_), e3⟩
        · simp only; split
          · exact set_ne _ _ e
          · rfl
        · refine (set_ne _ _ (fun ej => ?_)).trans hj.2
          subst ej; exact e (hold d hj.1)
        · obtain ⟨x, hx⟩ := hr j hj
          refine ⟨x, (set_ne _ _ (fun ej => ?_)).trans hx⟩
          subst ej; exact e (hold d hj)
    · obtain ⟨v, e1, e2⟩ := hT j
      by_cases e : j = i
      · subst e
        cases v with
        | idle => rw [show s.job j = _ from e2] at h1; cases h1
        | called x =>
          have : x = q := by have := (show s.job j = _ from e2).symm.trans h1; cases this; rfl
          subst this
          exact ⟨.sentOn c x, path_snoc e1 (by simp [byThread]) (.send j c x), .inl ⟨h2, set_same _ _ _⟩⟩
        | sentOn d x => rcases e2 with ⟨_, e2⟩ | ⟨r, _, e2⟩ <;> (rw [e2] at h1; cases h1)
      · exact ⟨v, path_skip e1 (by simpa [byThread] using Ne.symm e), turn_frame e2 (set_ne _ _ e) (fun _ h => h)⟩
  | run c cut =>
    simp only [act] at hs
    split at hs <;> cases hs
    rename_i line rest hb
    have hcar := fun hu => ha hu line rest hb
    obtain ⟨b, hpb, hsp⟩ := Option.bind_eq_some_iff.1 hb
    obtain ⟨l, e1, e2, e3⟩ := hL c
    have hq : ∀ q, s.pend c = some (sent q) → line = args q := by
      intro q hpq
      rw [hpb] at hpq
      cases hpq
      have := C47_binary_safe (args q) []
      rw [List.append_nil] at this
      rw [show specCommand (sent q) = _ from this] at hsp
      cases hsp; rfl
    have hopen : c < s.pool.opened ∧ c ∉ s.pool.leaked := by
      rcases e3 with rfl | e3
      · rw [e2.2.1] at hpb; cases hpb
      · exact e3
    have hlog := (hls c).1 hopen.1 hopen.2
    refine ⟨hP, fun d hd => ?_, fun d => ?_, fun j => ?_, 
      set ls c (serve s.srv (s.conn c).login s.now line).2.1, s.now, ?_, Int.le_refl _, fun d => ?_⟩
    · simp only; rw [set_ne _ _ (by have := hopen.1; simp only at hd; omega)]; exact hF d hd
    · by_cases e : d = c
      · subst e
        match l, e1, e2, e3 with
        | .free, e1, e2, e3 => rw [e2.2.1] at hpb; cases hpb
        | .sent i q, e1, e2, e3 =>
          have hl := hq q e2.2.1
          subst hl
          refine ⟨.ran i q _, path_snoc e1 (by simp [onConn]) (.run i d s.now q _), ⟨set_same _ _ _, ?_, .inl ⟨e2.1, ?_⟩⟩, .inr hopen⟩
          · simp [e2.2.2.1]
          · simp only [set_same, e2.2.2.1, if_true]
            exact read_quiet e2.2.2.2 (hcar e2.2.2.1)
        | .ran i q m, e1, e2, e3 => rw [e2.1] at hpb; cases hpb
        | .lost none cur m, e1, e2, e3 =>
          exfalso
          have : s.pend d = none := by
            match cur, m, e2 with
            | none, _, e2 => exact e2.2.2.1
            | some (_, _), none, e2 => exact e2.2.1
            | some (_, _), some _, e2 => exact e2.2.1
          rw [this] at hpb; cases hpb
        | .lost (some q) cur m, e1, e2, e3 =>
          have hpq : s.pend d = some (sent q) := by
            match cur, m, e2 with
            | none, _, e2 => exact e2.2.2.1
            | some (_, _), none, e2 => exact e2.2.1
            | some (_, _), some _, e2 => exact e2.2.1
          have hl := hq q hpq
          subst hl
          refine ⟨.lost none cur m, path_snoc e1 (by simp [onConn]) (.late d s.now q cur _ m), ?_, .inr hopen⟩
          match cur, m, e2 with
          | none, m, ⟨f0, f1, f2, f3, f4⟩ =>
            refine ⟨f0, by simp [f1], set_same _ _ _, f3, ?_⟩
            simpa [f1] using f4
          | some (i, x), none, ⟨f1, f2, f3, f4⟩ =>
            refine ⟨by simp [f1], set_same _ _ _, ?_, f4⟩
            simpa [f1] using f3
          | some (i, x), some m, ⟨f1, f2, f3⟩ =>
            refine ⟨by simp [f1], set_same _ _ _, ?_⟩
            simp only [set_same, f1, Bool.false_eq_true, if_false]
            exact f3
      · obtain ⟨l, e1, e2, e3⟩ := hL d
        exact ⟨l, path_skip e1 (by simpa [onConn] using Ne.symm e), fit_frame e2 (set_ne _ _ e) (set_ne _ _ e) (fun _ _ _ h => h) id, e3⟩
    · obtain ⟨v, f1, f2⟩ := hT j
      exact ⟨v, path_skip f1 rfl, turn_frame f2 rfl (fun _ h => h)⟩
    · have := Served.run c s.now line hS hu
      rw [← hlog] at this
      exact this
    · refine ⟨fun h1 h2 => ?_, fun h1 => ?_⟩
      · by_cases e : d = c
        · subst e; simp
        · simp only [set_ne _ _ e]; exact (hls d).1 h1 h2
      · have : d ≠ c := by have := hopen.1; simp only at h1; omega
        simp only [set_ne _ _ this]; exact (hls d).2 h1
  | recv i =>
    simp only [act] at hs
    split at hs
    case h_2 => cases hs
    rename_i q c h1 h2
    split at hs <;> cases hs
    rename_i hblk
    have hat : AtIt s c i (.sent q) := ⟨h2, h1⟩
    have hc := holder_open hP h2
    have hold : ∀ d, s.pool.thr[i]? = some (.holding d) → d = c := by
      intro d hd; rw [h2] at hd; simpa using hd.symm
    refine ⟨hP, fun d hd => ?_, fun d => ?_, fun j => ?_, ls, u, hS, hu, fun d => ?_⟩
    · simp only; rw [set_ne _ _ (by have := hc.1; simp only at hd; omega)]; exact hF d hd
    · obtain ⟨l, e1, e2, e3⟩ := hL d
      by_cases e : d = c
      · subst e
        have hnew : ∀ x : RRes Msg × Rd, x = readMessage (s.conn d).rd →
            AtIt { s with job := set s.job i (.got q (readMessage (s.conn d).rd).1), conn := set s.conn d { s.conn d with rd := (readMessage (s.conn d).rd).2 } } d i (.got q x.1) := by
          rintro x rfl; exact ⟨h2, set_same _ _ _⟩
        rcases fit_sent hP e2 hat with rfl | ⟨m, rfl, r', hr, hq⟩ | ⟨p, rfl⟩ | ⟨p, m, rfl, r', hr, hq⟩
        · exact absurd ⟨e2.2.2.1, by rw [e2.2.1]; rfl⟩ hblk
        · refine ⟨.ran i q m, e1, ⟨e2.1, ?_, .inr ⟨hnew _ hr.symm, ?_⟩⟩, e3⟩
          · simp [e2.2.1]
          · simp only [set_same, hr]; exact hq
        · obtain ⟨f1, f2, f3, f4⟩ := e2
          obtain ⟨g1, g2⟩ := read_down f3
          refine ⟨.lost p (some (i, q)) none, e1, ⟨?_, f2, ?_, .inr ?_⟩, e3⟩
          · simp [f1]
          · simp only [set_same]; exact g2
          · exact ⟨h2, (set_same _ _ _).trans (by rw [g1])⟩
        · obtain ⟨f1, f2, f3⟩ := e2
          refine ⟨.lost p (some (i, q)) (some m), e1, ⟨?_, f2, .inr ⟨hnew _ hr.symm, ?_⟩⟩, e3⟩
          · simp [f1]
          · simp only [set_same, hr]; exact hq
      · refine ⟨l, e1, fit_frame e2 (set_ne _ _ e) rfl (fun j J hJ hj => ⟨hj.1, ?_⟩) (fun hr j hj => ?_), e3⟩
        · refine (set_ne _ _ (fun ej => ?_)).trans hj.2
          subst ej; exact e (hold d hj.1)
        · obtain ⟨x, hx⟩ := hr j hj
          refine ⟨x, (set_ne _ _ (fun ej => ?_)).trans hx⟩
          subst ej; exact e (hold d hj)
    · obtain ⟨v, e1, e2⟩ := hT j
      by_cases e : j = i
      · subst e
        cases v with
        | idle => rw [show s.job j = _ from e2] at h1; cases h1
        | called x => rw [show s.job j = _ from e2] at h1; cases h1
        | sentOn d x =>
          have hd : d = c ∧ x = q := by
            rcases e2 with ⟨g1, g2⟩ | ⟨r, g1, g2⟩
            · rw [g2] at h1; cases h1; exact ⟨hold d g1, rfl⟩
            · rw [g2] at h1; cases h1
          obtain ⟨rfl, rfl⟩ := hd
          exact ⟨.sentOn d x, e1, .inr ⟨_, h2, set_same _ _ _⟩⟩
      · exact ⟨v, e1, turn_frame e2 (set_ne _ _ e) (fun _ h => h)⟩
    · refine ⟨fun g1 g2 => ?_, (hls d).2⟩
      by_cases e : d = c
      · subst e; simp only [set_same]; exact (hls d).1 g1 g2
      · simp only [set_ne _ _ e]; exact (hls d).1 g1 g2
  | put i =>
    simp only [act] at hs
    split at hs
    case h_2 => cases hs
    rename_i q r c h1 h2
    obtain ⟨p, hp, rfl⟩ := Option.map_eq_some_iff.1 hs
    have hat : AtIt s c i (.got q r) := ⟨h2, h1⟩
    have hc := holder_open hP h2
    have hold : ∀ d, s.pool.thr[i]? = some (.holding d) → d = c := by
      intro d hd; rw [h2] at hd; simpa using hd.symm
    have hp' := hp
    simp only [Pool.move, h2, Pool.go] at hp'
    split at hp' <;> cases hp'
    have hnone : ∀ j, j ≠ i → s.pool.thr[j]? ≠ some (.holding c) := fun j hj hh => hj (holder_unique hP hh h2)
    have hrest : Rest { s with pool := { s.pool.at i .idle with chan := s.pool.chan ++ [c] }, job := set s.job i .none, log := s.log ++ [.ret i c (result bad q r)] } c := by
      intro j hj
      by_cases e : j = i
      · subst e; exact absurd (set_at hj) (by simp)
      · exact absurd ((set_get e).symm.trans hj) (hnone j e)
    refine ⟨Pool.inv_step hP (Pool.move_step hp), hF, fun d => ?_, fun j => ?_, ls, u, served_skip hS (by simp), hu, hls⟩
    · obtain ⟨l, e1, e2, e3⟩ := hL d
      by_cases e : d = c
      · subst e
        rcases fit_got hP e2 hat with ⟨m, rfl, rfl, hq⟩ | ⟨p, rfl, rfl⟩ | ⟨p, m, rfl, rfl, hq⟩
        · exact ⟨.free, path_snoc e1 (by simp [onConn]) (.ret i d q m), ⟨hrest, e2.1, e2.2.1, hq⟩, .inl rfl⟩
        · exact ⟨.lost p none none, path_snoc e1 (by simp [onConn]) (.lostRet i d q p), ⟨rfl, e2.1, e2.2.1, hrest, e2.2.2.1⟩, .inr hc⟩
        · exact ⟨.lost p none none, path_snoc e1 (by simp [onConn]) (.lostReply i d q m p), ⟨rfl, e2.1, e2.2.1, hrest, hq⟩, .inr hc⟩
      · refine ⟨l, path_skip e1 (by simpa [onConn] using Ne.symm e), fit_frame e2 rfl rfl (fun j J hJ hj => ?_) (fun hr j hj => ?_), e3⟩
        · have ej : j ≠ i := by rintro rfl; exact e (hold d hj.1)
          exact ⟨(set_get ej).trans hj.1, (set_ne _ _ ej).trans hj.2⟩
        · by_cases ej : j = i
          · subst ej; exact absurd (set_at hj) (by simp)
          · obtain ⟨x, hx⟩ := hr j ((set_get ej).symm.trans hj)
            exact ⟨x, (set_ne _ _ ej).trans hx⟩
    · obtain ⟨v, e1, e2⟩ := hT j
      by_cases e : j = i
      · subst e
        cases v with
        | idle => rw [show s.job j = _ from e2] at h1; cases h1
        | called x => rw [show s.job j = _ from e2] at h1; cases h1
        | sentOn d x =>
          have hd : d = c := by
            rcases e2 with ⟨g1, g2⟩ | ⟨r, g1, g2⟩ <;> exact hold d g1
          subst hd
          exact ⟨.idle, path_snoc e1 (by simp [byThread]) (.ret j d x _), set_same _ _ _⟩
      · exact ⟨v, path_skip e1 (by simpa [byThread] using Ne.symm e), turn_frame e2 (set_ne _ _ e) (fun c hc => (set_get e).trans hc)⟩
  | drop c lose =>
    simp only [act] at hs
    split at hs <;> cases hs
    rename_i hcond
    obtain ⟨hc1, hc2, hup⟩ := hcond
    refine ⟨hP, fun d hd => ?_, fun d => ?_, fun j => ?_, ls, u, served_skip hS (by simp), hu, fun d => ?_⟩
    · simp only; rw [set_ne _ _ (by simp only at hd; omega)]; exact hF d hd
    · obtain ⟨l, e1, e2, e3⟩ := hL d
      by_cases e : d = c
      · subst e
        have hquiet : Rd.Quiet (s.conn d).rd → Rd.Quiet (if lose then (⟨[], []⟩ : Rd) else (s.conn d).rd) := by
          intro h; split
          · exact ⟨rfl, by simp [Rd.WF]⟩
          · exact h
        match l, e1, e2 with
        | .free, e1, e2 =>
          exact ⟨.lost none none none, path_snoc e1 (by simp [onConn]) (.drop d),
            ⟨rfl, by simp, e2.2.1, e2.1, by simp only [set_same]; exact hquiet e2.2.2.2⟩, .inr ⟨hc1, hc2⟩⟩
        | .sent i q, e1, e2 =>
          exact ⟨.lost (some q) (some (i, q)) none, path_snoc e1 (by simp [onConn]) (.dropSent i d q),
            ⟨by simp, e2.2.1, by simp only [set_same]; exact hquiet e2.2.2.2, .inl e2.1⟩, .inr ⟨hc1, hc2⟩⟩
        | .ran i q m, e1, ⟨f1, f2, f3⟩ =>
          rcases f3 with ⟨f3, f4⟩ | ⟨f3, f4⟩
          · cases lose with
            | true =>
              exact ⟨.lost none (some (i, q)) none, path_snoc e1 (by simp [onConn]) (.dropReply i d q m),
                ⟨by simp, f1, by simp only [set_same]; exact ⟨rfl, by simp [Rd.WF]⟩, .inl f3⟩, .inr ⟨hc1, hc2⟩⟩
            | false =>
              exact ⟨.lost none (some (i, q)) (some m), path_snoc e1 (by simp [onConn]) (.dropRan i d q m),
                ⟨by simp, f1, .inl ⟨f3, by simpa using f4⟩⟩, .inr ⟨hc1, hc2⟩⟩
          · exact ⟨.lost none (some (i, q)) (some m), path_snoc e1 (by simp [onConn]) (.dropRan i d q m),
              ⟨by simp, f1, .inr ⟨f3, by simp only [set_same]; exact hquiet f4⟩⟩, .inr ⟨hc1, hc2⟩⟩
        | .lost p none m, e1, e2 => rw [e2.2.1] at hup; cases hup
        | .lost p (some (_, _)) none, e1, e2 => rw [e2.1] at hup; cases hup
        | .lost p (some (_, _)) (some _), e1, e2 => rw [e2.1] at hup; cases hup
      · exact ⟨l, path_skip e1 (by simpa [onConn] using Ne.symm e), fit_frame e2 (set_ne _ _ e) rfl (fun _ _ _ h => h) id, e3⟩
    · obtain ⟨v, f1, f2⟩ := hT j
      exact ⟨v, path_skip f1 rfl, turn_frame f2 rfl (fun _ h => h)⟩
    · refine ⟨fun g1 g2 => ?_, (hls d).2⟩
      by_cases e : d = c
      · subst e; simp only [set_same]; exact (hls d).1 g1 g2
      · simp only [set_ne _ _ e]; exact (hls d).1 g1 g2

theorem inv_act {srv : Server} {t : Int} {s s' : Sys} {a : Act} (h : Inv bad o cap srv t s) (ha : Allowed Carried s a)
    (hs : act bad o cap s a = some s') : Inv bad o cap srv t s' := by
  refine inv_clear h ?_ hs
  cases a with
  | dial => exact ha
  | run => exact fun _ => ha
  | _ => trivial

theorem inv_runs {n : Nat} {srv : Server} {t : Int} {calls : Nat → List Req} {s : Sys}
    (h : Runs bad o cap Carried (Sys.init n srv t calls) s) : Inv bad o cap srv t s := by
  induction h with
  | refl => exact inv_init n srv t calls
  | snoc _ ha hs ih => exact inv_act ih ha hs

end Verif.Client.Many

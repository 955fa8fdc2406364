import Verif.Repl.PropsExact
/-!
# C119: what goes on after `New` reported an error

The goroutine of the handler was started before the snapshot is read (xxcache.go:48), and nothing ends it when
reading fails (xxcache.go:50-52).
-/
namespace Verif.Repl
open Verif.Resp

/-- `New` has reported an error: the receiver and the acknowledgements were never started. -/
structure Over (s : State) : Prop where
  main : s.main = .failed
  recv : ∃ stream, s.recv = .off stream
  ack : s.ack = .off
  closed : s.closed = false
  errs : s.errs ≤ 1

/-- The same, or `New` is still loading, or it succeeded. -/
def Before (s : State) : Prop :=
  s.main = .failed ∨ (∃ rest good, s.main = .loading rest good) →
    (∃ stream, s.recv = .off stream) ∧ s.ack = .off ∧ s.closed = false ∧ s.errs ≤ 1

theorem before_step {db : Int64} {s t : State} (hb : Before s) (h : Step (conf db) s t) : Before t := by
  cases h with
  | skip _ _ _ _ => exact hb
  | handled _ _ _ _ _ => exact hb
  | failed _ _ _ _ _ => exact hb
  | crash _ _ _ _ _ => exact hb
  | zeroSkip _ _ _ _ _ => exact hb
  | zeroFailed _ _ _ _ _ _ => exact hb
  | report _ _ hl => exact fun hm => ⟨(hb hm).1, (hb hm).2.1, (hb hm).2.2.1, by simpa [conf] using hl⟩
  | drain _ _ he => exact fun hm => ⟨(hb hm).1, (hb hm).2.1, (hb hm).2.2.1, by have := (hb hm).2.2.2; simp; omega⟩
  | load _ hm _ => exact fun _ => hb (.inr ⟨_, _, hm⟩)
  | loadFailed _ hm => exact fun _ => hb (.inr ⟨_, _, hm⟩)
  | loaded _ _ _ => rintro (h | ⟨r, g, h⟩) <;> cases h
  | recvPing _ hr _ => intro hm; obtain ⟨⟨_, h⟩, _⟩ := hb hm; rw [hr] at h; cases h
  | recvSend _ hr _ _ => intro hm; obtain ⟨⟨_, h⟩, _⟩ := hb hm; rw [hr] at h; cases h
  | recvErr _ hr _ => intro hm; obtain ⟨⟨_, h⟩, _⟩ := hb hm; rw [hr] at h; cases h
  | close _ hr => intro hm; obtain ⟨⟨_, h⟩, _⟩ := hb hm; rw [hr] at h; cases h
  | ackFailed _ ha => intro hm; have h := (hb hm).2.1; rw [ha] at h; cases h
  | ackReport _ ha _ => intro hm; have h := (hb hm).2.1; rw [ha] at h; cases h

theorem over_of {db : Int64} {c0 : Local} {snap : List Tagged} {good : Bool} {stream : List Msg} {s : State}
    (h : Steps (conf db) (.init c0 snap good stream) s) (hf : s.main = .failed) : Over s := by
  have hb : Before s := by
    clear hf
    induction h with
    | refl => exact fun _ => ⟨⟨_, rfl⟩, rfl, rfl, by simp [State.init]⟩
    | tail _ hst ih => exact before_step ih hst
  obtain ⟨h1, h2, h3, h4⟩ := hb (.inl hf)
  exact ⟨hf, h1, h2, h3, h4⟩

/-- How much can still happen. -/
def State.left (s : State) : Nat := 3 * s.msgs.length + 2 * (if s.hand = .report then 1 else 0) + s.errs

/-- After the error every step is one of the handler, and uses up some of what was left. -/
theorem over_step {db : Int64} {s t : State} (ho : Over s) (h : Step (conf db) s t) :
    Over t ∧ t.left < s.left ∧ ∃ l, t.taken = s.taken ++ l ∧ s.msgs = l ++ t.msgs := by
  obtain ⟨h1, ⟨str, h2⟩, h3, h4, h5⟩ := ho
  cases h with
  | @skip d m q _ hh hq _ =>
    refine ⟨⟨h1, ⟨_, h2⟩, h3, h4, h5⟩, ?_, [(d, m)], rfl, hq⟩
    simp only [State.left, hh, hq, List.length_cons]; omega
  | @handled d m q _ _ hh hq _ _ =>
    refine ⟨⟨h1, ⟨_, h2⟩, h3, h4, h5⟩, ?_, [(d, m)], rfl, hq⟩
    simp only [State.left, hh, hq, List.length_cons]; omega
  | @failed d m q _ _ _ hh hq _ _ =>
    refine ⟨⟨h1, ⟨_, h2⟩, h3, h4, h5⟩, ?_, [(d, m)], rfl, hq⟩
    simp [State.left, hh, hq]; omega
  | @crash d m q _ _ hh hq _ _ =>
    refine ⟨⟨h1, ⟨_, h2⟩, h3, h4, h5⟩, ?_, [(d, m)], rfl, hq⟩
    simp only [State.left, hh, hq, List.length_cons]; omega
  | zeroSkip _ _ _ hc _ => rw [h4] at hc; cases hc
  | zeroFailed _ _ _ hc _ _ => rw [h4] at hc; cases hc
  | report _ hh hl =>
    refine ⟨⟨h1, ⟨_, h2⟩, h3, h4, by simpa [conf] using hl⟩, ?_, [], by simp, by simp⟩
    simp [State.left, hh]; omega
  | drain _ hh he =>
    refine ⟨⟨h1, ⟨_, h2⟩, h3, h4, by simp; omega⟩, ?_, [], by simp, by simp⟩
    simp only [State.left, hh, he]; omega
  | load _ hm _ => rw [h1] at hm; cases hm
  | loadFailed _ hm => rw [h1] at hm; cases hm
  | loaded _ hm _ => rw [h1] at hm; cases hm
  | recvPing _ hr _ => rw [h2] at hr; cases hr
  | recvSend _ hr _ _ => rw [h2] at hr; cases hr
  | recvErr _ hr _ => rw [h2] at hr; cases hr
  | close _ hr => rw [h2] at hr; cases hr
  | ackFailed _ ha => rw [h3] at ha; cases ha
  | ackReport _ ha _ => rw [h3] at ha; cases ha

/-- `n` steps. -/
inductive StepsN (cf : Conf) : State → Nat → State → Prop
  | refl {s} : StepsN cf s 0 s
  | tail {s t u n} : StepsN cf s n t → Step cf t u → StepsN cf s (n + 1) u

theorem StepsN.steps {cf : Conf} {s t : State} {n : Nat} (h : StepsN cf s n t) : Steps cf s t := by
  induction h with
  | refl => exact .refl
  | tail _ hst ih => exact ih.tail hst

theorem over_steps {db : Int64} {s t : State} {n : Nat} (ho : Over s) (h : StepsN (conf db) s n t) :
    Over t ∧ t.left + n ≤ s.left ∧ ∃ l, t.taken = s.taken ++ l ∧ s.msgs = l ++ t.msgs := by
  induction h with
  | refl => exact ⟨ho, by omega, [], by simp, by simp⟩
  | tail _ hst ih =>
    obtain ⟨a, b, l, c, d⟩ := ih
    obtain ⟨a', b', l', c', d'⟩ := over_step a hst
    exact ⟨a', by omega, l ++ l', by rw [c', c]; simp, by rw [d, d']; simp⟩

/-- C119, as far as it holds: once `New` has reported an error, whatever was sent by the master after the snapshot
has no effect, and no acknowledgement is sent; the handler takes at most the messages that were waiting, in
their order, the cache is what they make of it, and after a number of steps that depends only on how many were
waiting nothing happens any more.  Missing: those messages are still handled. -/
theorem C119_ends_partial (db : Int64) (c0 : Local) (snap : List Tagged) (good : Bool) (stream : List Msg) (s t : State) (n : Nat)
    (h : Steps (conf db) (.init c0 snap good stream) s) (hf : s.main = .failed) (h2 : StepsN (conf db) s n t) :
    t.main = .failed ∧ (∃ str, t.recv = .off str) ∧ t.ack = .off ∧ n ≤ 3 * s.msgs.length + 3 ∧
    ∃ k, t.taken = s.taken ++ s.msgs.take k ∧
      t.cache = (((s.msgs.take k).filter fun x => decide (x.1 = db)).map Prod.snd).foldl (fun c m => (handle c (some m)).2) s.cache := by
  have ho := over_of h hf
  have e1 := (inv_steps (inv_init (conf db) c0 snap good stream) h).cache
  have e2 := (inv_steps (inv_init (conf db) c0 snap good stream) (Steps.trans h h2.steps)).cache
  obtain ⟨a, b, l, c, d⟩ := over_steps ho h2
  have hs := ho.errs
  refine ⟨a.main, a.recv, a.ack, ?_, l.length, ?_, ?_⟩
  · have : s.left ≤ 3 * s.msgs.length + 3 := by
      cases hh : s.hand with
      | loop => simp [State.left, hh]; omega
      | report =>
        have : s.errs = 0 ∨ s.errs = 1 := by omega
        simp [State.left, hh]
        omega
    omega
  · rw [c, d]; simp
  · rw [e2, e1, c, d]; simp [applied, List.foldl_append, conf]; rfl

/-- A message that waits is handled in the end, if none before it panics and the handler does not wait for itself. -/
theorem crash_after {db : Int64} {c0 : Local} (pre : List Tagged) (x : Tagged) (post : List Tagged) (hp : ∀ y ∈ pre, ¬ Panics db c0 y)
    (hx : Panics db c0 x) (s : State) (hc : s.cache.isSome = c0.isSome) (ha : s.crashed = false) (hh : s.hand = .loop) (he : s.errs ≤ 1)
    (hm : s.msgs = pre ++ x :: post) : ∃ t, Steps (conf db) s t ∧ t.crashed = true := by
  induction pre generalizing s with
  | nil =>
    obtain ⟨d, m⟩ := x
    rcases hz : handle s.cache (some m) with ⟨z, c⟩
    have hk := handle_kind hc (some m)
    rw [hz, hx.2] at hk
    simp only at hk
    subst hk
    exact ⟨_, Steps.refl.tail (.crash ha hh hm hx.1 hz), rfl⟩
  | cons y pre ih =>
    obtain ⟨d, m⟩ := y
    have hpre : ∀ y ∈ pre, ¬ Panics db c0 y := fun y hy => hp y (List.mem_cons_of_mem _ hy)
    have key : ∀ u : State, Steps (conf db) s u → u.cache.isSome = c0.isSome → u.crashed = false → u.hand = .loop → u.errs ≤ 1 →
        u.msgs = pre ++ x :: post → ∃ t, Steps (conf db) s t ∧ t.crashed = true := by
      intro u g1 g2 g3 g4 g5 g6
      obtain ⟨t, k1, k2⟩ := ih hpre u g2 g3 g4 g5 g6
      exact ⟨t, Steps.trans g1 k1, k2⟩
    by_cases hd : d = db
    · rcases hz : handle s.cache (some m) with ⟨z, c⟩
      have hc1 : c.isSome = c0.isSome := by
        have := handle_some s.cache (some m)
        rw [hz] at this
        exact this.trans hc
      have hk := handle_kind hc (some m)
      rw [hz] at hk
      cases z with
      | ok u => exact key _ (Steps.refl.tail (.handled ha hh hm hd hz)) hc1 ha hh he rfl
      | panic => exact absurd ⟨hd, hk.symm⟩ (hp (d, m) (by simp))
      | err e =>
        cases hn : s.errs with
        | zero =>
          refine key _ ((Steps.refl.tail (.failed ha hh hm hd hz)).tail (.report ha rfl ?_)) hc1 ha rfl ?_ rfl
          · simp [conf, hn]
          · simp [hn]
        | succ n =>
          obtain rfl : n = 0 := by omega
          refine key _ (((Steps.refl.tail (.drain ha hh hn)).tail (.failed ha hh hm hd hz)).tail (.report ha rfl ?_)) hc1 ha rfl ?_ rfl
          · simp [conf]
          · simp
    · exact key _ (Steps.refl.tail (.skip ha hh hm hd)) hc ha hh he rfl

theorem kinds_same {db : Int64} {c0 : Local} {snap : List Tagged} {good : Bool} {stream : List Msg} {s : State}
    (h : Steps (conf db) (.init c0 snap good stream) s) : s.cache.isSome = c0.isSome :=
  (early_steps (early_init db c0 snap good stream) h).usable

/-- C119, exactly when the process can still end after `New` has reported an error: if and only if a message that
makes the handler panic is waiting, and the handler does not wait for itself. -/
theorem C119_exact (db : Int64) (c0 : Local) (snap : List Tagged) (good : Bool) (stream : List Msg) (s : State)
    (h : Steps (conf db) (.init c0 snap good stream) s) (hf : s.main = .failed) (ha : s.crashed = false) :
    (∃ t, Steps (conf db) s t ∧ t.crashed = true) ↔
      (∃ x ∈ s.msgs, Panics db c0 x) ∧ ¬ (s.hand = .report ∧ s.errs = 1) := by
  have ho := over_of h hf
  have hu := kinds_same h
  constructor
  · rintro ⟨t, h2, hcr⟩
    constructor
    · apply Classical.byContradiction
      intro hn
      have hinv : ∀ {u : State}, Steps (conf db) s u → u.crashed = false ∧ Over u ∧ (∀ x ∈ u.msgs, ¬ Panics db c0 x) := by
        intro u hu2
        induction hu2 with
        | refl => exact ⟨ha, ho, fun x hx hp => hn ⟨x, hx, hp⟩⟩
        | @tail v w hv hst ih =>
          obtain ⟨i1, i2, i3⟩ := ih
          obtain ⟨j1, _, l, _, j2⟩ := over_step i2 hst
          refine ⟨?_, j1, fun x hx => i3 x (by rw [j2]; exact List.mem_append_right _ hx)⟩
          cases hst with
          | @crash d m q c _ hh hq hd hz =>
            refine absurd ⟨hd, ?_⟩ (i3 (d, m) (by rw [hq]; simp))
            have := handle_kind (kinds_same (Steps.trans h hv)) (some m)
            rw [← this, hz]
          | _ => exact i1
      rw [(hinv h2).1] at hcr
      cases hcr
    · rintro ⟨g1, g2⟩
      have hst : Stuck (conf db) s := ⟨g1, by rw [g2]; exact Nat.le_refl _⟩
      have : ∀ {u : State}, Steps (conf db) s u → u.crashed = false := by
        intro u hu2
        induction hu2 with
        | refl => exact ha
        | @tail v w hv hst2 ih =>
          have hv2 := (stuck_forever hst hv).1
          cases hst2 with
          | crash _ hh => rw [hv2.hand] at hh; cases hh
          | _ => exact ih
      rw [this h2] at hcr
      cases hcr
  · rintro ⟨⟨x, hx, hp⟩, hns⟩
    obtain ⟨a, y, d, e1, e2, e3⟩ := first_split hx hp
    cases hh : s.hand with
    | loop => exact crash_after a y d e3 e2 s hu ha hh ho.errs e1
    | report =>
      have h0 : s.errs = 0 := by
        have := ho.errs
        have h1 : s.errs ≠ 1 := fun e => hns ⟨hh, e⟩
        omega
      have hs1 : Step (conf db) s { s with errs := s.errs + 1, hand := .loop } := .report ha hh (by simp [conf, h0])
      obtain ⟨t, k1, k2⟩ := crash_after a y d e3 e2 { s with errs := s.errs + 1, hand := .loop } hu ha rfl (by simp [h0]) e1
      exact ⟨t, Steps.trans (Steps.refl.tail hs1) k1, k2⟩

/-- A master whose snapshot has one string and then breaks off. -/
def brokenFile : Bytes := b!"REDIS0009" ++ [0, 1] ++ b!"k" ++ [1] ++ b!"v" ++ [0, 5] ++ b!"ab"
def brokenWorld : World := ⟨true, true, true, true, true, ⟨[], [b!"+PONG\r\n$18\r\n" ++ brokenFile]⟩⟩

example : brokenFile.length = 18 := by decide

/-- C119 is false: for this master `New` reports an error, and afterwards the goroutine it left behind ends the whole
process; with a usable cache it would go on and store what it was given. -/
theorem C119_violated (ord : Rdb.MapOrd) :
    ∃ e client snap r, new ord brokenWorld ⟨[], [], 0⟩ = (.err e, client, snap, r) ∧
      (∃ s t, Steps (conf 0) (.init client.cache snap false []) s ∧ s.main = .failed ∧ s.crashed = false ∧
        Steps (conf 0) s t ∧ t.crashed = true) ∧
      (∃ s t c, Steps (conf 0) (.init (some Cache.new) snap false []) s ∧ s.main = .failed ∧ s.cache = some Cache.new ∧
        Steps (conf 0) s t ∧ t.cache = some c ∧ (c.get 0 b!"k").2 = .ok b!"v") := by
  have hnew : ∃ r e, new ord brokenWorld ⟨[], [], 0⟩ = (.err e, ⟨⟨[], [], 0⟩, none⟩, [(0, command [b!"set", b!"k", b!"v"])], r) := by
    exact ⟨_, _, rfl⟩
  obtain ⟨r, e, hnew⟩ := hnew
  refine ⟨e, _, _, r, hnew, ?_, ?_⟩
  · refine ⟨_, _, (Steps.refl.tail (.load rfl rfl (by decide))).tail (.loadFailed rfl rfl), rfl, rfl,
      Steps.refl.tail (.crash (c := none) rfl rfl rfl rfl rfl), rfl⟩
  · refine ⟨_, _, _, (Steps.refl.tail (.load rfl rfl (by decide))).tail (.loadFailed rfl rfl), rfl, rfl,
      Steps.refl.tail (.handled (c := some (Cache.new.set b!"k" b!"v").1) rfl rfl rfl rfl rfl), rfl, by decide +kernel⟩

end Verif.Repl

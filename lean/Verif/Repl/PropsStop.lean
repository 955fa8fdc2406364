import Verif.Repl.Stop
/-!
# Properties C134, C135: `Stop`; errors and the log
-/
namespace Verif.Repl

open Verif.Resp

/-! ## C134 -/

/-- C134, exactly what happens instead: after `Stop` everything can happen that could happen without it, and nothing else. -/
theorem C134_exact (cf : Conf) (a b : AState) : SSteps cf ⟨a, true⟩ ⟨b, true⟩ ↔ ASteps cf a b := by
  constructor
  · intro h
    have : ∀ s t : SState, SSteps cf s t → ASteps cf s.a t.a := by
      intro s t h
      induction h with
      | refl => exact .refl
      | tail _ hs ih =>
        cases hs with
        | other hs => exact ih.tail hs
        | stop => exact ih
    exact this _ _ h
  · intro h
    induction h with
    | refl => exact .refl
    | tail _ hs ih => exact ih.tail (.other hs)

/-- C134 is false of every client that has begun to acknowledge: whatever has happened before, and with `Stop` called, it acknowledges once more. -/
theorem C134_violated_acks (cf : Conf) (s : SState) (hc : s.a.st.crashed = false) (hk : s.a.st.ack = .idle) :
    ∃ t, SStep cf { s with stopped := true } t ∧ t.stopped = true ∧ t.a.acked = s.a.acked ++ [ackMsg s.a.offset] :=
  ⟨_, .other (.tick hc hk), rfl, rfl⟩

/-- C134 is false: `Stop` was called, then the master sent an assignment, and the local cache changed (that of a client whose cache can be used). -/
theorem C134_violated : ∃ s t : SState, SSteps (conf 0) ⟨⟨.init (some Cache.new) [] true [command [b!"set", b!"k", b!"v"]], 0, []⟩, false⟩ s ∧
    s.stopped = true ∧ (Client.mk ⟨[], [], 0⟩ s.a.st.cache).get 0 b!"k" = .err .keyNil ∧
    SSteps (conf 0) s t ∧ (Client.mk ⟨[], [], 0⟩ t.a.st.cache).get 0 b!"k" = .ok b!"v" := by
  refine ⟨_, _, (SSteps.refl.tail (.other (.other (.loaded rfl rfl rfl)))).tail .stop, rfl, by decide +kernel,
    (SSteps.refl.tail (.other (.other (.recvSend rfl rfl (by decide) (by decide))))).tail (.other (.other (.handled rfl rfl rfl rfl rfl))), ?_⟩
  decide +kernel

/-! ## C135 -/

/-- A step changes the number of errors in the channel by at most one. -/
theorem errs_step {cf : Conf} {s t : State} (h : Step cf s t) : t.errs = s.errs ∨ t.errs = s.errs + 1 ∨ s.errs = t.errs + 1 := by
  cases h <;> simp_all

/-- No error is lost or made up between the goroutines and the handler: those raised are those taken and those still in the channel. -/
theorem C135_taken {cf : Conf} {L : Nat → Prop} {c : Local} {snap : List Tagged} {good : Bool} {stream : List Msg} {l : Nat} {g : GState}
    (h : GSteps cf L (.init c snap good stream l) g) : g.raised = g.taken + g.st.errs ∧ g.shown ≤ g.taken := by
  generalize hi : GState.init c snap good stream l = g0 at h
  induction h with
  | refl => subst hi; exact ⟨rfl, Nat.le_refl _⟩
  | setLevel l _ _ ih => exact ih
  | @other h t _ hs ih =>
    have := errs_step hs
    obtain ⟨h1, h2⟩ := ih
    unfold GState.next
    split
    · exact ⟨by simp only; omega, h2⟩
    · split
      · refine ⟨by simp only; omega, ?_⟩
        simp only
        split <;> omega
      · exact ⟨by simp only; omega, h2⟩

/-- C135 is false: a client made with `LogLevel` left out, or anything below warnings, in a program that makes no others but such, logs no error that occurs
in following the master. -/
theorem C135_violated_any {cf : Conf} {c : Local} {snap : List Tagged} {good : Bool} {stream : List Msg} {l : Nat} {g : GState}
    (hl : l < warnLevel) (h : GSteps cf (· < warnLevel) (.init c snap good stream l) g) : g.shown = 0 := by
  generalize hi : GState.init c snap good stream l = g0 at h
  have : g.shown = 0 ∧ g.level < warnLevel := by
    induction h with
    | refl => subst hi; exact ⟨rfl, hl⟩
    | setLevel l _ hl ih => exact ⟨ih.1, hl⟩
    | other _ hs ih =>
      obtain ⟨h1, h2⟩ := ih
      unfold GState.next
      split
      · exact ⟨h1, h2⟩
      · split
        · refine ⟨?_, h2⟩
          simp only
          rw [if_neg (by omega)]
          exact h1
        · exact ⟨h1, h2⟩
  exact this.1

/-- As far as it holds: with levels of at least warnings throughout, every error that was raised is in the log, but for those still in the channel - one
at most. -/
theorem C135_loud_partial {cf : Conf} {c : Local} {snap : List Tagged} {good : Bool} {stream : List Msg} {l : Nat} {g : GState}
    (hl : warnLevel ≤ l) (h : GSteps cf (warnLevel ≤ ·) (.init c snap good stream l) g) : g.raised = g.shown + g.st.errs := by
  have ht := (C135_taken h).1
  generalize hi : GState.init c snap good stream l = g0 at h
  have : g.shown = g.taken ∧ warnLevel ≤ g.level := by
    clear ht
    induction h with
    | refl => subst hi; exact ⟨rfl, hl⟩
    | setLevel l _ hl ih => exact ⟨ih.1, hl⟩
    | other _ hs ih =>
      obtain ⟨h1, h2⟩ := ih
      unfold GState.next
      split
      · exact ⟨h1, h2⟩
      · split
        · refine ⟨?_, h2⟩
          simp only [if_pos h2]
          omega
        · exact ⟨h1, h2⟩
  omega

/-- C135, exactly, for one client in a program that makes no other: everything taken from the channel is in the log if and only if nothing was taken or the
level is at least that of warnings. -/
theorem C135_exact {cf : Conf} {c : Local} {snap : List Tagged} {good : Bool} {stream : List Msg} {l : Nat} {g : GState}
    (h : GSteps cf (fun _ => False) (.init c snap good stream l) g) : g.shown = g.taken ↔ g.taken = 0 ∨ warnLevel ≤ l := by
  have mono : ∀ {L M : Nat → Prop} {x y : GState}, (∀ k, L k → M k) → GSteps cf L x y → GSteps cf M x y := by
    intro L M x y hLM h
    induction h with
    | refl => exact .refl
    | other _ hs ih => exact ih.other hs
    | setLevel l _ hl ih => exact ih.setLevel l (hLM l hl)
  have ht := (C135_taken h).1
  by_cases hl : warnLevel ≤ l
  · have := C135_loud_partial hl (mono (fun _ hf => hf.elim) h)
    constructor
    · exact fun _ => .inr hl
    · intro _; omega
  · have := C135_violated_any (by omega) (mono (fun _ hf => hf.elim) h)
    rw [this]
    constructor
    · exact fun h => .inl h.symm
    · rintro (h | h)
      · exact h.symm
      · exact absurd h hl

/-- The default client has received an unknown command and the handler has put the error into the channel. -/
def oneError : State :=
  ⟨[], false, 1, .loop, .returned, .reading [], .idle, none, false, [(0, command [b!"del", b!"k"])]⟩

theorem oneError_reached (L : Nat → Prop) (l : Nat) : GSteps (conf 0) L (.init none [] true [command [b!"del", b!"k"]] l) ⟨oneError, l, 1, 0, 0⟩ := by
  have h1 : GSteps (conf 0) L (.init none [] true [command [b!"del", b!"k"]] l)
      ⟨⟨[], false, 0, .loop, .returned, .reading [command [b!"del", b!"k"]], .idle, none, false, []⟩, l, 0, 0, 0⟩ :=
    GSteps.refl.other (.loaded rfl rfl rfl)
  have h2 : GSteps (conf 0) L (.init none [] true [command [b!"del", b!"k"]] l)
      ⟨⟨[(0, command [b!"del", b!"k"])], false, 0, .loop, .returned, .reading [], .idle, none, false, []⟩, l, 0, 0, 0⟩ :=
    h1.other (.recvSend rfl rfl (by decide) (show (0 : Nat) < 10000 by decide))
  have h3 : GSteps (conf 0) L (.init none [] true [command [b!"del", b!"k"]] l)
      ⟨⟨[], false, 0, .report, .returned, .reading [], .idle, none, false, [(0, command [b!"del", b!"k"])]⟩, l, 0, 0, 0⟩ :=
    h2.other (.failed (e := .unknown (ser (command [b!"del", b!"k"]))) rfl rfl rfl rfl (show handle none (some (command [b!"del", b!"k"])) = _ from rfl))
  exact h3.other (.report rfl rfl (show (0 : Nat) < 1 by decide))

/-- C135 is false: the default client receives an unknown command; the error is raised and taken, and the log shows nothing.  A second client made without
`LogLevel` silences a first one in the same way. -/
theorem C135_violated :
    (∃ g, GSteps (conf 0) (fun _ => False) (.init none [] true [command [b!"del", b!"k"]] 0) g ∧ g.raised = 1 ∧ g.taken = 1 ∧ g.shown = 0) ∧
    ∃ g, GSteps (conf 0) (· = 0) (.init none [] true [command [b!"del", b!"k"]] 4) g ∧ g.raised = 1 ∧ g.taken = 1 ∧ g.shown = 0 :=
  ⟨⟨_, (oneError_reached _ 0).other (.drain rfl rfl rfl), rfl, rfl, rfl⟩,
    ⟨_, ((oneError_reached (· = 0) 4).setLevel 0 rfl).other (.drain rfl rfl rfl), rfl, rfl, rfl⟩⟩

/-- With the level of information messages the same error is logged. -/
example : ∃ g, GSteps (conf 0) (fun _ => False) (.init none [] true [command [b!"del", b!"k"]] 4) g ∧ g.raised = 1 ∧ g.taken = 1 ∧ g.shown = 1 :=
  ⟨_, (oneError_reached _ 4).other (.drain rfl rfl rfl), rfl, rfl, rfl⟩

end Verif.Repl

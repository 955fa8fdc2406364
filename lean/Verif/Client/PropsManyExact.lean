import Verif.Client.PropsMany
import Verif.Client.PropsCuts
/-!
# C106, exactly: which deliveries of replies goroutines that share a client can bear
-/
namespace Verif.Client.Many
open Verif.Resp Verif.Client

variable {bad : Bytes → F64} {o : Opt} {cap : Nat}

/-- What every call has read on a connection that is not lost is the server's reply to its own request, run after it was sent with
nothing else on the connection in between, and the connection is in step for whoever gets it next. -/
def OwnReplies (s : Sys) : Prop :=
  ∀ c i q r, AtIt s c i (.got q r) → (s.conn c).up = true →
    (s.conn c).Ready ∧ ∃ X u m, s.log.filter (onConn c) = X ++ [.send i c q, .run c u (args q) m] ∧ r = .ok m

theorem own_inv {srv : Server} {t : Int} {s : Sys} (h : Inv bad o cap srv t s) : OwnReplies s := by
  intro c i q r ha hu
  obtain ⟨l, h1, h2, _⟩ := h.line c
  have hr := reach h1 rfl (all_filter _)
  rcases fit_got h.pool h2 ha with ⟨m, rfl, rfl, hq⟩ | ⟨p, rfl, rfl⟩ | ⟨p, m, rfl, rfl, _⟩
  · obtain ⟨X, u, e⟩ := hr
    exact ⟨⟨hu, hq⟩, X, u, m, e, rfl⟩
  · have h3 : (s.conn c).up = false := h2.1
    rw [hu] at h3; cases h3
  · have h3 : (s.conn c).up = false := h2.1
    rw [hu] at h3; cases h3

/-- If whatever follows is read rightly, the reply that comes now can be joined. -/
theorem carried_next {P : Cut → Msg → Prop} (hP : ∀ cut m, P cut m → cut.Faithful ∧ Lines m) {srv : Server} {t : Int} {s0 s : Sys}
    (hA : ∀ s, Runs bad o cap P s0 s → OwnReplies s) (hr : Runs bad o cap P s0 s) (hI : Inv bad o cap srv t s) {c : Nat} {cut : Cut}
    (hu : (s.conn c).up = true) {line : List Bytes} {rest : Bytes} (hb : (s.pend c).bind specCommand = some (line, rest))
    (hp : P cut (serve s.srv (s.conn c).login s.now line).2.2) : Carried cut (serve s.srv (s.conn c).login s.now line).2.2 := by
  obtain ⟨l, e1, e2, e3⟩ := hI.line c
  obtain ⟨b, hpb, hsp⟩ := Option.bind_eq_some_iff.1 hb
  have hl : ∃ i q, l = .sent i q := by
    match l, e2 with
    | .free, e2 => rw [e2.2.1] at hpb; cases hpb
    | .sent i q, _ => exact ⟨i, q, rfl⟩
    | .ran i q m, e2 => rw [e2.1] at hpb; cases hpb
    | .lost p none m, e2 => have := e2.2.1; rw [hu] at this; cases this
    | .lost p (some (i, q)) none, e2 => have := e2.1; rw [hu] at this; cases this
    | .lost p (some (i, q)) (some m), e2 => have := e2.1; rw [hu] at this; cases this
  obtain ⟨i, q, rfl⟩ := hl
  obtain ⟨ha, hpend, hready⟩ := e2
  have hline : line = args q := by
    rw [hpb] at hpend
    cases hpend
    have := C47_binary_safe (args q) []
    rw [List.append_nil] at this
    rw [show specCommand (sent q) = _ from this] at hsp
    cases hsp; rfl
  subst hline
  apply Classical.byContradiction
  intro hn
  obtain ⟨X, hX⟩ := reach e1 rfl (all_filter _)
  -- the server runs the request
  have hs1 : act bad o cap s (.run c cut) = some { s with
        srv := (serve s.srv (s.conn c).login s.now (args q)).1
        pend := set s.pend c none
        conn := set s.conn c ⟨(serve s.srv (s.conn c).login s.now (args q)).2.1,
          ⟨(s.conn c).rd.buf, (s.conn c).rd.net ++ cut (ser (serve s.srv (s.conn c).login s.now (args q)).2.2)⟩, true⟩
        log := s.log ++ [.run c s.now (args q) (serve s.srv (s.conn c).login s.now (args q)).2.2] } := by
    simp only [act, hb, hu, if_true]
  have r1 := Runs.snoc hr (show Allowed P s (.run c cut) from fun line rest h => by rw [hb] at h; cases h; exact hp) hs1
  -- the goroutine reads
  have r2 := Runs.snoc (a := .recv i) r1 trivial (by simp only [act, ha.1, ha.2, set_same, Option.isSome_none, Bool.false_eq_true, and_false, if_false]; rfl)
  have hown := hA _ r2 c i q _ ⟨ha.1, set_same _ _ _⟩ (by simp)
  obtain ⟨hrd, Y, u, m, hY, hm⟩ := hown
  simp only [List.filter_append, hX] at hY
  have hlast : [Event.send i c q, .run c s.now (args q) (serve s.srv (s.conn c).login s.now (args q)).2.2] = [.send i c q, .run c u (args q) m] := by
    have : X ++ [Event.send i c q, .run c s.now (args q) (serve s.srv (s.conn c).login s.now (args q)).2.2] = Y ++ [.send i c q, .run c u (args q) m] := by
      rw [← hY]; simp [onConn]
    exact (List.append_inj' this rfl).2
  simp only [List.cons.injEq, Event.run.injEq, and_true, true_and] at hlast
  obtain ⟨_, rfl⟩ := hlast
  have hex := exchange_up (s := s.srv) (t := s.now) (cmd := args q) (cut := cut) hu
  have hoff := exchange_cases (s := s.srv) (t := s.now) (cmd := args q) hready (hP _ _ hp).2 (hP _ _ hp).1 hn (by rw [hex]; exact hm)
  rw [hex] at hoff
  exact off_not_ready hoff (by simpa using hrd)

/-- C106, exactly: let `P` say how replies may be delivered, in order and with lines the reader takes.  Every call on a connection that
is not lost reads the server's reply to its own request and leaves the connection in step, in every run of any number of goroutines, if
and only if every reply that can come on a connection that is up comes in a way the reader can join. -/
theorem C106_exact (n : Nat) (srv : Server) (t : Int) (calls : Nat → List Req) (P : Cut → Msg → Prop) (hP : ∀ cut m, P cut m → cut.Faithful ∧ Lines m) :
    (∀ s, Runs bad o cap P (Sys.init n srv t calls) s → OwnReplies s) ↔
      ∀ s c cut line rest, Runs bad o cap P (Sys.init n srv t calls) s → (s.conn c).up = true → (s.pend c).bind specCommand = some (line, rest) →
        P cut (serve s.srv (s.conn c).login s.now line).2.2 → Carried cut (serve s.srv (s.conn c).login s.now line).2.2 := by
  have step : ∀ {s s' a}, Inv bad o cap srv t s → Allowed P s a → act bad o cap s a = some s' →
      (∀ c cut line rest, (s.conn c).up = true → (s.pend c).bind specCommand = some (line, rest) →
        P cut (serve s.srv (s.conn c).login s.now line).2.2 → Carried cut (serve s.srv (s.conn c).login s.now line).2.2) → Inv bad o cap srv t s' := by
    intro s s' a hI ha hs h
    refine inv_clear hI ?_ hs
    cases a with
    | dial => exact ha
    | run c cut => exact fun hu line rest hb => h c cut line rest hu hb (ha line rest hb)
    | _ => trivial
  constructor
  · intro hA
    have hI : ∀ s, Runs bad o cap P (Sys.init n srv t calls) s → Inv bad o cap srv t s := by
      intro s h
      induction h with
      | refl => exact inv_init n srv t calls
      | snoc h1 ha hs ih => exact step ih ha hs fun c cut line rest hu hb hp => carried_next hP hA h1 ih hu hb hp
    exact fun s c cut line rest h hu hb hp => carried_next hP hA h (hI s h) hu hb hp
  · intro hB s h
    apply own_inv (srv := srv) (t := t)
    induction h with
    | refl => exact inv_init n srv t calls
    | snoc h1 ha hs ih => exact step ih ha hs fun c cut line rest hu hb hp => hB _ c cut line rest h1 hu hb hp

theorem evil_faithful : Cut.Faithful evilCut := by
  intro b
  by_cases h : b = ser (.bulk b!"a\n$4\r\nEVIL")
  · simp only [evilCut, h, if_true]; decide +kernel
  · simp [evilCut, h]

/-- A schedule whose replies are short is one the network may bring about if replies may be cut in any way. -/
theorem short_any {s : Sys} {as : List Act} (h : ∀ a ∈ as, match a with | .dial _ _ cut | .run _ cut => cut = evilCut | _ => True)
    (hs : short bad o cap s as = true) : AllowedAll bad o cap (fun cut m => cut.Faithful ∧ Lines m) s as := by
  induction as generalizing s with
  | nil => trivial
  | cons a as ih =>
    simp only [short, Bool.and_eq_true] at hs
    refine ⟨?_, fun s' hs' => ih (fun a ha => h a (List.mem_cons_of_mem _ ha)) (by rw [hs'] at hs; exact hs.2)⟩
    have ha := h a (by simp)
    cases a with
    | dial i reach cut => cases ha; exact evil_faithful
    | run c cut =>
      cases ha
      intro line rest hb
      have h1 := hs.1
      simp only [hb, Bool.and_eq_true, decide_eq_true_eq] at h1
      exact ⟨evil_faithful, fits_ofB h1.1⟩
    | _ => trivial

/-- What goroutine 0 has read, if it has connection 0 and that is up. -/
def first (s : Sys) : Option Msg :=
  match s.job 0, s.pool.thr[0]?, (s.conn 0).up with
  | .got _ (.ok m), some (Pool.PC.holding 0), true => some m
  | _, _, _ => none

/-- The last reply of the server. -/
def lastReply (s : Sys) : Option Msg :=
  match s.log.getLast? with
  | some (.run _ _ _ m) => some m
  | _ => none

/-- Both sides occur.  If only what the reader bears can come, the right side holds; if replies may be cut in any way, the left side
fails, and with it the right one. -/
example : (∀ s, Runs (fun _ => F64.zero) ⟨[], 0⟩ 1 (fun cut m => Carried cut m ∧ cut.Faithful) (Sys.init 2 openServer 0 evilCalls) s → OwnReplies s) ∧
    ¬ ∀ s, Runs (fun _ => F64.zero) ⟨[], 0⟩ 1 (fun cut m => cut.Faithful ∧ Lines m) (Sys.init 2 openServer 0 evilCalls) s → OwnReplies s := by
  refine ⟨(C106_exact 2 openServer 0 evilCalls _ fun _ _ h => ⟨h.2, h.1.1⟩).2 fun _ _ _ _ _ _ _ _ h => h.1, fun hA => ?_⟩
  have h : (runAll (fun _ => F64.zero) ⟨[], 0⟩ 1 (Sys.init 2 openServer 0 evilCalls)
      [.call 0, .get 0, .get 0, .dial 0 true evilCut, .get 0, .get 0, .get 0, .get 0, .send 0, .run 0 evilCut, .recv 0, .put 0,
       .call 0, .get 0, .send 0, .run 0 evilCut, .recv 0]).map (fun s => (first s, lastReply s)) =
      some (some (.bulk (b!"a" ++ List.replicate 9 0)), some (.bulk b!"a\n$4\r\nEVIL")) := by
    decide +kernel
  obtain ⟨s, h1, h2⟩ := Option.map_eq_some_iff.1 h
  have hr := runAll_runs .refl (short_any (by
    intro a ha
    simp only [List.mem_cons, List.not_mem_nil, or_false] at ha
    rcases ha with rfl | rfl | rfl | rfl | rfl | rfl | rfl | rfl | rfl | rfl | rfl | rfl | rfl | rfl | rfl | rfl | rfl <;> first | rfl | trivial)
    (by decide +kernel)) h1
  have e1 : first s = _ := congrArg Prod.fst h2
  have e2 : lastReply s = _ := congrArg Prod.snd h2
  simp only [first] at e1
  split at e1 <;> cases e1
  rename_i q _ _ _
  obtain ⟨_, X, u, m, hX, hm⟩ := hA s hr 0 0 q _ ⟨by assumption, by assumption⟩ (by assumption)
  cases hm
  simp only [lastReply] at e2
  split at e2 <;> cases e2
  rename_i c' u' l' hlast
  obtain ⟨L, hL⟩ := List.getLast?_eq_some_iff.1 hlast
  rw [hL, List.filter_append] at hX
  by_cases hc : c' = 0
  · subst hc
    have e : L.filter (onConn 0) ++ [Event.run 0 u' l' (.bulk b!"a\n$4\r\nEVIL")] = (X ++ [.send 0 0 q]) ++ [.run 0 u (args q) (.bulk (b!"a" ++ List.replicate 9 0))] := by
      rw [List.append_assoc]; exact hX
    have := (List.append_inj' e rfl).2
    simp only [List.cons.injEq, Event.run.injEq, Msg.bulk.injEq] at this
    exact absurd this.1.2.2.2 (by decide +kernel)
  · have hcon : c' = 0 := by
      have hk : (runAll (fun _ => F64.zero) ⟨[], 0⟩ 1 (Sys.init 2 openServer 0 evilCalls)
        [.call 0, .get 0, .get 0, .dial 0 true evilCut, .get 0, .get 0, .get 0, .get 0, .send 0, .run 0 evilCut, .recv 0, .put 0,
         .call 0, .get 0, .send 0, .run 0 evilCut, .recv 0]).map (fun s => s.log.all fun e => match e with | .run c _ _ _ => c == 0 | _ => true) = some true := by
        decide +kernel
      rw [h1] at hk
      have := List.all_eq_true.1 (Option.some.inj hk) (.run c' u' l' (.bulk b!"a\n$4\r\nEVIL")) (by rw [hL]; simp)
      simpa using this
    exact hc hcon

end Verif.Client.Many

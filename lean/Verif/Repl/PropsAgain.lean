import Verif.Repl.Again
/-!
# C122: New can be tried again
-/
namespace Verif.Repl.Again
open Verif.Resp

theorem prepare_file (o : Opts) : (prepare o).rdbFile ≠ [] := by
  unfold prepare; dsimp only; split
  · decide
  · assumption

theorem prepare_addr (o : Opts) : (prepare o).addr ≠ [] := by
  unfold prepare; dsimp only; split
  · decide
  · assumption

/-- What is outside, as the call sees it when `u` descriptors are open at its begin and `v` beside the connection when it loads: nothing
can be opened beyond the limit. -/
def limited (lim u v : Nat) (w : World) : World :=
  { w with dial := w.dial && decide (u < lim), create := w.create && decide (u + 1 < lim), reopen := w.reopen && decide (v + 1 < lim) }

/-- Descriptors open when `Load` begins, beside the connection. -/
def before (gc : Bool) (s : OS) : Nat := if gc then s.held else s.used + 1

/-- The call comes as far as the handler: it has saved a snapshot. -/
def Saved (lim : Nat) (t : Try) (s : OS) : Prop :=
  (syncWithRedis (limited lim s.used 0 t.w) (prepare t.o).addr (prepare t.o).rdbFile).1 = .ok ()

theorem open_none {lim : Nat} {s : OS} {ok : Bool} (h : (ok && decide (s.used < lim)) = false) : s.open_ lim ok = none := by
  unfold OS.open_
  rw [if_neg]
  intro hc
  simp [hc.1, hc.2] at h

theorem open_some {lim : Nat} {s : OS} {ok : Bool} (h : (ok && decide (s.used < lim)) = true) :
    s.open_ lim ok = some { s with held := s.held + 1 } := by
  unfold OS.open_
  rw [if_pos]
  simpa using h

theorem sync_limited (lim u v : Nat) (w : World) (a f : Bytes) :
    syncWithRedis (limited lim u v w) a f = syncWithRedis (limited lim u 0 w) a f := rfl

/-- `SyncWithRedis` with descriptors: the same result, and what it leaves. -/
theorem syncWithRedisR_eq (lim : Nat) (w : World) (o : Opts) (s : OS) :
    ∃ s1, syncWithRedisR lim w (prepare o).addr (prepare o).rdbFile s =
      ((syncWithRedis (limited lim s.used 0 w) (prepare o).addr (prepare o).rdbFile).1,
       (syncWithRedis (limited lim s.used 0 w) (prepare o).addr (prepare o).rdbFile).2.1,
       (syncWithRedis (limited lim s.used 0 w) (prepare o).addr (prepare o).rdbFile).2.2, s1) ∧ s1.gor = s.gor ∧
      ((syncWithRedis (limited lim s.used 0 w) (prepare o).addr (prepare o).rdbFile).1 = .ok () → s1 = ⟨s.held + 1, s.loose + 1, s.gor⟩) ∧
      (s1.held = s.held ∨ s1.held = s.held + 1) := by
  unfold syncWithRedisR syncWithRedis
  rw [if_neg (prepare_file o), if_neg (prepare_addr o), if_neg (prepare_file o), if_neg (prepare_addr o)]
  by_cases hd : (w.dial && decide (s.used < lim)) = true
  · rw [open_some hd, if_neg (by simpa [limited] using hd)]
    have hp : ping (limited lim s.used 0 w) (limited lim s.used 0 w).input = ping w w.input := rfl
    rw [hp]
    rcases ping w w.input with ⟨x, r⟩
    cases x with
    | ok u =>
      dsimp only
      unfold syncR sync
      by_cases hs : w.syncSent = false
      · rw [if_pos hs, if_pos (show (limited lim s.used 0 w).syncSent = false from hs)]
        exact ⟨_, rfl, rfl, (fun h => nomatch h), .inr rfl⟩
      · rw [if_neg hs, if_neg (show ¬ (limited lim s.used 0 w).syncSent = false from hs)]
        have hu : ({ s with held := s.held + 1 } : OS).used = s.used + 1 := by simp [OS.used]; omega
        by_cases hc : (w.create && decide (s.used + 1 < lim)) = true
        · rw [open_some (by rw [hu]; exact hc), if_neg (show ¬ (limited lim s.used 0 w).create = false by simpa [limited] using hc)]
          dsimp only
          rcases readWithWriter r with ⟨y, f, r'⟩
          cases y <;> exact ⟨_, rfl, rfl, (by intro h; first | rfl | cases h), .inr rfl⟩
        · have hc := Bool.eq_false_iff.2 hc
          rw [open_none (by rw [hu]; exact hc), if_pos (show (limited lim s.used 0 w).create = false from hc)]
          exact ⟨_, rfl, rfl, (fun h => nomatch h), .inr rfl⟩
    | err e => exact ⟨_, rfl, rfl, (fun h => nomatch h), .inr rfl⟩
    | panic => exact ⟨_, rfl, rfl, (fun h => nomatch h), .inr rfl⟩
  · have hd := Bool.eq_false_iff.2 hd
    rw [open_none hd, if_pos (show (limited lim s.used 0 w).dial = false from hd)]
    exact ⟨_, rfl, rfl, (fun h => nomatch h), .inl rfl⟩

/-- Goroutines of a call that saved a snapshot: the handler, and two more if it succeeds. -/
def spawned : GoRes NErr Unit → Nat
  | .ok () => 3
  | _ => 1

/-- What a call of `New` comes to and leaves: with the limit in the outside world it is the `New` of the other theorems; a call that
saved a snapshot leaves a connection and a goroutine, or three if it succeeds. -/
theorem newR_eq (ord : Rdb.MapOrd) (lim : Nat) (t : Try) (s : OS) :
    (newR ord lim t.gc t.w t.o s).1 = (new ord (limited lim s.used (before t.gc s) t.w) t.o).1 ∧
    (¬ Saved lim t s → (newR ord lim t.gc t.w t.o s).2.held = s.held ∧ (newR ord lim t.gc t.w t.o s).2.gor = s.gor) ∧
    (Saved lim t s → (newR ord lim t.gc t.w t.o s).2.held = s.held + 1 ∧
      (newR ord lim t.gc t.w t.o s).2.gor = s.gor + spawned (newR ord lim t.gc t.w t.o s).1) := by
  obtain ⟨s1, e1, e2, e3, e4⟩ := syncWithRedisR_eq lim t.w t.o s
  unfold newR new Saved
  rw [e1]
  dsimp only
  rw [sync_limited lim s.used (before t.gc s)]
  rcases h : syncWithRedis (limited lim s.used 0 t.w) (prepare t.o).addr (prepare t.o).rdbFile with ⟨x, f, r⟩
  rw [h] at e3
  cases x with
  | err e =>
    refine ⟨rfl, fun _ => ?_, (fun h => nomatch h)⟩
    dsimp only
    split
    · rename_i h; exact ⟨h, e2⟩
    · rename_i h
      rcases e4 with e4 | e4
      · exact absurd e4 h
      · exact ⟨by simp [OS.drop, e4], e2⟩
  | panic =>
    refine ⟨rfl, fun _ => ?_, (fun h => nomatch h)⟩
    dsimp only
    split
    · rename_i h; exact ⟨h, e2⟩
    · rename_i h
      rcases e4 with e4 | e4
      · exact absurd e4 h
      · exact ⟨by simp [OS.drop, e4], e2⟩
  | ok u =>
    have e3 := e3 rfl
    subst e3
    dsimp only
    generalize hs2 : (if t.gc then (OS.go ⟨s.held + 1, s.loose + 1, s.gor⟩).collect else OS.go ⟨s.held + 1, s.loose + 1, s.gor⟩) = s2
    have h2 : s2.held = s.held + 1 ∧ s2.gor = s.gor + 1 ∧ s2.used = before t.gc s + 1 := by
      rw [← hs2]
      unfold before
      cases t.gc <;> simp [OS.go, OS.collect, OS.used] <;> omega
    unfold finishR loadR
    by_cases ho : (t.w.reopen && decide (s2.used < lim)) = true
    · rw [open_some ho, if_neg (show ¬ (limited lim s.used (before t.gc s) t.w).reopen = false by simpa [limited, h2.2.2] using ho)]
      dsimp only
      rcases Rdb.load ord ⟨0, 0, [], 0, []⟩ ⟨[], [f.getD []]⟩ with ⟨y, z⟩
      cases y with
      | ok u => refine ⟨rfl, fun h => absurd rfl h, fun _ => ?_⟩; simp [OS.drop, OS.go, h2, spawned]
      | err e => refine ⟨rfl, fun h => absurd rfl h, fun _ => ?_⟩; simp [OS.drop, h2, spawned]
      | panic => refine ⟨rfl, fun h => absurd rfl h, fun _ => ?_⟩; simp [OS.drop, h2, spawned]
    · have ho := Bool.eq_false_iff.2 ho
      rw [open_none ho, if_pos (show (limited lim s.used (before t.gc s) t.w).reopen = false by simpa [limited, h2.2.2] using ho)]
      refine ⟨rfl, fun h => absurd rfl h, fun _ => ?_⟩
      simp [h2, spawned]

/-! ## Calls one after the other -/

/-- The call returned behind the start of the handler. -/
def began : GoRes NErr Unit → Bool
  | .err (.sync _) => false
  | _ => true

theorem saved_iff {ord : Rdb.MapOrd} {lim : Nat} {t : Try} {s : OS} (h : (newR ord lim t.gc t.w t.o s).1 ≠ .panic) :
    Saved lim t s ↔ began (newR ord lim t.gc t.w t.o s).1 = true := by
  rw [(newR_eq ord lim t s).1] at h ⊢
  unfold Saved
  revert h
  unfold new
  dsimp only
  rw [sync_limited lim s.used (before t.gc s)]
  rcases syncWithRedis (limited lim s.used 0 t.w) (prepare t.o).addr (prepare t.o).rdbFile with ⟨x, f, r⟩
  cases x with
  | err e => intro _; exact ⟨(fun h => nomatch h), (fun h => nomatch h)⟩
  | panic => intro h; exact absurd rfl h
  | ok u =>
    intro _
    refine ⟨fun _ => ?_, fun _ => rfl⟩
    dsimp only
    split
    · rfl
    · split <;> rfl

/-- How many of the calls returned behind the start of the handler. -/
def begun (l : List (Try × GoRes NErr Unit)) : Nat := (l.filter (fun x => began x.2)).length

theorem begun_snoc (l : List (Try × GoRes NErr Unit)) (x : Try × GoRes NErr Unit) :
    begun (l ++ [x]) = begun l + if began x.2 then 1 else 0 := by
  unfold begun
  rw [List.filter_append, List.length_append]
  cases h : began x.2 <;> simp [h]

/-- Goroutines the calls have left. -/
def running (l : List (Try × GoRes NErr Unit)) : Nat := (l.map (fun x => if began x.2 then spawned x.2 else 0)).sum

theorem running_snoc (l : List (Try × GoRes NErr Unit)) (x : Try × GoRes NErr Unit) :
    running (l ++ [x]) = running l + if began x.2 then spawned x.2 else 0 := by
  unfold running
  rw [List.map_append, List.sum_append]
  simp

theorem tries_held {ord : Rdb.MapOrd} {lim : Nat} {s0 s : OS} {l : List (Try × GoRes NErr Unit)} (h : Tries ord lim s0 l s)
    (hp : ∀ x ∈ l, x.2 ≠ .panic) : s.held = s0.held + begun l ∧ s.gor = s0.gor + running l := by
  induction h with
  | start => exact ⟨rfl, rfl⟩
  | collect _ ih => exact ih hp
  | @call l s t _ ih =>
    obtain ⟨i1, i2⟩ := ih (fun x hx => hp x (by simp [hx]))
    have hn := saved_iff (hp (t, (newR ord lim t.gc t.w t.o s).1) (by simp))
    obtain ⟨_, n1, n2⟩ := newR_eq ord lim t s
    rw [begun_snoc, running_snoc]
    dsimp only
    by_cases hs : Saved lim t s
    · rw [hn.1 hs, (n2 hs).1, (n2 hs).2, i1, i2]
      simp
      omega
    · have : began (newR ord lim t.gc t.w t.o s).1 = false := Bool.eq_false_iff.2 (fun hb => hs (hn.2 hb))
      rw [this, (n1 hs).1, (n1 hs).2]
      exact ⟨i1, i2⟩

/-- C122, what calls of `New` that returned take up for good: a connection for each one that came as far as opening the snapshot again,
and one goroutine for each of these that failed, three for each that succeeded. -/
theorem C122_kept (ord : Rdb.MapOrd) (lim : Nat) (s0 s : OS) (l : List (Try × GoRes NErr Unit)) (h : Tries ord lim s0 l s)
    (hp : ∀ x ∈ l, x.2 ≠ .panic) : s.collect = ⟨s0.held + begun l, 0, s0.gor + running l⟩ := by
  unfold OS.collect
  rw [(tries_held h hp).1, (tries_held h hp).2]

theorem new_ok {ord : Rdb.MapOrd} {w : World} {o : Opts} (h : (new ord w o).1 = .ok ()) : w.dial = true ∧ w.create = true ∧ w.reopen = true := by
  unfold new syncWithRedis sync at h
  dsimp only at h
  rw [if_neg (prepare_file o), if_neg (prepare_addr o)] at h
  cases hd : w.dial
  · rw [if_pos hd] at h; cases h
  · rw [if_neg (by simp [hd])] at h
    rcases hp : ping w w.input with ⟨x, r⟩
    rw [hp] at h
    cases x with
    | err e => cases h
    | panic => cases h
    | ok u =>
      dsimp only at h
      by_cases hs : w.syncSent = false
      · rw [if_pos hs] at h; cases h
      · rw [if_neg hs] at h
        cases hc : w.create
        · rw [if_pos hc] at h; cases h
        · rw [if_neg (by simp [hc])] at h
          refine ⟨rfl, rfl, ?_⟩
          rcases hq : readWithWriter r with ⟨y, f, r'⟩
          rw [hq] at h
          cases y with
          | err e => cases h
          | panic => cases h
          | ok u =>
            dsimp only at h
            cases hr : w.reopen
            · rw [if_pos hr] at h; cases h
            · rfl

/-- When all is well outside, `New` succeeds exactly if there is room for what it opens. -/
theorem well_iff {ord : Rdb.MapOrd} {lim : Nat} {t : Try} (h : (new ord t.w t.o).1 = .ok ()) (s : OS) :
    (newR ord lim t.gc t.w t.o s).1 = .ok () ↔ s.used + 2 ≤ lim ∧ before t.gc s + 2 ≤ lim := by
  obtain ⟨w1, w2, w3⟩ := new_ok h
  rw [(newR_eq ord lim t s).1]
  constructor
  · intro hn
    obtain ⟨_, l2, l3⟩ := new_ok hn
    simp [limited, w2, w3] at l2 l3
    omega
  · intro ⟨h1, h2⟩
    have : limited lim s.used (before t.gc s) t.w = t.w := by
      have d1 : s.used < lim := by omega
      have d2 : s.used + 1 < lim := by omega
      have d3 : before t.gc s + 1 < lim := by omega
      cases t with
      | mk w o gc => cases w; simp_all [limited]
    rw [this]
    exact h

/-- C122, exactly: after any calls of `New` that returned, and after garbage was collected, a call of `New` when all is well outside
succeeds exactly if there is room for its three descriptors (two if garbage is collected once more before it loads) beside one connection
for every earlier call that came as far as opening the snapshot again, failed or not. -/
theorem C122_exact (ord : Rdb.MapOrd) (lim : Nat) (s0 s : OS) (l : List (Try × GoRes NErr Unit)) (h : Tries ord lim s0 l s)
    (hp : ∀ x ∈ l, x.2 ≠ .panic) (t : Try) (hw : (new ord t.w t.o).1 = .ok ()) :
    (newR ord lim t.gc t.w t.o s.collect).1 = .ok () ↔ s0.held + begun l + (if t.gc then 2 else 3) ≤ lim := by
  rw [well_iff hw, ← (tries_held h hp).1]
  unfold before OS.used OS.collect
  cases t.gc <;> simp <;> omega

/-- C122, the calls for which it holds: those that fail before they open the snapshot again leave nothing behind but garbage, so a later
call comes to what it would have come to at first.  Missing: `C122_violated`. -/
theorem C122_not_saved_partial (ord : Rdb.MapOrd) (lim : Nat) (s0 s : OS) (l : List (Try × GoRes NErr Unit)) (h : Tries ord lim s0 l s)
    (hf : ∀ x ∈ l, ∃ e, x.2 = .err (.sync e)) (hr : s0.held + 3 ≤ lim) (t : Try) :
    s.collect = ⟨s0.held, 0, s0.gor⟩ ∧ (newR ord lim t.gc t.w t.o s.collect).1 = (new ord t.w t.o).1 := by
  have key : s.held = s0.held ∧ s.gor = s0.gor := by
    induction h with
    | start => exact ⟨rfl, rfl⟩
    | collect _ ih => exact ih hf
    | @call l s t _ ih =>
      obtain ⟨i1, i2⟩ := ih (fun x hx => hf x (by simp [hx]))
      obtain ⟨e, he⟩ := hf (t, (newR ord lim t.gc t.w t.o s).1) (by simp)
      dsimp only at he
      have hn := saved_iff (ord := ord) (lim := lim) (t := t) (s := s) (by rw [he]; exact (fun h => nomatch h))
      rw [he] at hn
      obtain ⟨n1, n2⟩ := (newR_eq ord lim t s).2.1 (fun hs => nomatch hn.1 hs)
      exact ⟨n1.trans i1, n2.trans i2⟩
  have hc : s.collect = ⟨s0.held, 0, s0.gor⟩ := by unfold OS.collect; rw [key.1, key.2]
  refine ⟨hc, ?_⟩
  rw [(newR_eq ord lim t s.collect).1, hc]
  have : limited lim (OS.mk s0.held 0 s0.gor).used (before t.gc ⟨s0.held, 0, s0.gor⟩) t.w = t.w := by
    have d1 : s0.held < lim := by omega
    have d2 : s0.held + 1 < lim := by omega
    have d3 : s0.held + 1 + 1 < lim := by omega
    cases t with
    | mk w o gc => cases w; cases gc <;> simp [limited, before, OS.used, d1, d2, d3]
  rw [this]

/-! ## Failures that are not forgotten -/

/-- No room for a connection and a file beside the connections that are held. -/
def Full (lim : Nat) (s : OS) : Prop := lim < s.held + 2

theorem full_fails {ord : Rdb.MapOrd} {lim : Nat} {s : OS} (h : Full lim s) (t : Try) : (newR ord lim t.gc t.w t.o s).1 ≠ .ok () := by
  intro hn
  rw [(newR_eq ord lim t s).1] at hn
  obtain ⟨_, l2, _⟩ := new_ok hn
  simp [limited, OS.used] at l2
  have := of_decide_eq_true l2.2
  unfold Full at h
  omega

theorem full_stays {ord : Rdb.MapOrd} {lim : Nat} {s s' : OS} {l : List (Try × GoRes NErr Unit)} (h : Full lim s)
    (ht : Tries ord lim s l s') : Full lim s' ∧ ∀ x ∈ l, x.2 ≠ .ok () := by
  induction ht with
  | start => exact ⟨h, by simp⟩
  | collect _ ih => exact ih
  | @call l s t _ ih =>
    obtain ⟨i1, i2⟩ := ih
    refine ⟨?_, ?_⟩
    · obtain ⟨_, n1, n2⟩ := newR_eq ord lim t s
      unfold Full at i1 ⊢
      by_cases hs : Saved lim t s
      · rw [(n2 hs).1]; omega
      · rw [(n1 hs).1]; exact i1
    · intro x hx
      rcases List.mem_append.1 hx with hx | hx
      · exact i2 x hx
      · rw [List.mem_singleton.1 hx]; exact full_fails i1 t

/-- A master that answers the ping and then sends an empty snapshot. -/
def emptySnapshot : World := ⟨true, true, true, true, true, ⟨[], [b!"+PONG\r\n$0\r\n"]⟩⟩

def badTry : Try := ⟨emptySnapshot, ⟨[], [], 0⟩, true⟩

theorem badTry_load (ord : Rdb.MapOrd) : ∃ e, (new ord emptySnapshot ⟨[], [], 0⟩).1 = .err (.load e) := ⟨_, rfl⟩

theorem bad_step {ord : Rdb.MapOrd} {lim n g : Nat} (h : n + 2 ≤ lim) :
    ∃ e g', (newR ord lim badTry.gc badTry.w badTry.o ⟨n, 0, g⟩).1 = .err e ∧
      (newR ord lim badTry.gc badTry.w badTry.o ⟨n, 0, g⟩).2.collect = ⟨n + 1, 0, g'⟩ := by
  obtain ⟨e, he⟩ := badTry_load ord
  have hl : limited lim (OS.mk n 0 g).used (before badTry.gc ⟨n, 0, g⟩) badTry.w = emptySnapshot := by
    have d1 : n < lim := by omega
    have d2 : n + 1 < lim := by omega
    simp [limited, OS.used, before, badTry, emptySnapshot, d1, d2]
  have hr : (newR ord lim badTry.gc badTry.w badTry.o ⟨n, 0, g⟩).1 = .err (.load e) := by
    rw [(newR_eq ord lim badTry ⟨n, 0, g⟩).1, hl]
    exact he
  have hs := (saved_iff (ord := ord) (lim := lim) (t := badTry) (s := ⟨n, 0, g⟩) (by rw [hr]; exact (fun h => nomatch h))).2 (by rw [hr]; rfl)
  refine ⟨.load e, (newR ord lim badTry.gc badTry.w badTry.o ⟨n, 0, g⟩).2.gor, hr, ?_⟩
  show OS.mk _ 0 _ = _
  rw [((newR_eq ord lim badTry ⟨n, 0, g⟩).2.2 hs).1]

theorem bad_tries (ord : Rdb.MapOrd) (lim n : Nat) (h : n + 1 ≤ lim) :
    ∃ l g, Tries ord lim ⟨0, 0, 0⟩ l ⟨n, 0, g⟩ ∧ l.length = n ∧ ∀ x ∈ l, x.1 = badTry ∧ ∃ e, x.2 = .err e := by
  induction n with
  | zero => exact ⟨[], 0, .start, rfl, by simp⟩
  | succ n ih =>
    obtain ⟨l, g, h1, h2, h3⟩ := ih (by omega)
    obtain ⟨e, g', b1, b2⟩ := bad_step (ord := ord) (lim := lim) (n := n) (g := g) (by omega)
    refine ⟨l ++ [(badTry, _)], g', b2 ▸ (h1.call badTry).collect, by simp [h2], ?_⟩
    intro x hx
    rcases List.mem_append.1 hx with hx | hx
    · exact h3 x hx
    · rw [List.mem_singleton.1 hx]; exact ⟨rfl, e, b1⟩

/-- C122 is false, whatever the limit is: after `lim - 1` calls that found an empty snapshot no call of `New` ever succeeds again,
however well the master is and however often garbage is collected. -/
theorem C122_violated (ord : Rdb.MapOrd) (lim : Nat) : ∃ l s, Tries ord lim ⟨0, 0, 0⟩ l s ∧ l.length = lim - 1 ∧ (∀ x ∈ l, ∃ e, x.2 = .err e) ∧
    ∀ l' s', Tries ord lim s l' s' → ∀ x ∈ l', x.2 ≠ .ok () := by
  cases lim with
  | zero => exact ⟨[], _, .start, rfl, by simp, fun l' s' h => (full_stays (by simp [Full]) h).2⟩
  | succ n =>
    obtain ⟨l, g, h1, h2, h3⟩ := bad_tries ord (n + 1) n (Nat.le_refl _)
    exact ⟨l, _, h1, by simpa using h2, fun x hx => (h3 x hx).2, fun l' s' h => (full_stays (by simp [Full]) h).2⟩

/-- With room for a thousand descriptors: after ten failures a call with a good snapshot succeeds, after 998 it does not. -/
example : (new Rdb.idOrd sampleWorld ⟨[], [], 0⟩).1 = .ok () ∧
    (∃ l g, Tries Rdb.idOrd 1000 ⟨0, 0, 0⟩ l ⟨10, 0, g⟩ ∧ (newR Rdb.idOrd 1000 false sampleWorld ⟨[], [], 0⟩ ⟨10, 0, g⟩).1 = .ok ()) ∧
    (∃ l g, Tries Rdb.idOrd 1000 ⟨0, 0, 0⟩ l ⟨998, 0, g⟩ ∧ (newR Rdb.idOrd 1000 false sampleWorld ⟨[], [], 0⟩ ⟨998, 0, g⟩).1 ≠ .ok ()) := by
  have hw : (new Rdb.idOrd sampleWorld ⟨[], [], 0⟩).1 = .ok () := by decide +kernel
  refine ⟨hw, ?_, ?_⟩
  · obtain ⟨l, g, h1, _, _⟩ := bad_tries Rdb.idOrd 1000 10 (by omega)
    exact ⟨l, g, h1, (well_iff (lim := 1000) (t := ⟨sampleWorld, ⟨[], [], 0⟩, false⟩) hw _).2 (by simp [OS.used, before])⟩
  · obtain ⟨l, g, h1, _, _⟩ := bad_tries Rdb.idOrd 1000 998 (by omega)
    exact ⟨l, g, h1, fun h => by
      have := (well_iff (lim := 1000) (t := ⟨sampleWorld, ⟨[], [], 0⟩, false⟩) hw _).1 h
      simp [OS.used, before] at this⟩

/-- Calls that fail because the master does not answer leave nothing. -/
example : ∃ s, Tries Rdb.idOrd 3 ⟨0, 0, 0⟩ [(⟨{ sampleWorld with input := ⟨[], []⟩ }, ⟨[], [], 0⟩, false⟩, .err (.sync (.read .eof)))] s ∧ s.loose = 1 := by
  refine ⟨_, Tries.call ⟨{ sampleWorld with input := ⟨[], []⟩ }, ⟨[], [], 0⟩, false⟩ .start, ?_⟩
  decide +kernel

end Verif.Repl.Again

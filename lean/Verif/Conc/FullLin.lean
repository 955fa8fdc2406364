import Verif.Conc.Reorder
import Verif.Conc.Locks
/-!
# Runs without conflicts are sequential histories
-/
namespace Verif.Conc.Full
open Verif Verif.Conc

/-- No two calls in progress conflict. -/
def FreeOf (D : Bytes → Prop) (g : Cfg) : Prop :=
  ∀ i j a b p q, i ≠ j → (g.thr i).cur = some (a, p) → (g.thr j).cur = some (b, q) → ¬ Conflict D a b

/-- A run along which no two calls in progress conflict. -/
inductive Quiet (D : Bytes → Prop) (g0 : Cfg) : Cfg → Prop
  | refl : Quiet D g0 g0
  | snoc {g1 g2 : Cfg} : Quiet D g0 g1 → Step spec true g1 g2 → FreeOf D g2 → Quiet D g0 g2

theorem Quiet.steps {D : Bytes → Prop} {g0 g : Cfg} (h : Quiet D g0 g) : Steps spec true g0 g := by
  induction h with
  | refl => exact .refl
  | snoc _ s _ ih => exact .snoc ih s

/-! ## When calls begin and return -/

/-- The clock at the latest call of each goroutine, one step further: a goroutine begins a call when it had none in progress and has one
afterwards. -/
def beganNext (g g' : Cfg) (b : Nat → Int) (i : Nat) : Int :=
  if (g.thr i).cur.isNone = true ∧ (g'.thr i).cur.isSome = true then g.sh.now else b i

/-- The clock at the call and at the return of each call in the log, one step further. -/
def spansNext (g g' : Cfg) (b : Nat → Int) (sp : List (Int × Int)) : List (Int × Int) :=
  sp ++ (g'.log.drop g.log.length).map (fun e => (b e.1, g.sh.now))

/-- A run with the clock readings at which its calls began and returned: `sp` has one pair for each entry of the log. -/
inductive Clocked (g0 : Cfg) : Cfg → (Nat → Int) → List (Int × Int) → Prop
  | refl {b : Nat → Int} : Clocked g0 g0 b []
  | snoc {g1 g2 : Cfg} {b : Nat → Int} {sp : List (Int × Int)} : Clocked g0 g1 b sp → Step spec true g1 g2 →
      Clocked g0 g2 (beganNext g1 g2 b) (spansNext g1 g2 b sp)

theorem Clocked.steps {g0 g : Cfg} {b : Nat → Int} {sp : List (Int × Int)} (h : Clocked g0 g b sp) : Steps spec true g0 g := by
  induction h with
  | refl => exact .refl
  | snoc _ s ih => exact .snoc ih s

/-- The same, of a run along which no two calls in progress conflict. -/
inductive ClockedQuiet (D : Bytes → Prop) (g0 : Cfg) : Cfg → (Nat → Int) → List (Int × Int) → Prop
  | refl {b : Nat → Int} : ClockedQuiet D g0 g0 b []
  | snoc {g1 g2 : Cfg} {b : Nat → Int} {sp : List (Int × Int)} : ClockedQuiet D g0 g1 b sp → Step spec true g1 g2 → FreeOf D g2 →
      ClockedQuiet D g0 g2 (beganNext g1 g2 b) (spansNext g1 g2 b sp)

theorem clockedQuiet {D : Bytes → Prop} {g0 g : Cfg} (h : Quiet D g0 g) : ∃ b sp, ClockedQuiet D g0 g b sp := by
  induction h with
  | refl => exact ⟨fun _ => 0, [], .refl⟩
  | snoc _ s f ih =>
    obtain ⟨b, sp, h⟩ := ih
    exact ⟨_, _, h.snoc s f⟩

/-- Every run has such readings. -/
theorem clocked {g0 g : Cfg} (h : Steps spec true g0 g) : ∃ b sp, Clocked g0 g b sp := by
  induction h with
  | refl => exact ⟨fun _ => 0, [], .refl⟩
  | snoc _ s ih =>
    obtain ⟨b, sp, h⟩ := ih
    exact ⟨_, _, h.snoc s⟩

/-- Invariant: `L` is the log with times. -/
structure QInv (D : Bytes → Prop) (c0 : Cache) (t0 : Int) (g : Cfg) (b : Nat → Int) (sp : List (Int × Int)) (L : List Entry) : Prop where
  wf : g.sh.WF
  dead : ∀ k, D k → g.sh.exp k = none
  dead0 : ∀ k, D k → (run c0 (hist L)).exp k = none
  plain : ∀ i, ∀ op ∈ (g.thr i).todo, Plain D op
  log : logged L = g.log
  lplain : ∀ e ∈ L, Plain D e.op
  agrees : Agrees c0 L
  start : t0 ≤ g.sh.now
  times : ∀ e ∈ L, t0 ≤ e.time ∧ e.time ≤ g.sh.now
  order : L.Pairwise (fun a b => a.time ≤ b.time ∨ Free2 D a b)
  idle : ∀ k, (∀ i op p, (g.thr i).cur = some (op, p) → ¬ may D op k) → SameAt g.sh.abs (run c0 (hist L)) k
  act : ∀ i op p, (g.thr i).cur = some (op, p) → Plain D op ∧ ∃ c, (∀ k, touches op k → SameAt c (run c0 (hist L)) k) ∧ t0 ≤ b i ∧
    Safe (touches op) (may D op) D (Post c (b i) op) p g.sh ∧
    ∀ e ∈ L, e.time ≤ b i ∨ (e.thread ≠ i ∧ ¬ Conflict D e.op op)
  free : FreeOf D g
  len : L.length = sp.length
  spans : ∀ x ∈ L.zip sp, t0 ≤ x.2.1 ∧ x.2.1 ≤ x.1.time ∧ x.1.time ≤ x.2.2 ∧ x.2.2 ≤ g.sh.now

theorem Guar.sameAt {W D : Bytes → Prop} {v w : Mem} (h : Guar W D v w) {k : Bytes} (hk : ¬ W k) : SameAt w.abs v.abs k :=
  ((h.rely (K := fun j => j = k) (fun _ hj => hj ▸ hk)).sameAt rfl).symm

theorem beganNext_other {g g' : Cfg} {b : Nat → Int} {i : Nat} (h : (g'.thr i).cur.isSome = true → (g.thr i).cur.isSome = true) :
    beganNext g g' b i = b i := by
  unfold beganNext
  rw [if_neg]
  rintro ⟨h1, h2⟩
  have := h h2
  cases hc : (g.thr i).cur <;> simp_all

theorem spansNext_same {g g' : Cfg} {b : Nat → Int} {sp : List (Int × Int)} (h : g'.log = g.log) : spansNext g g' b sp = sp := by
  simp [spansNext, h]

theorem qinv_step {D : Bytes → Prop} {c0 : Cache} {t0 : Int} {g g' : Cfg} {b : Nat → Int} {sp : List (Int × Int)} {L : List Entry}
    (st : Step spec true g g') (hf : FreeOf D g') (inv : QInv D c0 t0 g b sp L) :
    ∃ L', QInv D c0 t0 g' (beganNext g g' b) (spansNext g g' b sp) L' := by
  have start : ∀ (i : Nat) (op : Call) (rest : List Call) (w : Option Nat) (r : List Nat),
      g.thr i = ⟨op :: rest, none⟩ →
      FreeOf D { g with writer := w, readers := r, thr := setThr g.thr i ⟨rest, some (op, prog op)⟩ } →
      ∀ g', g' = { g with writer := w, readers := r, thr := setThr g.thr i ⟨rest, some (op, prog op)⟩ } →
      QInv D c0 t0 g' (beganNext g g' b) (spansNext g g' b sp) L := by
    intro i op rest w r hi hf g' hg'
    have hb : beganNext g g' b i = g.sh.now := by
      subst hg'
      simp [beganNext, hi]
    have hbo : ∀ j, j ≠ i → beganNext g g' b j = b j := fun j hj => beganNext_other (by subst hg'; simp [setThr_ne _ _ hj])
    have hsp : spansNext g g' b sp = sp := spansNext_same (by subst hg'; rfl)
    rw [hsp]
    subst hg'
    have hop : Plain D op := inv.plain i op (by rw [hi]; simp)
    have other : ∀ j a p, (g.thr j).cur = some (a, p) → j ≠ i := by
      rintro j a p h rfl
      rw [hi] at h
      cases h
    have nm : ∀ k, touches op k → ∀ j a p, (g.thr j).cur = some (a, p) → ¬ may D a k := by
      intro k hk j a p hj hm
      have hji := other j a p hj
      refine hf j i a op p (prog op) hji ?_ ?_ ⟨k, .inl ⟨hm, hk⟩⟩
      · simp only; rw [setThr_ne _ _ hji]; exact hj
      · simp
    refine ⟨inv.wf, inv.dead, inv.dead0, ?_, inv.log, inv.lplain, inv.agrees, inv.start, inv.times, inv.order, ?_, ?_, hf,
      inv.len, inv.spans⟩
    · intro j a ha
      by_cases hj : j = i
      · subst hj
        simp only [setThr_same] at ha
        exact inv.plain j a (by rw [hi]; simp [ha])
      · simp only [setThr_ne _ _ hj] at ha
        exact inv.plain j a ha
    · intro k hk
      refine inv.idle k (fun j a p hj => hk j a p ?_)
      simp only; rw [setThr_ne _ _ (other j a p hj)]; exact hj
    · intro j a p hj
      by_cases hji : j = i
      · subst hji
        simp only [setThr_same, Option.some.injEq, Prod.mk.injEq] at hj
        obtain ⟨rfl, rfl⟩ := hj
        rw [hb]
        refine ⟨hop, g.sh.abs, fun k hk => inv.idle k (nm k hk), inv.start, safe_prog _ inv.wf inv.dead hop, ?_⟩
        exact fun e he => .inl (inv.times e he).2
      · simp only [setThr_ne _ _ hji] at hj
        rw [hbo j hji]
        exact inv.act j a p hj
  cases st with
  | tick s' hh =>
    obtain ⟨n, hn, rfl⟩ := hh
    rw [show beganNext g { g with sh := { g.sh with now := n } } b = b from funext fun i => beganNext_other id,
      spansNext_same (g := g) (g' := { g with sh := { g.sh with now := n } }) (b := b) (sp := sp) rfl]
    refine ⟨L, ⟨⟨inv.wf.alloc, inv.wf.inj, inv.wf.names⟩, inv.dead, inv.dead0, inv.plain, inv.log, inv.lplain, inv.agrees,
      Int.le_trans inv.start hn, fun e he => ⟨(inv.times e he).1, Int.le_trans (inv.times e he).2 hn⟩, inv.order, inv.idle, ?_, hf,
      inv.len, fun x hx => ⟨(inv.spans x hx).1, (inv.spans x hx).2.1, (inv.spans x hx).2.2.1, Int.le_trans (inv.spans x hx).2.2.2 hn⟩⟩⟩
    intro i op p hi
    obtain ⟨h0, c, h1, h2, h3, h4⟩ := inv.act i op p hi
    exact ⟨h0, c, h1, h2, h3.later (post_firm _ _ _)
      ⟨fun _ _ => rfl, fun _ _ => rfl, fun _ _ _ _ => rfl, Nat.le_refl _, hn⟩, h4⟩
  | startW i op rest ht hm hw hr => exact ⟨L, start i op rest _ _ ht hf _ rfl⟩
  | startR i op rest ht hm hw hr => exact ⟨L, start i op rest _ _ ht hf _ rfl⟩
  | startN i op rest ht hm => exact ⟨L, start i op rest _ _ ht hf _ rfl⟩
  | act i op todo u q ht =>
    have hi : (g.thr i).cur = some (op, .act u q) := by rw [ht]
    obtain ⟨h0, c, h1, h2, h3, h4⟩ := inv.act i op _ hi
    rw [show beganNext g { g with sh := u g.sh, thr := setThr g.thr i ⟨todo, some (op, q g.sh)⟩ } b = b from funext fun j =>
      beganNext_other (by by_cases hj : j = i
                          · subst hj; simp [hi]
                          · simp [setThr_ne _ _ hj]),
      spansNext_same (g := g) (g' := { g with sh := u g.sh, thr := setThr g.thr i ⟨todo, some (op, q g.sh)⟩ }) (b := b) (sp := sp) rfl]
    obtain ⟨w1, w2, w3⟩ := h3 g.sh inv.wf (.refl _)
    refine ⟨L, ⟨w1, fun k hk => w2.dead k hk (inv.dead k hk), inv.dead0, ?_, inv.log, inv.lplain, inv.agrees, ?_, ?_, inv.order,
      ?_, ?_, hf, inv.len, fun x hx => by show _ ∧ _ ∧ _ ∧ _ ≤ (u g.sh).now; rw [w2.now]; exact inv.spans x hx⟩⟩
    · intro j a ha
      by_cases hj : j = i
      · subst hj
        simp only [setThr_same] at ha
        exact inv.plain j a (by rw [ht]; exact ha)
      · simp only [setThr_ne _ _ hj] at ha
        exact inv.plain j a ha
    · show t0 ≤ (u g.sh).now
      rw [w2.now]; exact inv.start
    · intro e he
      show t0 ≤ e.time ∧ e.time ≤ (u g.sh).now
      rw [w2.now]; exact inv.times e he
    · intro k hk
      have hnot : ¬ may D op k := hk i op (q g.sh) (by simp)
      refine (w2.sameAt hnot).trans (inv.idle k (fun j a p hj => ?_))
      by_cases hji : j = i
      · subst hji
        rw [hi] at hj
        cases hj
        exact hnot
      · exact hk j a p (by simp only; rw [setThr_ne _ _ hji]; exact hj)
    · intro j a p hj
      by_cases hji : j = i
      · subst hji
        simp only [setThr_same, Option.some.injEq, Prod.mk.injEq] at hj
        obtain ⟨rfl, rfl⟩ := hj
        exact ⟨h0, c, h1, h2, w3, h4⟩
      · simp only [setThr_ne _ _ hji] at hj
        obtain ⟨k0, c', k1, k2, k3, k4⟩ := inv.act j a p hj
        refine ⟨k0, c', k1, k2, k3.later (post_firm _ _ _) (w2.rely ?_), k4⟩
        exact fun k hk hm => inv.free i j op a _ _ (Ne.symm hji) hi hj ⟨k, .inl ⟨hm, hk⟩⟩
  | fin i op todo o ht =>
    have hi : (g.thr i).cur = some (op, .ret o) := by rw [ht]
    obtain ⟨h0, c, h1, h2, ⟨t, p1, p2, p3, p4⟩, h4⟩ := inv.act i op _ hi
    rw [show beganNext g { g with writer := unlockW (spec.mode op) g.writer, readers := unlockR (spec.mode op) i g.readers, thr := setThr g.thr i ⟨todo, none⟩, log := g.log ++ [(i, op, o)] } b = b from funext fun j =>
      beganNext_other (by by_cases hj : j = i
                          · subst hj; simp [hi]
                          · simp [setThr_ne _ _ hj]),
      show spansNext g { g with writer := unlockW (spec.mode op) g.writer, readers := unlockR (spec.mode op) i g.readers, thr := setThr g.thr i ⟨todo, none⟩, log := g.log ++ [(i, op, o)] } b sp = sp ++ [(b i, g.sh.now)] by simp [spansNext]]
    obtain ⟨e1, e2⟩ := touches_congr h1 t
    have hh : hist (L ++ [⟨i, t, op, o⟩]) = hist L ++ [(t, op)] := by simp [hist]
    have other : ∀ j a p, j ≠ i → (g.thr j).cur = some (a, p) → (∀ k, touches a k → ¬ may D op k) :=
      fun j a p hji hj k hk hm => inv.free i j op a _ _ (Ne.symm hji) hi hj ⟨k, .inl ⟨hm, hk⟩⟩
    refine ⟨L ++ [⟨i, t, op, o⟩], ⟨inv.wf, inv.dead, ?_, ?_, ?_, ?_, ?_, inv.start, ?_, ?_, ?_, ?_, hf, by simp [inv.len], ?_⟩⟩
    · rw [hh, run_snoc]; exact exec_dead h0 inv.dead0
    · intro j a ha
      by_cases hj : j = i
      · subst hj
        simp only [setThr_same] at ha
        exact inv.plain j a (by rw [ht]; exact ha)
      · simp only [setThr_ne _ _ hj] at ha
        exact inv.plain j a ha
    · simp only [logged, List.map_append]
      exact congrArg (· ++ [(i, op, o)]) inv.log
    · intro e he
      rcases List.mem_append.1 he with he | he
      · exact inv.lplain e he
      · simp at he; subst he; exact h0
    · unfold Agrees
      rw [hh, outs_snoc, ← e1, p3, inv.agrees]
      simp
    · intro e he
      rcases List.mem_append.1 he with he | he
      · exact inv.times e he
      · simp at he; subst he; exact ⟨Int.le_trans h2 p1, p2⟩
    · refine List.pairwise_append.2 ⟨inv.order, by simp, ?_⟩
      intro a ha b hb
      simp at hb
      subst hb
      rcases h4 a ha with h | h
      · exact .inl (Int.le_trans h p1)
      · exact .inr h
    · intro k hk
      rw [hh, run_snoc]
      by_cases htk : touches op k
      · exact (p4 k htk).symm.trans (e2 k htk)
      · refine SameAt.trans (inv.idle k (fun j a p hj => ?_)) (exec_untouched htk).symm
        by_cases hji : j = i
        · subst hji
          rw [hi] at hj
          cases hj
          exact fun hm => htk (may_touches hm)
        · exact hk j a p (by simp only; rw [setThr_ne _ _ hji]; exact hj)
    · intro j a p hj
      by_cases hji : j = i
      · subst hji
        simp at hj
      · simp only [setThr_ne _ _ hji] at hj
        obtain ⟨k0, c', k1, k2, k3, k4⟩ := inv.act j a p hj
        refine ⟨k0, c', fun k hk => (k1 k hk).trans ?_, k2, k3, ?_⟩
        · rw [hh, run_snoc]
          exact (exec_same (other j a p hji hj k hk) (inv.dead0 k)).symm
        · intro e he
          rcases List.mem_append.1 he with he | he
          · exact k4 e he
          · simp at he; subst he
            exact .inr ⟨Ne.symm hji, inv.free i j op a _ _ (Ne.symm hji) hi hj⟩
    · rw [List.zip_append inv.len]
      intro x hx
      rcases List.mem_append.1 hx with hx | hx
      · exact inv.spans x hx
      · simp at hx; subst hx; exact ⟨h2, p1, p2, Int.le_refl _⟩

theorem qinv_clocked {D : Bytes → Prop} {v : Mem} {calls : Nat → List Call} (hv : v.WF) (hD : ∀ k, D k → v.exp k = none)
    (hp : ∀ i, ∀ op ∈ calls i, Plain D op) {g : Cfg} {b : Nat → Int} {sp : List (Int × Int)}
    (hc : ClockedQuiet D (initial v calls) g b sp) : ∃ L, QInv D v.abs v.now g b sp L := by
  induction hc with
  | refl =>
    exact ⟨[], ⟨hv, hD, hD, hp, rfl, by simp, rfl, Int.le_refl _, by simp, by simp, fun k _ => .rfl', by simp [initial],
      by simp [FreeOf, initial], rfl, by simp⟩⟩
  | snoc _ st hf ih =>
    obtain ⟨L, inv⟩ := ih
    exact qinv_step st hf inv

theorem qinv {D : Bytes → Prop} {v : Mem} {calls : Nat → List Call} (hv : v.WF) (hD : ∀ k, D k → v.exp k = none)
    (hp : ∀ i, ∀ op ∈ calls i, Plain D op) {g : Cfg} (hq : Quiet D (initial v calls) g) :
    ∃ b sp L, QInv D v.abs v.now g b sp L := by
  obtain ⟨b, sp, h⟩ := clockedQuiet hq
  exact ⟨b, sp, qinv_clocked hv hD hp h⟩

/-! ## Locks prevent conflicts -/

/-- The calls that are atomic, and the sweep. -/
def Excl (op : Call) : Prop := op.exclusive = true ∨ op = .cronTick

/-- Calls of different goroutines conflict only if one is atomic and the other is too or looks at one
string. -/
def Guarded (D : Bytes → Prop) (calls : Nat → List Call) : Prop :=
  ∀ i j, i ≠ j → ∀ a ∈ calls i, ∀ b ∈ calls j, Conflict D a b →
    (Excl a ∧ (Excl b ∨ b.look = true)) ∨ (Excl b ∧ a.look = true)

theorem guarded_quiet {D : Bytes → Prop} {v : Mem} {calls : Nat → List Call} (hg : Guarded D calls) {g : Cfg}
    (h : Steps spec true (initial v calls) g) : Quiet D (initial v calls) g := by
  induction h with
  | refl => exact .refl
  | snoc h1 st ih =>
    refine .snoc ih st ?_
    intro i j a b p q hij hi hj hc
    have hs := h1.snoc st
    have hl := locks_steps hs
    have ha : a ∈ calls i := by
      rw [← program_order hs i, hi]; simp
    have hb : b ∈ calls j := by
      rw [← program_order hs j, hj]; simp
    rcases hg i j hij a ha b hb hc with ⟨h1, h2 | h2⟩ | ⟨h1, h2⟩ <;> replace h1 := exclusive_mode h1 <;>
      first | replace h2 := exclusive_mode h2 | replace h2 := look_mode h2
    · have e1 := (hl.write i a p hi h1).1
      have e2 := (hl.write j b q hj h2).1
      rw [e1] at e2
      exact hij (by injection e2)
    · have e1 := (hl.write i a p hi h1).1
      have e2 := (hl.read j b q hj h2).1
      rw [e1] at e2
      cases e2
    · have e1 := (hl.write j b q hj h1).1
      have e2 := (hl.read i a p hi h2).1
      rw [e1] at e2
      cases e2

theorem quiet_free {D : Bytes → Prop} {v : Mem} {calls : Nat → List Call} {g : Cfg} (h : Quiet D (initial v calls) g) : FreeOf D g := by
  cases h with
  | refl => simp [FreeOf, initial]
  | snoc _ _ hf => exact hf

theorem guarded_clocked {D : Bytes → Prop} {v : Mem} {calls : Nat → List Call} (hg : Guarded D calls) {g : Cfg} {b : Nat → Int}
    {sp : List (Int × Int)} (h : Clocked (initial v calls) g b sp) : ClockedQuiet D (initial v calls) g b sp := by
  induction h with
  | refl => exact .refl
  | snoc h1 st ih => exact .snoc ih st (quiet_free (guarded_quiet hg (h1.steps.snoc st)))

end Verif.Conc.Full

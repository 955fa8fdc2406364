import Verif.Conc.FullLin
import Verif.Conc.Tame
/-!
# Goroutines with keys of their own, among others that race

The goroutines `G` use the keys `U`, and the others do not touch `U`.  Then the calls of `G` are
explained as if the others did not exist, whatever races there are among the others.
-/
namespace Verif.Conc.Full
open Verif Verif.Conc

/-- No two calls in progress of `G` conflict. -/
def FreeIn (G : Nat → Bool) (D : Bytes → Prop) (g : Cfg) : Prop :=
  ∀ i j a b p q, G i = true → G j = true → i ≠ j → (g.thr i).cur = some (a, p) → (g.thr j).cur = some (b, q) → ¬ Conflict D a b

/-- Invariant: `L` is the log of `G` with times. -/
structure IInv (G : Nat → Bool) (U D : Bytes → Prop) (c0 : Cache) (t0 : Int) (g : Cfg) (L : List Entry) : Prop where
  wf : g.sh.WF
  dead : ∀ k, D k → g.sh.exp k = none
  dead0 : ∀ k, D k → (run c0 (hist L)).exp k = none
  plain : ∀ i, ∀ op ∈ (g.thr i).todo, (G i = true → Plain D op ∧ ∀ k, touches op k → U k) ∧ (G i = false → ∀ k, touches op k → ¬ U k)
  log : logged L = g.log.filter (fun e => G e.1)
  lplain : ∀ e ∈ L, Plain D e.op
  agrees : Agrees c0 L
  start : t0 ≤ g.sh.now
  times : ∀ e ∈ L, t0 ≤ e.time ∧ e.time ≤ g.sh.now
  order : L.Pairwise (fun a b => a.time ≤ b.time ∨ Free2 D a b)
  idle : ∀ k, U k → (∀ i op p, G i = true → (g.thr i).cur = some (op, p) → ¬ may D op k) → SameAt g.sh.abs (run c0 (hist L)) k
  act : ∀ i op p, G i = true → (g.thr i).cur = some (op, p) → (Plain D op ∧ ∀ k, touches op k → U k) ∧
    ∃ c lo, (∀ k, touches op k → SameAt c (run c0 (hist L)) k) ∧ t0 ≤ lo ∧
    Safe (touches op) (may D op) D (Post c lo op) p g.sh ∧
    ∀ e ∈ L, e.time ≤ lo ∨ (e.thread ≠ i ∧ ¬ Conflict D e.op op)
  tame : ∀ i op p, G i = false → (g.thr i).cur = some (op, p) → Tame U Any p g.sh
  mint : ∀ i op p, (g.thr i).cur = some (op, p) → Tame (fun _ => False) Any p g.sh
  free : FreeIn G D g

theorem Away.sameAt {U : Bytes → Prop} {v w : Mem} (h : Away U v w) {k : Bytes} (hk : U k) : SameAt w.abs v.abs k :=
  ((h.rely (K := fun j => j = k) (fun _ hj => hj ▸ hk)).sameAt rfl).symm

theorem iinv_step {G : Nat → Bool} {U D : Bytes → Prop} {c0 : Cache} {t0 : Int} {g g' : Cfg} {L : List Entry}
    (hDU : ∀ k, D k → U k) (st : Step spec true g g')
    (hf : FreeIn G D g') (inv : IInv G U D c0 t0 g L) : ∃ L', IInv G U D c0 t0 g' L' := by
  have start : ∀ (i : Nat) (op : Call) (rest : List Call) (w : Option Nat) (r : List Nat),
      g.thr i = ⟨op :: rest, none⟩ →
      FreeIn G D { g with writer := w, readers := r, thr := setThr g.thr i ⟨rest, some (op, prog op)⟩ } →
      IInv G U D c0 t0 { g with writer := w, readers := r, thr := setThr g.thr i ⟨rest, some (op, prog op)⟩ } L := by
    intro i op rest w r hi hf
    have hop := inv.plain i op (by rw [hi]; simp)
    have other : ∀ j a p, (g.thr j).cur = some (a, p) → j ≠ i := by
      rintro j a p h rfl
      rw [hi] at h
      cases h
    have nm : G i = true → ∀ k, touches op k → ∀ j a p, G j = true → (g.thr j).cur = some (a, p) → ¬ may D a k := by
      intro hG k hk j a p hGj hj hm
      have hji := other j a p hj
      refine hf j i a op p (prog op) hGj hG hji ?_ ?_ ⟨k, .inl ⟨hm, hk⟩⟩
      · simp only; rw [setThr_ne _ _ hji]; exact hj
      · simp
    refine ⟨inv.wf, inv.dead, inv.dead0, ?_, inv.log, inv.lplain, inv.agrees, inv.start, inv.times, inv.order, ?_, ?_, ?_, ?_, hf⟩
    · intro j a ha
      by_cases hj : j = i
      · subst hj
        simp only [setThr_same] at ha
        exact inv.plain j a (by rw [hi]; simp [ha])
      · simp only [setThr_ne _ _ hj] at ha
        exact inv.plain j a ha
    · intro k hU hk
      refine inv.idle k hU (fun j a p hG hj => hk j a p hG ?_)
      simp only; rw [setThr_ne _ _ (other j a p hj)]; exact hj
    · intro j a p hG hj
      by_cases hji : j = i
      · subst hji
        simp only [setThr_same, Option.some.injEq, Prod.mk.injEq] at hj
        obtain ⟨rfl, rfl⟩ := hj
        refine ⟨hop.1 hG, g.sh.abs, g.sh.now, fun k hk => inv.idle k ((hop.1 hG).2 k hk) (nm hG k hk), inv.start,
          safe_prog _ inv.wf inv.dead (hop.1 hG).1, ?_⟩
        exact fun e he => .inl (inv.times e he).2
      · simp only [setThr_ne _ _ hji] at hj
        exact inv.act j a p hG hj
    · intro j a p hG hj
      by_cases hji : j = i
      · subst hji
        simp only [setThr_same, Option.some.injEq, Prod.mk.injEq] at hj
        obtain ⟨rfl, rfl⟩ := hj
        exact tame_prog _ (hop.2 hG) _
      · simp only [setThr_ne _ _ hji] at hj
        exact inv.tame j a p hG hj
    · intro j a p hj
      by_cases hji : j = i
      · subst hji
        simp only [setThr_same, Option.some.injEq, Prod.mk.injEq] at hj
        obtain ⟨rfl, rfl⟩ := hj
        exact tame_prog _ (fun _ _ h => h) _
      · simp only [setThr_ne _ _ hji] at hj
        exact inv.mint j a p hj
  cases st with
  | tick s' hh =>
    obtain ⟨n, hn, rfl⟩ := hh
    refine ⟨L, ⟨⟨inv.wf.alloc, inv.wf.inj, inv.wf.names⟩, inv.dead, inv.dead0, inv.plain, inv.log, inv.lplain, inv.agrees,
      Int.le_trans inv.start hn, fun e he => ⟨(inv.times e he).1, Int.le_trans (inv.times e he).2 hn⟩, inv.order, inv.idle, ?_,
      fun i op p hG hi => (inv.tame i op p hG hi).later (fun _ h => h), fun i op p hi => (inv.mint i op p hi).later (fun _ h => h), hf⟩⟩
    intro i op p hG hi
    obtain ⟨h0, c, lo, h1, h2, h3, h4⟩ := inv.act i op p hG hi
    exact ⟨h0, c, lo, h1, h2, h3.later (post_firm _ _ _)
      ⟨fun _ _ => rfl, fun _ _ => rfl, fun _ _ _ _ => rfl, Nat.le_refl _, hn⟩, h4⟩
  | startW i op rest ht hm hw hr => exact ⟨L, start i op rest _ _ ht hf⟩
  | startR i op rest ht hm hw hr => exact ⟨L, start i op rest _ _ ht hf⟩
  | startN i op rest ht hm => exact ⟨L, start i op rest _ _ ht hf⟩
  | act i op todo u q ht =>
    have hi : (g.thr i).cur = some (op, .act u q) := by rw [ht]
    obtain ⟨m1, m2, m3, m4⟩ := inv.mint i op _ hi g.sh inv.wf (.refl _)
    have hlater : ∀ V, Later V g.sh (u g.sh) := fun V => m3.later m2.next
    have plain' : ∀ j, ∀ a ∈ (setThr g.thr i ⟨todo, some (op, q g.sh)⟩ j).todo,
        (G j = true → Plain D a ∧ ∀ k, touches a k → U k) ∧ (G j = false → ∀ k, touches a k → ¬ U k) := by
      intro j a ha
      by_cases hj : j = i
      · subst hj
        simp only [setThr_same] at ha
        exact inv.plain j a (by rw [ht]; exact ha)
      · simp only [setThr_ne _ _ hj] at ha
        exact inv.plain j a ha
    have mint' : ∀ j a p, (setThr g.thr i ⟨todo, some (op, q g.sh)⟩ j).cur = some (a, p) → Tame (fun _ => False) Any p (u g.sh) := by
      intro j a p hj
      by_cases hji : j = i
      · subst hji
        simp only [setThr_same, Option.some.injEq, Prod.mk.injEq] at hj
        obtain ⟨rfl, rfl⟩ := hj
        exact m4
      · simp only [setThr_ne _ _ hji] at hj
        exact (inv.mint j a p hj).later (hlater _)
    cases hG : G i with
    | false =>
      obtain ⟨w1, w2, _, w4⟩ := inv.tame i op _ hG hi g.sh inv.wf (.refl _)
      refine ⟨L, ⟨m1, fun k hk => (w2.exp k (hDU k hk)).trans (inv.dead k hk), inv.dead0, plain', inv.log, inv.lplain, inv.agrees,
        ?_, ?_, inv.order, ?_, ?_, ?_, mint', hf⟩⟩
      · show t0 ≤ (u g.sh).now
        rw [w2.now]; exact inv.start
      · intro e he
        show t0 ≤ e.time ∧ e.time ≤ (u g.sh).now
        rw [w2.now]; exact inv.times e he
      · intro k hU hk
        refine (w2.sameAt hU).trans (inv.idle k hU (fun j a p hGj hj => hk j a p hGj ?_))
        have : j ≠ i := fun e => by rw [e, hG] at hGj; cases hGj
        simp only; rw [setThr_ne _ _ this]; exact hj
      · intro j a p hGj hj
        have hji : j ≠ i := fun e => by rw [e, hG] at hGj; cases hGj
        simp only [setThr_ne _ _ hji] at hj
        obtain ⟨k0, c', lo', k1, k2, k3, k4⟩ := inv.act j a p hGj hj
        exact ⟨k0, c', lo', k1, k2, k3.later (post_firm _ _ _) (w2.rely k0.2), k4⟩
      · intro j a p hGj hj
        by_cases hji : j = i
        · subst hji
          simp only [setThr_same, Option.some.injEq, Prod.mk.injEq] at hj
          obtain ⟨rfl, rfl⟩ := hj
          exact w4
        · simp only [setThr_ne _ _ hji] at hj
          exact (inv.tame j a p hGj hj).later (hlater _)
    | true =>
    obtain ⟨h0, c, lo, h1, h2, h3, h4⟩ := inv.act i op _ hG hi
    obtain ⟨w1, w2, w3⟩ := h3 g.sh inv.wf (.refl _)
    refine ⟨L, ⟨w1, fun k hk => w2.dead k hk (inv.dead k hk), inv.dead0, plain', inv.log, inv.lplain, inv.agrees, ?_, ?_, inv.order,
      ?_, ?_, ?_, mint', hf⟩⟩
    · show t0 ≤ (u g.sh).now
      rw [w2.now]; exact inv.start
    · intro e he
      show t0 ≤ e.time ∧ e.time ≤ (u g.sh).now
      rw [w2.now]; exact inv.times e he
    · intro k hU hk
      have hnot : ¬ may D op k := hk i op (q g.sh) hG (by simp)
      refine (w2.sameAt hnot).trans (inv.idle k hU (fun j a p hGj hj => ?_))
      by_cases hji : j = i
      · subst hji
        rw [hi] at hj
        cases hj
        exact hnot
      · exact hk j a p hGj (by simp only; rw [setThr_ne _ _ hji]; exact hj)
    · intro j a p hGj hj
      by_cases hji : j = i
      · subst hji
        simp only [setThr_same, Option.some.injEq, Prod.mk.injEq] at hj
        obtain ⟨rfl, rfl⟩ := hj
        exact ⟨h0, c, lo, h1, h2, w3, h4⟩
      · simp only [setThr_ne _ _ hji] at hj
        obtain ⟨k0, c', lo', k1, k2, k3, k4⟩ := inv.act j a p hGj hj
        refine ⟨k0, c', lo', k1, k2, k3.later (post_firm _ _ _) (w2.rely ?_), k4⟩
        exact fun k hk hm => inv.free i j op a _ _ hG hGj (Ne.symm hji) hi hj ⟨k, .inl ⟨hm, hk⟩⟩
    · intro j a p hGj hj
      have hji : j ≠ i := fun e => by rw [e, hG] at hGj; cases hGj
      simp only [setThr_ne _ _ hji] at hj
      exact (inv.tame j a p hGj hj).later (hlater _)
  | fin i op todo o ht =>
    have hi : (g.thr i).cur = some (op, .ret o) := by rw [ht]
    have plain' : ∀ j, ∀ a ∈ (setThr g.thr i ⟨todo, none⟩ j).todo,
        (G j = true → Plain D a ∧ ∀ k, touches a k → U k) ∧ (G j = false → ∀ k, touches a k → ¬ U k) := by
      intro j a ha
      by_cases hj : j = i
      · subst hj
        simp only [setThr_same] at ha
        exact inv.plain j a (by rw [ht]; exact ha)
      · simp only [setThr_ne _ _ hj] at ha
        exact inv.plain j a ha
    have cur' : ∀ j a p, (setThr g.thr i ⟨todo, none⟩ j).cur = some (a, p) → j ≠ i ∧ (g.thr j).cur = some (a, p) := by
      intro j a p hj
      by_cases hji : j = i
      · subst hji
        simp at hj
      · simp only [setThr_ne _ _ hji] at hj
        exact ⟨hji, hj⟩
    cases hG : G i with
    | false =>
      refine ⟨L, ⟨inv.wf, inv.dead, inv.dead0, plain', ?_, inv.lplain, inv.agrees, inv.start, inv.times, inv.order, ?_,
        fun j a p hGj hj => inv.act j a p hGj (cur' j a p hj).2, fun j a p hGj hj => inv.tame j a p hGj (cur' j a p hj).2,
        fun j a p hj => inv.mint j a p (cur' j a p hj).2, hf⟩⟩
      · rw [inv.log]; simp [List.filter_append, hG]
      · intro k hU hk
        refine inv.idle k hU (fun j a p hGj hj => hk j a p hGj ?_)
        have : j ≠ i := fun e => by rw [e, hG] at hGj; cases hGj
        simp only; rw [setThr_ne _ _ this]; exact hj
    | true =>
    obtain ⟨h0, c, lo, h1, h2, ⟨t, p1, p2, p3, p4⟩, h4⟩ := inv.act i op _ hG hi
    obtain ⟨e1, e2⟩ := touches_congr h1 t
    have hh : hist (L ++ [⟨i, t, op, o⟩]) = hist L ++ [(t, op)] := by simp [hist]
    have other : ∀ j a p, G j = true → j ≠ i → (g.thr j).cur = some (a, p) → (∀ k, touches a k → ¬ may D op k) :=
      fun j a p hGj hji hj k hk hm => inv.free i j op a _ _ hG hGj (Ne.symm hji) hi hj ⟨k, .inl ⟨hm, hk⟩⟩
    refine ⟨L ++ [⟨i, t, op, o⟩], ⟨inv.wf, inv.dead, ?_, plain', ?_, ?_, ?_, inv.start, ?_, ?_, ?_, ?_,
      fun j a p hGj hj => inv.tame j a p hGj (cur' j a p hj).2, fun j a p hj => inv.mint j a p (cur' j a p hj).2, hf⟩⟩
    · rw [hh, run_snoc]; exact exec_dead h0.1 inv.dead0
    · have := inv.log
      simp only [logged] at this
      simp [logged, List.filter_append, hG, this]
    · intro e he
      rcases List.mem_append.1 he with he | he
      · exact inv.lplain e he
      · simp at he; subst he; exact h0.1
    · unfold Agrees
      rw [hh, outs_snoc, ← e1, p3, inv.agrees]
      simp
    · intro e he
      rcases List.mem_append.1 he with he | he
      · exact inv.times e he
      · simp at he; subst he; exact ⟨Int.le_trans h2 p1, p2⟩
    · refine List.pairwise_append.2 ⟨inv.order, by simp, ?_⟩
      intro a ha b hb
      simp at hb
      subst hb
      rcases h4 a ha with h | h
      · exact .inl (Int.le_trans h p1)
      · exact .inr h
    · intro k hU hk
      rw [hh, run_snoc]
      by_cases htk : touches op k
      · exact (p4 k htk).symm.trans (e2 k htk)
      · refine SameAt.trans (inv.idle k hU (fun j a p hGj hj => ?_)) (exec_untouched htk).symm
        by_cases hji : j = i
        · subst hji
          rw [hi] at hj
          cases hj
          exact fun hm => htk (may_touches hm)
        · exact hk j a p hGj (by simp only; rw [setThr_ne _ _ hji]; exact hj)
    · intro j a p hGj hj
      obtain ⟨hji, hj⟩ := cur' j a p hj
      obtain ⟨k0, c', lo', k1, k2, k3, k4⟩ := inv.act j a p hGj hj
      refine ⟨k0, c', lo', fun k hk => (k1 k hk).trans ?_, k2, k3, ?_⟩
      · rw [hh, run_snoc]
        exact (exec_same (other j a p hGj hji hj k hk) (inv.dead0 k)).symm
      · intro e he
        rcases List.mem_append.1 he with he | he
        · exact k4 e he
        · simp at he; subst he
          exact .inr ⟨Ne.symm hji, inv.free i j op a _ _ hG hGj (Ne.symm hji) hi hj⟩

/-- Calls of different goroutines of `G` conflict only if one is atomic and the other is
too or looks at one string. -/
def GuardedIn (G : Nat → Bool) (D : Bytes → Prop) (calls : Nat → List Call) : Prop :=
  ∀ i j, G i = true → G j = true → i ≠ j → ∀ a ∈ calls i, ∀ b ∈ calls j, Conflict D a b →
    (Excl a ∧ (Excl b ∨ b.look = true)) ∨ (Excl b ∧ a.look = true)

theorem guarded_free {G : Nat → Bool} {D : Bytes → Prop} {v : Mem} {calls : Nat → List Call} (hg : GuardedIn G D calls) {g : Cfg}
    (hs : Steps spec true (initial v calls) g) : FreeIn G D g := by
  intro i j a b p q hGi hGj hij hi hj hc
  have hl := locks_steps hs
  have ha : a ∈ calls i := by
    rw [← program_order hs i, hi]; simp
  have hb : b ∈ calls j := by
    rw [← program_order hs j, hj]; simp
  rcases hg i j hGi hGj hij a ha b hb hc with ⟨h1, h2 | h2⟩ | ⟨h1, h2⟩ <;> replace h1 := exclusive_mode h1 <;>
    first | replace h2 := exclusive_mode h2 | replace h2 := look_mode h2
  · have e1 := (hl.write i a p hi h1).1
    have e2 := (hl.write j b q hj h2).1
    rw [e1] at e2
    exact hij (by injection e2)
  · have e1 := (hl.write i a p hi h1).1
    have e2 := (hl.read j b q hj h2).1
    rw [e1] at e2
    cases e2
  · have e1 := (hl.write j b q hj h1).1
    have e2 := (hl.read i a p hi h2).1
    rw [e1] at e2
    cases e2

theorem iinv {G : Nat → Bool} {U D : Bytes → Prop} {v : Mem} {calls : Nat → List Call} (hv : v.WF)
    (hD : ∀ k, D k → v.exp k = none) (hDU : ∀ k, D k → U k)
    (hgood : ∀ i, G i = true → ∀ op ∈ calls i, Plain D op ∧ ∀ k, touches op k → U k)
    (hbad : ∀ i, G i = false → ∀ op ∈ calls i, ∀ k, touches op k → ¬ U k)
    (hg : GuardedIn G D calls) {g : Cfg} (hs : Steps spec true (initial v calls) g) : ∃ L, IInv G U D v.abs v.now g L := by
  induction hs with
  | refl =>
    exact ⟨[], ⟨hv, hD, hD, fun i op ho => ⟨fun h => hgood i h op ho, fun h => hbad i h op ho⟩, rfl, by simp, rfl, Int.le_refl _,
      by simp, by simp, fun k _ _ => .rfl', by simp [initial], by simp [initial], by simp [initial], by simp [FreeIn, initial]⟩⟩
  | snoc h1 st ih =>
    obtain ⟨L, inv⟩ := ih
    exact iinv_step hDU st (guarded_free hg (h1.snoc st)) inv

end Verif.Conc.Full

import Verif.Conc.CacheProg
/-!
# Linearization of locked calls

The log (calls in the order they return) is a sequential history of the cache.
-/
namespace Verif.Conc
open Cache

theorem outs_snoc (c : Cache) (h : History) (t : Int) (op : Call) :
    outs c (h ++ [(t, op)]) = outs c h ++ [(exec (run c h) t op).2] := by
  induction h generalizing c with
  | nil => rfl
  | cons p h ih => obtain ⟨s, o⟩ := p; simp [outs, run, ih]

theorem run_snoc (c : Cache) (h : History) (t : Int) (op : Call) :
    run c (h ++ [(t, op)]) = (exec (run c h) t op).1 := by
  rw [run_append]; rfl

theorem monotone_snoc {t0 t : Int} {op : Call} {h : History} (hm : Monotone t0 h) (hu : Until t h) (h0 : t0 ≤ t) :
    Monotone t0 (h ++ [(t, op)]) := by
  induction h generalizing t0 with
  | nil => exact ⟨h0, trivial⟩
  | cons p h ih =>
    obtain ⟨s, o⟩ := p
    exact ⟨hm.1, ih hm.2 (fun p hp => hu p (by simp [hp])) (hu _ (by simp : (s, o) ∈ (s, o) :: h))⟩

/-- What a sequential witness of the log is. -/
structure Witness (c0 : Cache) (t0 now : Int) (log : List (Nat × Call × Out)) (h : History) : Prop where
  ops : h.map (·.2) = log.map (·.2.1)
  res : outs c0 h = log.map (·.2.2)
  mono : Monotone t0 h
  bound : Until now h

theorem _root_.Verif.Until.le {s t : Int} {h : History} (hu : Until s h) (hst : s ≤ t) : Until t h :=
  fun p hp => Int.le_trans (hu p hp) hst

/-- Thread `i` alone is inside the lock. -/
def Alone (ov : Bool) (g : Cfg) (i : Nat) (op : Call) : Prop :=
  (mode op = .write ∧ g.writer = some i ∧ g.readers = []) ∨
  (ov = false ∧ mode op = .read ∧ g.writer = none ∧ g.readers = [i])

structure LInv (ov : Bool) (c0 : Cache) (t0 : Int) (g : Cfg) (h : History) : Prop where
  wit : Witness c0 t0 g.sh.now g.log h
  start : t0 ≤ g.sh.now
  todo : ∀ i, ∀ op ∈ (g.thr i).todo, mode op = .write ∨ (ov = false ∧ mode op = .read)
  phase : (g.writer = none ∧ g.readers = [] ∧ (∀ i, (g.thr i).cur = none) ∧ g.sh.c = run c0 h) ∨
    (∃ i op p lo, (g.thr i).cur = some (op, p) ∧ (∀ j, j ≠ i → (g.thr j).cur = none) ∧ Alone ov g i op ∧
      t0 ≤ lo ∧ Until lo h ∧ Good (run c0 h) op lo p g.sh.c g.sh.now)

theorem linv_steps {ov : Bool} {c0 : Cache} {t0 : Int} {calls : Nat → List Call}
    (hc : ∀ i, ∀ op ∈ calls i, mode op = .write ∨ (ov = false ∧ mode op = .read))
    {g : Cfg} (hs : Steps spec ov (initial ⟨c0, t0⟩ calls) g) : ∃ h, LInv ov c0 t0 g h := by
  induction hs with
  | refl =>
    exact ⟨[], ⟨⟨rfl, rfl, trivial, by simp [Until]⟩, Int.le_refl _, hc, .inl ⟨rfl, rfl, fun _ => rfl, rfl⟩⟩⟩
  | snoc _ st ih =>
    obtain ⟨h, ⟨w, s0, td, ph⟩⟩ := ih
    cases st with
    | tick s' hh =>
      obtain ⟨hh1, hh2⟩ := hh
      refine ⟨h, ⟨⟨w.ops, w.res, w.mono, w.bound.le hh2⟩, Int.le_trans s0 hh2, td, ?_⟩⟩
      rcases ph with ⟨a, b, c, d⟩ | ⟨i, op, p, lo, a, b, c, d, e, f⟩
      · exact .inl ⟨a, b, c, hh1.trans d⟩
      · refine .inr ⟨i, op, p, lo, a, b, c, d, e, ?_⟩
        simp only
        rw [hh1]
        exact f.later hh2
    | startW i op rest ht hm hw hr =>
      rcases ph with ⟨a, b, c, d⟩ | ⟨i, op, p, lo, a, b, c, d, e, f⟩
      · refine ⟨h, ⟨w, s0, ?_, .inr ⟨i, op, prog op, _, by simp [spec], ?_, .inl ⟨hm, rfl, hr⟩, s0, w.bound, ?_⟩⟩⟩
        · intro j op' hj
          by_cases e : j = i
          · subst e; simp at hj; exact td j op' (by rw [ht]; simp [hj])
          · simp only [setThr_ne _ _ e] at hj; exact td j op' hj
        · intro j e; simp only [setThr_ne _ _ e]; exact c j
        · rw [← d]; exact good_prog _ _ _ (.inl hm)
      · rcases c with ⟨_, c, _⟩ | ⟨_, _, _, c⟩
        · rw [hw] at c; cases c
        · rw [hr] at c; cases c
    | startR i op rest ht hm hw hr =>
      have hov : ov = false := by
        rcases td i op (by rw [ht]; simp) with h1 | ⟨h1, _⟩
        · have hm' : mode op = .read := hm
          rw [h1] at hm'; cases hm'
        · exact h1
      have hr' : _ = [] := hr.resolve_left (by rw [hov]; decide)
      rcases ph with ⟨a, b, c, d⟩ | ⟨i, op, p, lo, a, b, c, d, e, f⟩
      · refine ⟨h, ⟨w, s0, ?_, .inr ⟨i, op, prog op, _, by simp [spec], ?_, .inr ⟨hov, hm, hw, by simp [hr']⟩, s0, w.bound, ?_⟩⟩⟩
        · intro j op' hj
          by_cases e : j = i
          · subst e; simp at hj; exact td j op' (by rw [ht]; simp [hj])
          · simp only [setThr_ne _ _ e] at hj; exact td j op' hj
        · intro j e; simp only [setThr_ne _ _ e]; exact c j
        · rw [← d]; exact good_prog _ _ _ (.inr hm)
      · rcases c with ⟨_, c, _⟩ | ⟨_, _, _, c⟩
        · rw [hw] at c; cases c
        · rw [hr'] at c; cases c
    | startN i op rest ht hm =>
      have hm' : mode op = .unlocked := hm
      rcases td i op (by rw [ht]; simp) with h1 | ⟨_, h1⟩ <;> rw [h1] at hm' <;> cases hm'
    | act i op todo u k ht =>
      rcases ph with ⟨a, b, c, d⟩ | ⟨i', op', p, lo, a, b, c, d, e, f⟩
      · have := c i; rw [ht] at this; cases this
      · have hi : i = i' := by
          refine Classical.byContradiction (fun hne => ?_); have := b i hne; rw [ht] at this; cases this
        subst hi
        rw [ht] at a
        simp at a
        obtain ⟨rfl, rfl⟩ := a
        obtain ⟨f1, f2⟩ := f _ (Int.le_refl _)
        refine ⟨h, ⟨⟨w.ops, w.res, w.mono, ?_⟩, ?_, ?_, .inr ⟨i, op, k _, lo, congrArg Thread.cur (setThr_same _ _ _), ?_, c, d, e, ?_⟩⟩⟩
        · exact w.bound.le (Int.le_of_eq f1.symm)
        · exact Int.le_trans s0 (Int.le_of_eq f1.symm)
        · intro j op' hj
          by_cases e : j = i
          · subst e; simp at hj; exact td j op' (by rw [ht]; exact hj)
          · simp only [setThr_ne _ _ e] at hj; exact td j op' hj
        · intro j e; simp only [setThr_ne _ _ e]; exact b j e
        · exact f2.later (Int.le_of_eq f1.symm)
    | fin i op todo o ht =>
      rcases ph with ⟨a, b, c, d⟩ | ⟨i', op', p, lo, a, b, c, d, e, f⟩
      · have := c i; rw [ht] at this; cases this
      · have hi : i = i' := by
          refine Classical.byContradiction (fun hne => ?_); have := b i hne; rw [ht] at this; cases this
        subst hi
        rw [ht] at a
        simp at a
        obtain ⟨rfl, rfl⟩ := a
        obtain ⟨t, h1, h2, h3⟩ := f
        refine ⟨h ++ [(t, op)], ⟨⟨?_, ?_, ?_, ?_⟩, s0, ?_, .inl ⟨?_, ?_, ?_, ?_⟩⟩⟩
        · simp [w.ops]
        · simp [outs_snoc, w.res, h3]
        · exact monotone_snoc w.mono (e.le h1) (by omega)
        · intro p hp
          simp at hp
          rcases hp with hp | rfl
          · exact w.bound p hp
          · exact h2
        · intro j op' hj
          by_cases e : j = i
          · subst e; simp at hj; exact td j op' (by rw [ht]; exact hj)
          · simp only [setThr_ne _ _ e] at hj; exact td j op' hj
        · rcases c with ⟨c1, c2, c3⟩ | ⟨_, c1, c2, c3⟩ <;> simp [unlockW, spec, c1, c2]
        · rcases c with ⟨c1, c2, c3⟩ | ⟨_, c1, c2, c3⟩ <;> simp [unlockR, spec, c1, c3]
        · intro j
          by_cases e : j = i
          · subst e; simp
          · simp only [setThr_ne _ _ e]; exact b j e
        · rw [run_snoc, h3]

/-! ## Readers that overlap, when no key has a deadline -/

/-- Calls that give no deadline. -/
def NoTTL : Call → Prop
  | .setEX .. | .pSetEX .. => False
  | _ => True

theorem load_noTTL {c : Cache} (h : ∀ k, c.exp k = none) (t : Int) (k : Bytes) : c.load t k = (c, c.data k) := by
  unfold load
  cases hd : c.data k <;> simp [expired, h]

theorem exec_noTTL {c : Cache} (h : ∀ k, c.exp k = none) (t : Int) (op : Call) (hn : NoTTL op)
    (hm : mode op = .write) : ∀ k, (exec c t op).1.exp k = none := by
  intro j
  have inc : ∀ k d, (c.incrBy k d).1.exp j = none := by
    intro k d
    unfold incrBy
    split
    · exact h j
    · split <;> exact h j
    · exact h j
  cases op <;> simp [mode, NoTTL] at hm hn <;> simp only [exec]
  case set k v => exact h j
  case setNX k v => unfold Cache.setNX; split <;> exact h j
  case getSet k v =>
    unfold Cache.getSet; rw [load_noTTL h]
    split <;> rename_i hh <;> simp at hh <;> rw [← hh.1] <;> exact h j
  case append k v =>
    unfold Cache.append loadLive; rw [load_noTTL h]
    split <;> rename_i hh <;> simp at hh
    · rw [← hh.1]; exact h j
    · split <;> (rw [← hh.1]; exact h j)
  case setRange k p r =>
    unfold Cache.setRange loadLive; rw [load_noTTL h]
    split
    · exact h j
    simp only
    split <;> rename_i hh <;> simp at hh
    · split <;> (rw [← hh.1]; exact h j)
    · split <;> (try split) <;> (rw [← hh.1]; exact h j)
  case incr k => exact inc _ _
  case incrBy k n => exact inc _ _
  case decr k => exact inc _ _
  case decrBy k n => exact inc _ _
  case incrByFloat k x => unfold Cache.incrByFloat; split <;> exact h j
  case del k =>
    unfold Cache.del
    rw [load_noTTL h]
    simp only [upd]
    split
    · rfl
    · exact h j
  case flush => rfl

/-- A reader: its steps leave the cache alone and its answer is that of the sequential call, at
any time. -/
def RGood (c : Cache) (op : Call) : P Out → Prop
  | .ret o => ∀ t, exec c t op = (c, o)
  | .act u k => ∀ n, (u ⟨c, n⟩) = ⟨c, n⟩ ∧ RGood c op (k ⟨c, n⟩)

theorem rgood_step {α : Type} {op : Call} {f : Cache → Int → Cache × α} {g : α → P Out} {c : Cache}
    (h : ∀ n, (f c n).1 = c ∧ RGood c op (g (f c n).2)) : RGood c op (step f >>= g) := by
  intro n
  refine ⟨?_, (h n).2⟩
  show World.mk (f c n).1 n = _
  rw [(h n).1]

theorem rgood_getP {op : Call} {k : Bytes} {g : Option Val → P Out} {c : Cache} (he : ∀ k, c.exp k = none)
    (h : RGood c op (g (c.data k))) : RGood c op (getP k >>= g) := by
  unfold getP loadData
  rw [Prog.assoc]
  refine rgood_step (fun n => ⟨rfl, ?_⟩)
  cases hd : c.data k with
  | none => rw [hd] at h; exact h
  | some v =>
    simp only [expiredP, loadExp]
    rw [Prog.assoc, Prog.assoc]
    refine rgood_step (fun m => ⟨rfl, ?_⟩)
    rw [hd] at h
    simp only [he k]
    exact h

theorem rgood_prog {c : Cache} (he : ∀ k, c.exp k = none) (op : Call) (hm : mode op = .read) :
    RGood c op (prog op) := by
  cases op <;> simp [mode] at hm
  case get k =>
    refine rgood_getP he ?_
    cases hd : c.data k <;> intro t <;> simp [exec, Cache.get, load_noTTL he, hd]
  case strLen k =>
    refine rgood_getP he ?_
    cases hd : c.data k <;> intro t <;> simp [exec, Cache.strLen, loadLive, load_noTTL he, hd]
  case getRange k a b =>
    refine rgood_getP he ?_
    cases hd : c.data k <;> intro t <;> simp [exec, Cache.getRange, loadLive, load_noTTL he, hd]

structure RInv (c0 : Cache) (t0 : Int) (g : Cfg) (h : History) : Prop where
  wit : Witness c0 t0 g.sh.now g.log h
  start : t0 ≤ g.sh.now
  exp : ∀ k, (run c0 h).exp k = none
  todo : ∀ i, ∀ op ∈ (g.thr i).todo, NoTTL op ∧ (mode op = .write ∨ mode op = .read)
  phase : (g.writer = none ∧ g.sh.c = run c0 h ∧ ∀ i op p, (g.thr i).cur = some (op, p) →
      mode op = .read ∧ i ∈ g.readers ∧ RGood (run c0 h) op p) ∨
    (∃ i op p lo, (g.thr i).cur = some (op, p) ∧ (∀ j, j ≠ i → (g.thr j).cur = none) ∧
      mode op = .write ∧ NoTTL op ∧ g.writer = some i ∧ g.readers = [] ∧
      t0 ≤ lo ∧ Until lo h ∧ Good (run c0 h) op lo p g.sh.c g.sh.now)

theorem rinv_step {ov : Bool} {c0 : Cache} {t0 : Int} {g g' : Cfg} {h : History} (st : Step spec ov g g')
    (inv : RInv c0 t0 g h) : ∃ h', RInv c0 t0 g' h' := by
  obtain ⟨w, s0, ex, td, ph⟩ := inv
  have tdStart : ∀ i op rest cur, g.thr i = ⟨op :: rest, none⟩ →
      ∀ j, ∀ op' ∈ (setThr g.thr i ⟨rest, cur⟩ j).todo, NoTTL op' ∧ (mode op' = .write ∨ mode op' = .read) := by
    intro i op rest cur ht j op' hj
    by_cases e : j = i
    · subst e; simp at hj; exact td j op' (by rw [ht]; simp [hj])
    · rw [setThr_ne _ _ e] at hj; exact td j op' hj
  have tdSame : ∀ i todo cur cur', g.thr i = ⟨todo, cur⟩ →
      ∀ j, ∀ op' ∈ (setThr g.thr i ⟨todo, cur'⟩ j).todo, NoTTL op' ∧ (mode op' = .write ∨ mode op' = .read) := by
    intro i todo cur cur' ht j op' hj
    by_cases e : j = i
    · subst e; simp at hj; exact td j op' (by rw [ht]; exact hj)
    · rw [setThr_ne _ _ e] at hj; exact td j op' hj
  cases st with
  | tick s' hh =>
    obtain ⟨hh1, hh2⟩ := hh
    refine ⟨h, ⟨⟨w.ops, w.res, w.mono, w.bound.le hh2⟩, Int.le_trans s0 hh2, ex, td, ?_⟩⟩
    rcases ph with ⟨a, b, c⟩ | ⟨i, op, p, lo, a, b, c, c', d, d', e, e', f⟩
    · exact .inl ⟨a, hh1.trans b, c⟩
    · refine .inr ⟨i, op, p, lo, a, b, c, c', d, d', e, e', ?_⟩
      simp only
      rw [hh1]
      exact f.later hh2
  | startW i op rest ht hm hw hr =>
    rcases ph with ⟨a, b, c⟩ | ⟨i, op, p, lo, a, b, c, c', d, d', e, e', f⟩
    · have hnone : ∀ j, (g.thr j).cur = none := by
        intro j
        cases hj : (g.thr j).cur with
        | none => rfl
        | some q => have := (c j q.1 q.2 hj).2.1; rw [hr] at this; simp at this
      refine ⟨h, ⟨w, s0, ex, tdStart i op rest _ ht, .inr ⟨i, op, prog op, _, by simp [spec], ?_, hm, (td i op (by rw [ht]; simp)).1, rfl, hr, s0, w.bound, ?_⟩⟩⟩
      · intro j e; simp only [setThr_ne _ _ e]; exact hnone j
      · rw [← b]; exact good_prog _ _ _ (.inl hm)
    · rw [hw] at d; cases d
  | startR i op rest ht hm hw hr =>
    rcases ph with ⟨a, b, c⟩ | ⟨i, op, p, lo, a, b, c, c', d, d', e, e', f⟩
    · refine ⟨h, ⟨w, s0, ex, tdStart i op rest _ ht, .inl ⟨hw, b, ?_⟩⟩⟩
      intro j op' p' hj
      by_cases e : j = i
      · subst e; simp at hj; obtain ⟨rfl, rfl⟩ := hj
        exact ⟨hm, by simp, rgood_prog ex _ hm⟩
      · simp only [setThr_ne _ _ e] at hj
        have := c j op' p' hj
        exact ⟨this.1, by simp [this.2.1], this.2.2⟩
    · rw [hw] at d; cases d
  | startN i op rest ht hm =>
    have hm' : mode op = .unlocked := hm
    rcases td i op (by rw [ht]; simp) with ⟨_, h1 | h1⟩ <;> rw [h1] at hm' <;> cases hm'
  | act i op todo u k ht =>
    rcases ph with ⟨a, b, c⟩ | ⟨i', op', p, lo, a, b, c, c', d, d', e, e', f⟩
    · obtain ⟨c1, c2, c3⟩ := c i op _ (by rw [ht])
      have hu : u g.sh = g.sh ∧ RGood (run c0 h) op (k g.sh) := by
        have hsh : g.sh = ⟨run c0 h, g.sh.now⟩ := by rw [← b]
        rw [hsh]; exact c3 g.sh.now
      refine ⟨h, ⟨?_, ?_, ex, tdSame i todo _ _ ht, .inl ⟨a, ?_, ?_⟩⟩⟩
      · simp only [hu.1]; exact w
      · simp only [hu.1]; exact s0
      · simp only [hu.1]; exact b
      · intro j op' p' hj
        by_cases e : j = i
        · subst e; simp at hj; obtain ⟨rfl, rfl⟩ := hj; exact ⟨c1, c2, hu.2⟩
        · simp only [setThr_ne _ _ e] at hj; exact c j op' p' hj
    · have hi : i = i' := by
        refine Classical.byContradiction (fun hne => ?_); have := b i hne; rw [ht] at this; cases this
      subst hi
      rw [ht] at a
      simp at a
      obtain ⟨rfl, rfl⟩ := a
      obtain ⟨f1, f2⟩ := f g.sh.now (Int.le_refl _)
      refine ⟨h, ⟨⟨w.ops, w.res, w.mono, ?_⟩, ?_, ex, tdSame i todo _ _ ht,
        .inr ⟨i, op, k g.sh, lo, by simp, ?_, c, c', d, d', e, e', ?_⟩⟩⟩
      · show Until (u g.sh).now h
        rw [show (u g.sh).now = g.sh.now from f1]; exact w.bound
      · show t0 ≤ (u g.sh).now
        rw [show (u g.sh).now = g.sh.now from f1]; exact s0
      · intro j e; simp only [setThr_ne _ _ e]; exact b j e
      · show Good _ _ _ _ (u g.sh).c (u g.sh).now
        rw [show (u g.sh).now = g.sh.now from f1]; exact f2
  | fin i op todo o ht =>
    rcases ph with ⟨a, b, c⟩ | ⟨i', op', p, lo, a, b, c, c', d, d', e, e', f⟩
    · obtain ⟨c1, c2, c3⟩ := c i op _ (by rw [ht])
      have c3' : exec (run c0 h) g.sh.now op = (run c0 h, o) := c3 g.sh.now
      have hrun : run c0 (h ++ [(g.sh.now, op)]) = run c0 h := by rw [run_snoc, c3']
      refine ⟨h ++ [(g.sh.now, op)], ⟨⟨?_, ?_, ?_, ?_⟩, s0, ?_, tdSame i todo _ _ ht, .inl ⟨?_, ?_, ?_⟩⟩⟩
      · simp [w.ops]
      · simp [outs_snoc, w.res, c3']
      · exact monotone_snoc w.mono w.bound s0
      · intro p hp
        simp at hp
        rcases hp with hp | rfl
        · exact w.bound p hp
        · exact Int.le_refl _
      · rw [hrun]; exact ex
      · simp [unlockW, spec, c1, a]
      · rw [hrun]; exact b
      · intro j op' p' hj
        by_cases e : j = i
        · subst e; simp at hj
        · simp only [setThr_ne _ _ e] at hj
          obtain ⟨d1, d2, d3⟩ := c j op' p' hj
          rw [hrun]
          exact ⟨d1, by simp [unlockR, spec, c1, List.mem_erase_of_ne e, d2], d3⟩
    · have hi : i = i' := by
        refine Classical.byContradiction (fun hne => ?_); have := b i hne; rw [ht] at this; cases this
      subst hi
      rw [ht] at a
      simp at a
      obtain ⟨rfl, rfl⟩ := a
      obtain ⟨t, h1, h2, h3⟩ := f
      refine ⟨h ++ [(t, op)], ⟨⟨?_, ?_, ?_, ?_⟩, s0, ?_, tdSame i todo _ _ ht, .inl ⟨?_, ?_, ?_⟩⟩⟩
      · simp [w.ops]
      · simp [outs_snoc, w.res, h3]
      · exact monotone_snoc w.mono (e'.le h1) (by omega)
      · intro p hp
        simp at hp
        rcases hp with hp | rfl
        · exact w.bound p hp
        · exact h2
      · rw [run_snoc]; exact exec_noTTL ex _ _ c' c
      · simp [unlockW, spec, c]
      · rw [run_snoc, h3]
      · intro j op' p' hj
        by_cases e : j = i
        · subst e; simp at hj
        · simp only [setThr_ne _ _ e] at hj; rw [b j e] at hj; cases hj

theorem rinv_steps {ov : Bool} {c0 : Cache} {t0 : Int} {calls : Nat → List Call} (h0 : ∀ k, c0.exp k = none)
    (hc : ∀ i, ∀ op ∈ calls i, NoTTL op ∧ (mode op = .write ∨ mode op = .read))
    {g : Cfg} (hs : Steps spec ov (initial ⟨c0, t0⟩ calls) g) : ∃ h, RInv c0 t0 g h := by
  induction hs with
  | refl =>
    exact ⟨[], ⟨⟨rfl, rfl, trivial, by simp [Until]⟩, Int.le_refl _, h0, hc, .inl ⟨rfl, rfl, by simp [initial]⟩⟩⟩
  | snoc _ st ih => obtain ⟨h, inv⟩ := ih; exact rinv_step st inv

end Verif.Conc

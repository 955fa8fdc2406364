import Verif.Conc.PropsStale
import Verif.Conc.PropsLost
/-!
# C42, exactly which programs can show an expired value
-/
namespace Verif.Conc
open Cache

/-- A call that leaves `k` alone, run by itself. -/
theorem leaves_alone {k : Bytes} {p : P Out} (h : Leaves k p) (w : World) :
    (alone p w).1.c.data k = w.c.data k ∧ (alone p w).1.c.exp k = w.c.exp k ∧ (alone p w).1.now = w.now := by
  induction p generalizing w with
  | ret a => exact ⟨rfl, rfl, rfl⟩
  | act u c ih =>
    obtain ⟨h1, h2, h3, h4⟩ := h w
    obtain ⟨i1, i2, i3⟩ := ih w h4 (u w)
    simp only [alone]
    exact ⟨i1.trans h2, i2.trans h3, i3.trans h1⟩

/-- A goroutine makes calls that have nothing to do with `k`, while the others wait. -/
theorem run_prefix42 {k : Bytes} {j : Nat} (pre rest : List Call) : ∀ (g : Cfg), g.thr j = ⟨pre ++ rest, none⟩ → g.writer = none → g.readers = [] →
    (∀ op ∈ pre, mode op ≠ .unsupported ∧ op.writes k = false ∧ op.sees k = false) →
    ∃ g', Steps spec true g g' ∧ g'.thr j = ⟨rest, none⟩ ∧ (∀ j', j' ≠ j → g'.thr j' = g.thr j') ∧ g'.writer = none ∧ g'.readers = [] ∧
      g'.sh.c.data k = g.sh.c.data k ∧ g'.sh.c.exp k = g.sh.c.exp k ∧ g'.sh.now = g.sh.now := by
  induction pre with
  | nil => exact fun g ht hw hr _ => ⟨g, .refl, ht, fun _ _ => rfl, hw, hr, rfl, rfl, rfl⟩
  | cons op pre ih =>
    intro g ht hw hr hp
    obtain ⟨hm, hwr, hse⟩ := hp op (by simp)
    obtain ⟨g1, s1, a1, b1, c1, d1, e1⟩ : ∃ g1, Step spec true g g1 ∧ g1.sh = g.sh ∧ g1.thr j = ⟨pre ++ rest, some (op, prog op)⟩ ∧
        (∀ j', j' ≠ j → g1.thr j' = g.thr j') ∧ unlockW (mode op) g1.writer = none ∧ unlockR (mode op) j g1.readers = [] := by
      cases hmo : mode op with
      | write => exact ⟨_, .startW g j op _ ht hmo hw hr, rfl, by simp [spec], fun j' h => setThr_ne _ _ h, by simp [unlockW], by simp [unlockR, hr]⟩
      | read =>
        exact ⟨_, .startR g j op _ ht hmo hw (.inl rfl), rfl, by simp [spec], fun j' h => setThr_ne _ _ h, by simp [unlockW, hw], by simp [unlockR, hr]⟩
      | unlocked => exact ⟨_, .startN g j op _ ht hmo, rfl, by simp [spec], fun j' h => setThr_ne _ _ h, by simp [unlockW, hw], by simp [unlockR, hr]⟩
      | unsupported => exact absurd hmo hm
    obtain ⟨g2, s2, a2, b2, c2, d2, e2, f2⟩ := steps_alone (P := spec) _ g1 b1
    have s3 : Step spec true g2 _ := .fin g2 j op _ _ b2
    obtain ⟨l1, l2, l3⟩ := leaves_alone (leaves_prog hwr hse) g1.sh
    obtain ⟨g4, s4, b4, c4, d4, e4, x1, x2, x3⟩ := ih { g2 with
        writer := unlockW (mode op) g2.writer
        readers := unlockR (mode op) j g2.readers
        thr := setThr g2.thr j ⟨pre ++ rest, none⟩
        log := g2.log ++ [(j, op, (alone (prog op) g1.sh).2)] } (by simp) (by simp only [d2, d1]) (by simp only [e2, e1])
      (fun o ho => hp o (List.mem_cons_of_mem _ ho))
    refine ⟨g4, Steps.trans ((Steps.trans (Steps.refl.snoc s1) s2).snoc s3) s4, b4, ?_, d4, e4, ?_, ?_, ?_⟩
    · intro j' hj
      exact (c4 j' hj).trans ((setThr_ne _ _ hj).trans ((c2 j' hj).trans (c1 j' hj)))
    · exact x1.trans ((congrArg (fun w : World => w.c.data k) a2).trans (l1.trans (congrArg (fun w : World => w.c.data k) a1)))
    · exact x2.trans ((congrArg (fun w : World => w.c.exp k) a2).trans (l2.trans (congrArg (fun w : World => w.c.exp k) a1)))
    · exact x3.trans ((congrArg World.now a2).trans (l3.trans (congrArg World.now a1)))

/-- Two goroutines about to call Get of an expired key: the first may be given the expired value. -/
theorem stale_from {k : Bytes} {v : Val} {d : Int} {i j : Nat} (hij : i ≠ j) {ri rj : List Call} (g : Cfg) (hi : g.thr i = ⟨.get k :: ri, none⟩)
    (hj : g.thr j = ⟨.get k :: rj, none⟩) (hw : g.writer = none) (hv : g.sh.c.data k = some v) (hd : g.sh.c.exp k = some d) (hlt : d < g.sh.now) :
    ∃ g', Steps spec true g g' ∧ (i, .get k, .str (fmtString v)) ∈ g'.log := by
  have hji : j ≠ i := fun e => hij e.symm
  obtain ⟨g1, s1, a1, b1, c1, d1, e1⟩ := one_start hi (.inl rfl) hw
  obtain ⟨u, c, hp, hu, hc⟩ := getP_some (w := g1.sh) (k := k) (v := v) (by rw [a1]; exact hv) getK
  rw [prog_get, hp] at b1
  obtain ⟨g2, s2, a2, b2, c2, d2, e2⟩ := one_act b1
  rw [hu, a1] at a2
  rw [hc] at b2
  obtain ⟨g3, s3, a3, b3, c3, d3, e3⟩ := one_start (g := g2) (j := j) (op := .get k) (rest := rj)
    (by rw [c2 j hji, c1 j hji]; exact hj) (.inl rfl) (by rw [d2, d1])
  have hsh3 : g3.sh = g.sh := by rw [a3, a2]
  obtain ⟨u, c, hp, hu, hc⟩ := getP_some (w := g3.sh) (k := k) (v := v) (by rw [hsh3]; exact hv) getK
  rw [prog_get, hp] at b3
  obtain ⟨g4, s4, a4, b4, c4, d4, e4⟩ := one_act b3
  rw [hu] at a4
  rw [hc] at b4
  obtain ⟨u, c, hp, hu, hc⟩ := expiredP_some (w := g4.sh) (k := k) (d := d) (by rw [a4, hsh3]; exact hd) (fun b => if b then getK none else getK (some v))
  rw [hp] at b4
  obtain ⟨g5, s5, a5, b5, c5, d5, e5⟩ := one_act b4
  rw [hu] at a5
  rw [hc] at b5
  have hsh5 : g5.sh = g.sh := by rw [a5, a4, hsh3]
  obtain ⟨g6, s6, a6, b6, c6, d6, e6⟩ := one_act b5
  have hsh6 : g6.sh = g.sh := by rw [a6, hsh5]
  have b6' : g6.thr j = ⟨rj, some (.get k, delData k >>= fun _ => delExp k >>= fun _ => getK none)⟩ := by
    rw [b6, hsh5]
    exact congrArg (fun p => Thread.mk rj (some (Call.get k, p))) (if_pos hlt)
  obtain ⟨g7, s7, a7, b7, c7, d7, e7⟩ := one_act b6'
  obtain ⟨g8, s8, a8, b8, c8, d8, e8⟩ := one_act b7
  have hsh8 : g8.sh.c.exp k = none := by rw [a8]; simp [upd]
  have ht8 : g8.thr i = ⟨ri, some (.get k, expiredP k >>= fun b => if b then getK none else getK (some v))⟩ := by
    rw [c8 i hij, c7 i hij, c6 i hij, c5 i hij, c4 i hij, c3 i hij]; exact b2
  obtain ⟨u, c, hp, hu, hc⟩ := expiredP_gone (w := g8.sh) (k := k) hsh8 (fun b => if b then getK none else getK (some v))
  rw [hp] at ht8
  obtain ⟨g9, s9, a9, b9, c9, d9, e9⟩ := one_act ht8
  rw [hc] at b9
  refine ⟨_, ((((((((((Steps.refl.snoc s1).snoc s2).snoc s3).snoc s4).snoc s5).snoc s6).snoc s7).snoc s8).snoc s9).snoc (.fin g9 i (.get k) ri (.str (fmtString v)) b9)), ?_⟩
  simp

/-- The calls before the first Get of `k`. -/
theorem split_get {k : Bytes} {l : List Call} (h : Call.get k ∈ l) (hs : ∀ op ∈ l, op.sees k = true → op = .get k) :
    ∃ pre rest, l = pre ++ .get k :: rest ∧ ∀ op ∈ pre, op ∈ l ∧ op.sees k = false := by
  induction l with
  | nil => simp at h
  | cons a l ih =>
    cases ha : a.sees k with
    | true => exact ⟨[], l, by rw [hs a (by simp) ha]; rfl, by simp⟩
    | false =>
      rcases List.mem_cons.1 h with e | h
      · rw [← e] at ha; simp [Call.sees] at ha
      · obtain ⟨pre, rest, e, hp⟩ := ih h (fun op ho => hs op (List.mem_cons_of_mem _ ho))
        refine ⟨a :: pre, rest, by rw [e]; rfl, fun op ho => ?_⟩
        rcases List.mem_cons.1 ho with rfl | ho
        · exact ⟨by simp, ha⟩
        · exact ⟨List.mem_cons_of_mem _ (hp op ho).1, (hp op ho).2⟩

theorem fmtString_ne_nil (v : Val) : fmtString v ≠ .err .keyNil := by
  cases v <;> simp [fmtString]

/-- C42, exactly: goroutines make any calls that do not write `k`, a key whose deadline has passed, and look at it only with Get.  Some schedule in which a
Get returns the expired value exists if and only if two different goroutines call Get of `k`. -/
theorem C42_exact (c0 : Cache) (t0 d : Int) (k : Bytes) (v : Val) (calls : Nat → List Call) (hv : c0.data k = some v) (hd : c0.exp k = some d) (hlt : d < t0)
    (hc : ∀ j, ∀ op ∈ calls j, mode op ≠ .unsupported ∧ op.writes k = false ∧ (op.sees k = true → op = .get k)) :
    (∃ (g : Cfg) (i : Nat) (o : Out), Steps spec true (initial ⟨c0, t0⟩ calls) g ∧ (i, .get k, o) ∈ g.log ∧ o ≠ .str (.err .keyNil)) ↔
      ∃ i j, i ≠ j ∧ .get k ∈ calls i ∧ .get k ∈ calls j := by
  constructor
  · rintro ⟨g, i, o, hs, hl, ho⟩
    have hi : Call.get k ∈ calls i := by
      have key : ∀ g, Steps spec true (initial ⟨c0, t0⟩ calls) g → ∀ e ∈ g.log, e.2.1 ∈ calls e.1 := by
        intro g hs
        induction hs with
        | refl => intro e he; cases he
        | @snoc g1 g2 h1 hst ih =>
          cases hst with
          | fin j op todo o ht =>
            intro e he
            rcases List.mem_append.1 he with he | he
            · exact ih e he
            · rw [List.mem_singleton.1 he]
              exact (from_calls h1 j).2 op _ (by rw [ht])
          | tick => exact ih
          | startW => exact ih
          | startR => exact ih
          | startN => exact ih
          | act => exact ih
      exact key g hs _ hl
    by_cases hex : ∃ j, j ≠ i ∧ .get k ∈ calls j
    · obtain ⟨j, hj, hm⟩ := hex
      exact ⟨i, j, fun e => hj e.symm, hi, hm⟩
    · refine absurd (C42_one_reader_partial c0 t0 d k calls i (fun j op h => (hc j op h).2.1) (fun j hj op h => ?_) hd hlt g hs o hl) ho
      cases hse : op.sees k with
      | false => rfl
      | true => exact absurd ⟨j, hj, (hc j op h).2.2 hse ▸ h⟩ hex
  · rintro ⟨i, j, hij, hi, hj⟩
    obtain ⟨pi, ri, ei, hpi⟩ := split_get hi (fun op h => (hc i op h).2.2)
    obtain ⟨pj, rj, ej, hpj⟩ := split_get hj (fun op h => (hc j op h).2.2)
    obtain ⟨g1, s1, b1, c1, d1, e1, x1, y1, z1⟩ := run_prefix42 (k := k) (j := i) pi (.get k :: ri) (initial ⟨c0, t0⟩ calls)
      (by simp [initial, ei]) rfl rfl (fun op h => ⟨(hc i op (hpi op h).1).1, (hc i op (hpi op h).1).2.1, (hpi op h).2⟩)
    obtain ⟨g2, s2, b2, c2, d2, e2, x2, y2, z2⟩ := run_prefix42 (k := k) (j := j) pj (.get k :: rj) g1
      (by rw [c1 j (fun e => hij e.symm)]; simp [initial, ej]) d1 e1 (fun op h => ⟨(hc j op (hpj op h).1).1, (hc j op (hpj op h).1).2.1, (hpj op h).2⟩)
    obtain ⟨g3, s3, h3⟩ := stale_from hij (v := v) (d := d) g2 (by rw [c2 i hij]; exact b1) b2 d2 (by rw [x2, x1]; exact hv) (by rw [y2, y1]; exact hd)
      (by rw [z2, z1]; exact hlt)
    exact ⟨g3, i, _, Steps.trans (Steps.trans s1 s2) s3, h3, fun e => fmtString_ne_nil v (by simpa using e)⟩

/-- The hypotheses are met, with other calls before and between. -/
example : ∀ j, ∀ op ∈ (fun i : Nat => if i = 0 then [Call.set b!"x" b!"1", .get b!"k"] else if i = 1 then [.mSet [(b!"y", b!"2")], .get b!"k", .get b!"x"] else []) j,
    mode op ≠ .unsupported ∧ op.writes b!"k" = false ∧ (op.sees b!"k" = true → op = .get b!"k") := by
  intro j op h
  by_cases h0 : j = 0
  · simp [h0] at h
    rcases h with rfl | rfl <;> simp [mode, Call.writes, Call.sees]
  · by_cases h1 : j = 1
    · simp [h1] at h
      rcases h with rfl | rfl | rfl <;> simp [mode, Call.writes, Call.sees]
    · simp [h0, h1] at h

end Verif.Conc

import Verif.Conc.Props
/-!
# C42: which races show an expired value

`get` loads the value first and the deadline after it, and whoever finds the deadline passed removes the value and then
the deadline (cache/cacheutil.go:6-24, 36-48).  So the only way to an expired value is that another call on the same key
removes both between the two loads.
-/
namespace Verif.Conc
open Cache

/-- Calls that look at `k` and remove it when its deadline has passed. -/
def _root_.Verif.Call.sees (k : Bytes) : Call → Bool
  | .get j | .strLen j | .getRange j _ _ | .type j => j = k
  | .mGet ks => ks.any (· = k)
  | _ => false

/-- What a call that sees `k` answers when `k` does not exist. -/
def Absent (k : Bytes) : Call → Out → Prop
  | .get _, o => o = .str (.err .keyNil)
  | .strLen _, o => o = .int (.ok 0)
  | .getRange _ _ _, o => o = .str (.ok [])
  | .type _, o => o = .str (.ok b!"none")
  | .mGet ks, o => ∃ rs : List (Res Bytes), o = .slots (.ok rs) ∧ rs.length = ks.length ∧ ∀ n : Nat, ks[n]? = some k → rs[n]? = some (.err .keyNil)
  | _, _ => True

/-- Runs in which every configuration satisfies `Q`. -/
inductive StepsIn (Q : Cfg → Prop) (g : Cfg) : Cfg → Prop
  | refl : Q g → StepsIn Q g g
  | snoc {g1 g2 : Cfg} : StepsIn Q g g1 → Step spec true g1 g2 → Q g2 → StepsIn Q g g2

/-- Whenever goroutine `i` is inside a call that sees `k`, no other goroutine is inside one. -/
def OnlyOne (i : Nat) (k : Bytes) (g : Cfg) : Prop :=
  ∀ j op p op' p', (g.thr i).cur = some (op, p) → op.sees k = true → j ≠ i → (g.thr j).cur = some (op', p') → op'.sees k = false

/-- Nobody can see a value under `k`. -/
def Gone (k : Bytes) (w : World) : Prop := w.c.data k = none ∨ ∃ d, w.c.exp k = some d ∧ d < w.now

/-- A program that keeps it that way; `b`: it may rely on the value being removed. -/
def Keep (k : Bytes) : Bool → P Out → Prop
  | _, .ret _ => True
  | b, .act u c => ∀ w, Gone k w → (b = true → w.c.data k = none) →
      (u w).now = w.now ∧ Gone k (u w) ∧ (w.c.data k = none → (u w).c.data k = none) ∧
        ∃ b', (b' = true → (u w).c.data k = none) ∧ Keep k b' (c w)

/-- A program that leaves `k` as it is. -/
def Leaves (k : Bytes) : P Out → Prop
  | .ret _ => True
  | .act u c => ∀ w, (u w).now = w.now ∧ (u w).c.data k = w.c.data k ∧ (u w).c.exp k = w.c.exp k ∧ Leaves k (c w)

/-- A program that, if nobody else changes `k`, ends with an answer in `R`; `x`, `e`: what is stored for `k`. -/
def Fine (k : Bytes) (R : Out → Prop) : P Out → Option Val → Option Int → Prop
  | .ret o, _, _ => R o
  | .act u c, x, e => ∀ w, Gone k w → w.c.data k = x → w.c.exp k = e → Fine k R (c w) ((u w).c.data k) ((u w).c.exp k)

theorem Leaves.keep {k : Bytes} {p : P Out} (h : Leaves k p) (b : Bool) : Keep k b p := by
  induction p generalizing b with
  | ret _ => exact True.intro
  | act u c ih =>
    intro w hg _
    obtain ⟨h1, h2, h3, h4⟩ := h w
    refine ⟨h1, ?_, fun h => by rw [h2]; exact h, false, by simp, ih w h4 false⟩
    unfold Gone
    rw [h1, h2, h3]; exact hg

theorem leaves_step {α : Type} {k : Bytes} {f : Cache → Int → Cache × α} {g : α → P Out}
    (h1 : ∀ c n, (f c n).1.data k = c.data k ∧ (f c n).1.exp k = c.exp k) (h2 : ∀ a, Leaves k (g a)) : Leaves k (step f >>= g) :=
  fun w => ⟨rfl, (h1 _ _).1, (h1 _ _).2, h2 _⟩

theorem leaves_ret {k : Bytes} (o : Out) : Leaves k (.ret o) := True.intro

theorem upd_other {β : Type} {f : Bytes → Option β} {j k : Bytes} {v : Option β} (h : ¬ j = k) : upd f j v k = f k := by
  unfold upd
  rw [if_neg (fun e => h e.symm)]

theorem leaves_loadData {k j : Bytes} {g : Option Val → P Out} (h : ∀ a, Leaves k (g a)) : Leaves k (loadData j >>= g) :=
  leaves_step (fun _ _ => ⟨rfl, rfl⟩) h
theorem leaves_loadExp {k j : Bytes} {g : Option Int → P Out} (h : ∀ a, Leaves k (g a)) : Leaves k (loadExp j >>= g) :=
  leaves_step (fun _ _ => ⟨rfl, rfl⟩) h
theorem leaves_clock {k : Bytes} {g : Int → P Out} (h : ∀ a, Leaves k (g a)) : Leaves k (clock >>= g) :=
  leaves_step (fun _ _ => ⟨rfl, rfl⟩) h
theorem leaves_storeData {k j : Bytes} {v : Val} {g : Unit → P Out} (hj : ¬ j = k) (h : ∀ a, Leaves k (g a)) : Leaves k (storeData j v >>= g) :=
  leaves_step (fun _ _ => ⟨upd_other hj, rfl⟩) h
theorem leaves_delData {k j : Bytes} {g : Unit → P Out} (hj : ¬ j = k) (h : ∀ a, Leaves k (g a)) : Leaves k (delData j >>= g) :=
  leaves_step (fun _ _ => ⟨upd_other hj, rfl⟩) h
theorem leaves_delExp {k j : Bytes} {g : Unit → P Out} (hj : ¬ j = k) (h : ∀ a, Leaves k (g a)) : Leaves k (delExp j >>= g) :=
  leaves_step (fun _ _ => ⟨rfl, upd_other hj⟩) h
theorem leaves_storeExp {k j : Bytes} {d : Int} {g : Unit → P Out} (hj : ¬ j = k) (h : ∀ a, Leaves k (g a)) : Leaves k (storeExp j d >>= g) :=
  leaves_step (fun _ _ => ⟨rfl, upd_other hj⟩) h
theorem leaves_loadOrStore {k j : Bytes} {v : Val} {g : Option Val → P Out} (hj : ¬ j = k) (h : ∀ a, Leaves k (g a)) :
    Leaves k (loadOrStore j v >>= g) := by
  refine leaves_step (fun c n => ?_) h
  split
  · exact ⟨rfl, rfl⟩
  · exact ⟨upd_other hj, rfl⟩

theorem leaves_expiredP {k j : Bytes} {g : Bool → P Out} (hj : ¬ j = k) (h : ∀ a, Leaves k (g a)) : Leaves k (expiredP j >>= g) := by
  unfold expiredP
  rw [Prog.assoc]
  refine leaves_loadExp (fun a => ?_)
  cases a with
  | none => exact h _
  | some d =>
    simp only
    rw [Prog.assoc]
    refine leaves_clock (fun n => ?_)
    by_cases hd : d < n
    · simp only [hd, if_true]
      rw [Prog.assoc]
      refine leaves_delData hj (fun _ => ?_)
      rw [Prog.assoc]
      exact leaves_delExp hj (fun _ => h _)
    · simp only [hd, if_false]
      exact h _

theorem leaves_getP {k j : Bytes} {g : Option Val → P Out} (hj : ¬ j = k) (h : ∀ a, Leaves k (g a)) : Leaves k (getP j >>= g) := by
  unfold getP
  rw [Prog.assoc]
  refine leaves_loadData (fun a => ?_)
  cases a with
  | none => exact h _
  | some v =>
    simp only
    rw [Prog.assoc]
    refine leaves_expiredP hj (fun b => ?_)
    cases b <;> exact h _

theorem leaves_expiresP {k j : Bytes} {d : Int64} {g : Unit → P Out} (hj : ¬ j = k) (h : ∀ a, Leaves k (g a)) : Leaves k (expiresP j d >>= g) := by
  unfold expiresP
  split
  · exact leaves_delExp hj h
  · rw [Prog.assoc]
    exact leaves_clock (fun n => leaves_storeExp hj h)

theorem leaves_incrByP {k j : Bytes} {d : Int64} {g : Res Int64 → P Out} (hj : ¬ j = k) (h : ∀ a, Leaves k (g a)) : Leaves k (incrByP j d >>= g) := by
  unfold incrByP
  rw [Prog.assoc]
  refine leaves_loadOrStore hj (fun a => ?_)
  cases a with
  | none => exact h _
  | some v =>
    cases v with
    | scalar v =>
      simp only
      cases incrScalar d v with
      | none => exact h _
      | some p =>
        simp only
        rw [Prog.assoc]
        exact leaves_storeData hj (fun _ => h _)
    | _ => exact h _

theorem leaves_mSetP {k : Bytes} {kv : List (Bytes × Bytes)} {g : Unit → P Out} (hj : kv.any (fun p => p.1 = k) = false) (h : ∀ a, Leaves k (g a)) :
    Leaves k (mSetP kv >>= g) := by
  induction kv with
  | nil => exact h _
  | cons p kv ih =>
    obtain ⟨j, v⟩ := p
    simp at hj
    unfold mSetP
    rw [Prog.assoc]
    exact leaves_storeData hj.1 (fun _ => ih (by simpa using hj.2))

theorem leaves_mSetNXP {k : Bytes} {kv : List (Bytes × Bytes)} {n : Int} {g : Int → P Out} (hj : kv.any (fun p => p.1 = k) = false)
    (h : ∀ a, Leaves k (g a)) : Leaves k (mSetNXP kv n >>= g) := by
  induction kv generalizing n with
  | nil => exact h _
  | cons p kv ih =>
    obtain ⟨j, v⟩ := p
    simp at hj
    unfold mSetNXP
    rw [Prog.assoc]
    refine leaves_loadOrStore hj.1 (fun a => ?_)
    cases a <;> exact ih (by simpa using hj.2)

theorem leaves_existsP {k : Bytes} {ks : List Bytes} {n : Int} {g : Int → P Out} (h : ∀ a, Leaves k (g a)) : Leaves k (existsP ks n >>= g) := by
  induction ks generalizing n with
  | nil => exact h _
  | cons j ks ih =>
    unfold existsP
    rw [Prog.assoc]
    refine leaves_loadData (fun a => ?_)
    cases a <;> exact ih

theorem leaves_mGetP {k : Bytes} {ks : List Bytes} {g : List (Res Bytes) → P Out} (hj : ks.any (· = k) = false) (h : ∀ a, Leaves k (g a)) :
    Leaves k (mGetP ks >>= g) := by
  induction ks generalizing g with
  | nil => exact h _
  | cons j ks ih =>
    simp at hj
    unfold mGetP
    rw [Prog.assoc]
    refine leaves_getP hj.1 (fun v => ?_)
    rw [Prog.assoc]
    exact ih (by simpa using hj.2) (fun rs => h _)

/-- A call that neither writes nor sees `k` leaves it. -/
theorem leaves_prog {k : Bytes} {op : Call} (hw : op.writes k = false) (hs : op.sees k = false) : Leaves k (prog op) := by
  cases op <;> simp only [Call.writes, Call.sees, decide_eq_false_iff_not, Bool.true_eq_false] at hw hs <;> simp only [prog] <;>
    first
    | exact leaves_ret _
    | exact leaves_storeData hw (fun _ => leaves_ret _)
    | (refine leaves_loadOrStore hw (fun a => ?_); cases a <;> exact leaves_ret _)
    | exact leaves_storeData hw (fun _ => leaves_expiresP hw (fun _ => leaves_ret _))
    | exact leaves_getP hs (fun a => by cases a <;> exact leaves_ret _)
    | exact leaves_getP hw (fun a => leaves_storeData hw (fun _ => by cases a <;> exact leaves_ret _))
    | exact leaves_getP hw (fun a => leaves_delData hw (fun _ => leaves_delExp hw (fun _ => leaves_ret _)))
    | exact leaves_incrByP hw (fun _ => leaves_ret _)
    | exact leaves_mSetP hw (fun _ => leaves_ret _)
    | exact leaves_mSetNXP hw (fun _ => leaves_ret _)
    | exact leaves_mGetP hs (fun _ => leaves_ret _)
    | exact leaves_existsP (fun _ => leaves_ret _)
    | skip
  case append j v =>
    refine leaves_getP hw (fun a => ?_)
    cases a with
    | none => exact leaves_storeData hw (fun _ => leaves_ret _)
    | some o =>
      simp only
      cases fmtString o <;> first | exact leaves_ret _ | exact leaves_storeData hw (fun _ => leaves_ret _)
  case setRange j pos r =>
    split
    · exact leaves_ret _
    · refine leaves_getP hw (fun a => ?_)
      cases a with
      | none =>
        simp only
        split
        · exact leaves_ret _
        · exact leaves_storeData hw (fun _ => leaves_ret _)
      | some o =>
        simp only
        cases fmtString o with
        | ok s =>
          simp only
          split
          · exact leaves_ret _
          · exact leaves_storeData hw (fun _ => leaves_ret _)
        | _ => exact leaves_ret _
  case incrByFloat j x =>
    refine leaves_loadOrStore hw (fun a => ?_)
    split <;> first | exact leaves_ret _ | exact leaves_storeData hw (fun _ => leaves_ret _)

theorem keep_step {α : Type} {k : Bytes} {b : Bool} {f : Cache → Int → Cache × α} {g : α → P Out}
    (h : ∀ c n, Gone k ⟨c, n⟩ → (b = true → c.data k = none) → Gone k ⟨(f c n).1, n⟩ ∧ (c.data k = none → (f c n).1.data k = none) ∧
      ∃ b', (b' = true → (f c n).1.data k = none) ∧ Keep k b' (g (f c n).2)) : Keep k b (step f >>= g) := by
  intro w hg hb
  obtain ⟨h1, h2, b', h3, h4⟩ := h w.c w.now hg hb
  exact ⟨rfl, h1, h2, b', h3, h4⟩

theorem keep_getP_same {k : Bytes} {g : Option Val → P Out} (h : ∀ a, Keep k false (g a)) : Keep k false (getP k >>= g) := by
  unfold getP loadData
  rw [Prog.assoc]
  refine keep_step (fun c n hg _ => ⟨hg, id, false, by simp, ?_⟩)
  cases c.data k with
  | none => exact h _
  | some v =>
    simp only
    rw [Prog.assoc]
    unfold expiredP loadExp
    rw [Prog.assoc]
    refine keep_step (fun c n hg _ => ⟨hg, id, false, by simp, ?_⟩)
    cases c.exp k with
    | none => exact h _
    | some d =>
      simp only [clock]
      rw [Prog.assoc]
      refine keep_step (fun c n hg _ => ⟨hg, id, false, by simp, ?_⟩)
      by_cases hd : d < n
      · simp only [hd, if_true, delData, delExp]
        rw [Prog.assoc]
        refine keep_step (fun c n hg _ => ⟨.inl (by simp [upd]), fun _ => by simp [upd], true, fun _ => by simp [upd], ?_⟩)
        rw [Prog.assoc]
        exact keep_step (fun c n hg hb => ⟨.inl (hb rfl), id, false, by simp, h _⟩)
      · simp only [hd, if_false]
        exact h _

theorem keep_getP {k j : Bytes} {g : Option Val → P Out} (h : ∀ a, Keep k false (g a)) : Keep k false (getP j >>= g) := by
  by_cases hj : j = k
  · subst hj; exact keep_getP_same h
  · unfold getP loadData
    rw [Prog.assoc]
    refine keep_step (fun c n hg _ => ⟨hg, id, false, by simp, ?_⟩)
    cases c.data j with
    | none => exact h _
    | some v =>
      simp only
      rw [Prog.assoc]
      unfold expiredP loadExp
      rw [Prog.assoc]
      refine keep_step (fun c n hg _ => ⟨hg, id, false, by simp, ?_⟩)
      cases c.exp j with
      | none => exact h _
      | some d =>
        simp only [clock]
        rw [Prog.assoc]
        refine keep_step (fun c n hg _ => ⟨hg, id, false, by simp, ?_⟩)
        by_cases hd : d < n
        · simp only [hd, if_true, delData, delExp]
          rw [Prog.assoc]
          refine keep_step (fun c n hg _ => ⟨by simpa only [Gone, upd_other hj] using hg, fun h => by simpa only [upd_other hj] using h, false, by simp, ?_⟩)
          rw [Prog.assoc]
          exact keep_step (fun c n hg hb => ⟨by simpa only [Gone, upd_other hj] using hg, id, false, by simp, h _⟩)
        · simp only [hd, if_false]
          exact h _

theorem keep_mGetP {k : Bytes} {ks : List Bytes} {g : List (Res Bytes) → P Out} (h : ∀ a, Keep k false (g a)) : Keep k false (mGetP ks >>= g) := by
  induction ks generalizing g with
  | nil => exact h _
  | cons j ks ih =>
    unfold mGetP
    rw [Prog.assoc]
    refine keep_getP (fun v => ?_)
    rw [Prog.assoc]
    exact ih (fun rs => h _)

theorem keep_ret {k : Bytes} {b : Bool} (o : Out) : Keep k b (.ret o) := by cases b <;> exact True.intro

theorem keep_prog {k : Bytes} {op : Call} (hw : op.writes k = false) : Keep k false (prog op) := by
  cases hs : op.sees k with
  | false => exact (leaves_prog hw hs).keep false
  | true =>
    cases op <;> simp only [Call.sees, Bool.false_eq_true] at hs <;> simp only [prog] <;>
      first
      | (refine keep_getP (fun a => ?_); cases a <;> exact keep_ret _)
      | exact keep_mGetP (fun a => keep_ret _)

theorem fine_step {α : Type} {k : Bytes} {R : Out → Prop} {x : Option Val} {e : Option Int} {f : Cache → Int → Cache × α} {g : α → P Out}
    (h : ∀ c n, Gone k ⟨c, n⟩ → c.data k = x → c.exp k = e → Fine k R (g (f c n).2) ((f c n).1.data k) ((f c n).1.exp k)) :
    Fine k R (step f >>= g) x e := fun w hg hx he => h w.c w.now hg hx he

theorem fine_getP {k : Bytes} {R : Out → Prop} {x : Option Val} {e : Option Int} {g : Option Val → P Out}
    (h : ∀ x e, Fine k R (g none) x e) : Fine k R (getP k >>= g) x e := by
  unfold getP loadData
  rw [Prog.assoc]
  refine fine_step (fun c n hg hx he => ?_)
  simp only [hx, he]
  cases x with
  | none => exact h _ _
  | some v =>
    simp only
    rw [Prog.assoc]
    unfold expiredP loadExp
    rw [Prog.assoc]
    refine fine_step (fun c n hg hx he => ?_)
    simp only [hx, he]
    rcases hg with hg | ⟨d, hg, hd⟩
    · simp only at hg; rw [hx] at hg; cases hg
    · simp only at hg
      rw [he] at hg
      subst hg
      simp only [clock]
      rw [Prog.assoc]
      refine fine_step (fun c n hg hx he => ?_)
      simp only [hx, he]
      rcases hg with hg | ⟨d', hg, hd⟩
      · simp only at hg; rw [hx] at hg; cases hg
      · simp only at hg hd
        rw [he] at hg
        simp only [Option.some.injEq] at hg
        subst hg
        simp only [hd, if_true, delData, delExp]
        rw [Prog.assoc]
        refine fine_step (fun c n hg hx he => ?_)
        rw [Prog.assoc]
        exact fine_step (fun c n hg hx he => h _ _)

theorem Leaves.fine {k : Bytes} {R : Out → Prop} {p : P Out} (h : Leaves k p) (hr : ∀ o, R o) (x : Option Val) (e : Option Int) : Fine k R p x e := by
  induction p generalizing x e with
  | ret o => exact hr o
  | act u c ih => exact fun w _ _ _ => ih w (h w).2.2.2 _ _

theorem fine_getP_other {k j : Bytes} (hj : ¬ j = k) {R : Out → Prop} {x : Option Val} {e : Option Int} {g : Option Val → P Out}
    (h : ∀ a x e, Fine k R (g a) x e) : Fine k R (getP j >>= g) x e := by
  unfold getP loadData
  rw [Prog.assoc]
  refine fine_step (fun c n hg hx he => ?_)
  cases c.data j with
  | none => exact h _ _ _
  | some v =>
    simp only
    rw [Prog.assoc]
    unfold expiredP loadExp
    rw [Prog.assoc]
    refine fine_step (fun c n hg hx he => ?_)
    cases c.exp j with
    | none => exact h _ _ _
    | some d =>
      simp only [clock]
      rw [Prog.assoc]
      refine fine_step (fun c n hg hx he => ?_)
      by_cases hd : d < n
      · simp only [hd, if_true, delData, delExp]
        rw [Prog.assoc]
        refine fine_step (fun c n hg hx he => ?_)
        rw [Prog.assoc]
        exact fine_step (fun c n hg hx he => h _ _ _)
      · simp only [hd, if_false]
        exact h _ _ _

theorem fine_mGetP {k : Bytes} {ks : List Bytes} {R : Out → Prop} {x : Option Val} {e : Option Int} {g : List (Res Bytes) → P Out}
    (h : ∀ (rs : List (Res Bytes)) x e, rs.length = ks.length → (∀ n : Nat, ks[n]? = some k → rs[n]? = some (.err .keyNil)) → Fine k R (g rs) x e) :
    Fine k R (mGetP ks >>= g) x e := by
  induction ks generalizing g x e with
  | nil => exact h _ _ _ rfl (by simp)
  | cons j ks ih =>
    unfold mGetP
    rw [Prog.assoc]
    by_cases hj : j = k
    · subst hj
      refine fine_getP (fun x e => ?_)
      rw [Prog.assoc]
      refine ih (fun rs x e hl hn => h _ _ _ (by simp [hl]) ?_)
      intro n hk
      cases n with
      | zero => rfl
      | succ n => simpa using hn n (by simpa using hk)
    · refine fine_getP_other hj (fun a x e => ?_)
      rw [Prog.assoc]
      refine ih (fun rs x e hl hn => h _ _ _ (by simp [hl]) ?_)
      intro n hk
      cases n with
      | zero => simp at hk; exact absurd hk hj
      | succ n => simpa using hn n (by simpa using hk)

theorem fine_prog {k : Bytes} {op : Call} (hs : op.sees k = true) (x : Option Val) (e : Option Int) : Fine k (Absent k op) (prog op) x e := by
  cases op <;> simp only [Call.sees, Bool.false_eq_true, decide_eq_true_eq] at hs <;> simp only [prog] <;>
    first
    | (subst hs; exact fine_getP (fun x e => rfl))
    | exact fine_mGetP (fun rs x e hl hn => ⟨rs, rfl, hl, hn⟩)

/-- The invariant of the runs: `i` is the goroutine watched. -/
structure Inv42 (i : Nat) (k : Bytes) (g : Cfg) : Prop where
  gone : Gone k g.sh
  todo : ∀ j, ∀ op ∈ (g.thr j).todo, op.writes k = false
  keep : ∀ j op p, (g.thr j).cur = some (op, p) → ∃ b, (b = true → g.sh.c.data k = none) ∧ Keep k b p
  leaves : ∀ j op p, (g.thr j).cur = some (op, p) → op.sees k = false → Leaves k p
  fine : ∀ op p, (g.thr i).cur = some (op, p) → op.sees k = true → Fine k (Absent k op) p (g.sh.c.data k) (g.sh.c.exp k)
  log : ∀ op o, (i, op, o) ∈ g.log → op.sees k = true → Absent k op o

theorem inv42_start {i : Nat} {k : Bytes} {g : Cfg} (h : Inv42 i k g) {j : Nat} {op : Call} {rest : List Call}
    (ht : g.thr j = ⟨op :: rest, none⟩) (w : Option Nat) (r : List Nat) :
    Inv42 i k { g with writer := w, readers := r, thr := setThr g.thr j ⟨rest, some (op, prog op)⟩ } := by
  have hw : op.writes k = false := h.todo j op (by rw [ht]; simp)
  refine ⟨h.gone, ?_, ?_, ?_, ?_, h.log⟩
  · intro j' op' ho
    by_cases hj : j' = j
    · subst hj; simp only [setThr_same] at ho; exact h.todo j' op' (by rw [ht]; simp [ho])
    · simp only [setThr_ne _ _ hj] at ho; exact h.todo j' op' ho
  · intro j' op' p hc
    by_cases hj : j' = j
    · subst hj
      simp only [setThr_same, Option.some.injEq, Prod.mk.injEq] at hc
      obtain ⟨rfl, rfl⟩ := hc
      exact ⟨false, by simp, keep_prog hw⟩
    · simp only [setThr_ne _ _ hj] at hc; exact h.keep j' op' p hc
  · intro j' op' p hc hs
    by_cases hj : j' = j
    · subst hj
      simp only [setThr_same, Option.some.injEq, Prod.mk.injEq] at hc
      obtain ⟨rfl, rfl⟩ := hc
      exact leaves_prog hw hs
    · simp only [setThr_ne _ _ hj] at hc; exact h.leaves j' op' p hc hs
  · intro op' p hc hs
    by_cases hj : i = j
    · subst hj
      simp only [setThr_same, Option.some.injEq, Prod.mk.injEq] at hc
      obtain ⟨rfl, rfl⟩ := hc
      exact fine_prog hs _ _
    · simp only [setThr_ne _ _ hj] at hc; exact h.fine op' p hc hs

theorem inv42_step {i : Nat} {k : Bytes} {g g' : Cfg} (ha : OnlyOne i k g) (h : Inv42 i k g) (hs : Step spec true g g') : Inv42 i k g' := by
  cases hs with
  | tick s' ht =>
    obtain ⟨h1, h2⟩ := ht
    refine ⟨?_, h.todo, ?_, h.leaves, ?_, h.log⟩
    · rcases h.gone with e | ⟨d, e, hd⟩
      · exact .inl (by rw [h1]; exact e)
      · exact .inr ⟨d, by rw [h1]; exact e, by simp only; omega⟩
    · simpa only [h1] using h.keep
    · simpa only [h1] using h.fine
  | startW j op rest ht _ _ _ => exact inv42_start h ht _ _
  | startR j op rest ht _ _ _ => exact inv42_start h ht _ _
  | startN j op rest ht _ => exact inv42_start h ht _ _
  | act j op todo u c ht =>
    obtain ⟨b, hb, hk⟩ := h.keep j op _ (by rw [ht])
    obtain ⟨k1, k2, k3, b', k4, k5⟩ := hk g.sh h.gone hb
    refine ⟨k2, ?_, ?_, ?_, ?_, h.log⟩
    · intro j' op' ho
      by_cases hj : j' = j
      · subst hj; simp only [setThr_same] at ho; exact h.todo j' op' (by rw [ht]; exact ho)
      · simp only [setThr_ne _ _ hj] at ho; exact h.todo j' op' ho
    · intro j' op' p hc
      by_cases hj : j' = j
      · subst hj
        simp only [setThr_same, Option.some.injEq, Prod.mk.injEq] at hc
        obtain ⟨rfl, rfl⟩ := hc
        exact ⟨b', k4, k5⟩
      · simp only [setThr_ne _ _ hj] at hc
        obtain ⟨b2, h1, h2⟩ := h.keep j' op' p hc
        exact ⟨b2, fun hb2 => k3 (h1 hb2), h2⟩
    · intro j' op' p hc hs
      by_cases hj : j' = j
      · subst hj
        simp only [setThr_same, Option.some.injEq, Prod.mk.injEq] at hc
        obtain ⟨rfl, rfl⟩ := hc
        exact (h.leaves j' op (.act u c) (by rw [ht]) hs g.sh).2.2.2
      · simp only [setThr_ne _ _ hj] at hc; exact h.leaves j' op' p hc hs
    · intro op' p hc hs
      by_cases hj : i = j
      · subst hj
        simp only [setThr_same, Option.some.injEq, Prod.mk.injEq] at hc
        obtain ⟨rfl, rfl⟩ := hc
        exact h.fine op (.act u c) (by rw [ht]) hs g.sh h.gone rfl rfl
      · simp only [setThr_ne _ _ hj] at hc
        have hq := ha j op' p op _ hc hs (fun e => hj e.symm) (by rw [ht])
        obtain ⟨_, q2, q3, _⟩ := h.leaves j op (.act u c) (by rw [ht]) hq g.sh
        simp only [q2, q3]
        exact h.fine op' p hc hs
  | fin j op todo o ht =>
    refine ⟨h.gone, ?_, ?_, ?_, ?_, ?_⟩
    · intro j' op' ho
      by_cases hj : j' = j
      · subst hj; simp only [setThr_same] at ho; exact h.todo j' op' (by rw [ht]; exact ho)
      · simp only [setThr_ne _ _ hj] at ho; exact h.todo j' op' ho
    · intro j' op' p hc
      by_cases hj : j' = j
      · subst hj; simp at hc
      · simp only [setThr_ne _ _ hj] at hc; exact h.keep j' op' p hc
    · intro j' op' p hc hs
      by_cases hj : j' = j
      · subst hj; simp at hc
      · simp only [setThr_ne _ _ hj] at hc; exact h.leaves j' op' p hc hs
    · intro op' p hc hs
      by_cases hj : i = j
      · subst hj; simp at hc
      · simp only [setThr_ne _ _ hj] at hc; exact h.fine op' p hc hs
    · intro op' o' hl hs
      simp only [List.mem_append, List.mem_singleton, Prod.mk.injEq] at hl
      rcases hl with hl | ⟨rfl, rfl, rfl⟩
      · exact h.log op' o' hl hs
      · exact h.fine op' _ (by rw [ht]) hs

/-- C42, part: any number of goroutines, any calls that do not write `k`, with or without the lock, in any schedule in which
goroutine `i` is never inside a call that looks at `k` while another goroutine is inside one: if the deadline of `k` had
passed at the start, all calls of `i` answer as if `k` did not exist.  Missing: the schedules with such an overlap, where
it is false (`C42_violated_any`). -/
theorem C42_overlap_partial (c0 : Cache) (t0 d : Int) (k : Bytes) (calls : Nat → List Call) (i : Nat)
    (hc : ∀ j, ∀ op ∈ calls j, op.writes k = false) (hd : c0.exp k = some d) (hlt : d < t0)
    (g : Cfg) (hs : StepsIn (OnlyOne i k) (initial ⟨c0, t0⟩ calls) g)
    (op : Call) (o : Out) (hl : (i, op, o) ∈ g.log) (hsee : op.sees k = true) : Absent k op o := by
  have key : Inv42 i k g ∧ OnlyOne i k g := by
    clear hl
    induction hs with
    | refl hq => exact ⟨⟨.inr ⟨d, hd, hlt⟩, hc, (by intro j op p h; cases h), (by intro j op p h; cases h), (by intro op p h; cases h), (by intro op o h; cases h)⟩, hq⟩
    | snoc _ hst hq ih => exact ⟨inv42_step ih.2 ih.1 hst, hq⟩
  exact key.1.log op o hl hsee

theorem from_calls {s : World} {calls : Nat → List Call} {g : Cfg} (h : Steps spec true (initial s calls) g) (j : Nat) :
    (∀ op ∈ (g.thr j).todo, op ∈ calls j) ∧ ∀ op p, (g.thr j).cur = some (op, p) → op ∈ calls j := by
  induction h with
  | refl => exact ⟨fun _ h => h, by intro op p h; cases h⟩
  | snoc _ hst ih =>
    have start : ∀ {g : Cfg} {j' op' rest} {q : P Out}, g.thr j' = ⟨op' :: rest, none⟩ → (∀ op ∈ (g.thr j).todo, op ∈ calls j) ∧ (∀ op p, (g.thr j).cur = some (op, p) → op ∈ calls j) →
        (∀ op ∈ (setThr g.thr j' ⟨rest, some (op', q)⟩ j).todo, op ∈ calls j) ∧ ∀ op p, (setThr g.thr j' ⟨rest, some (op', q)⟩ j).cur = some (op, p) → op ∈ calls j := by
      intro g j' op' rest q ht ih
      by_cases hj : j = j'
      · subst hj
        rw [ht] at ih
        simp only [setThr_same]
        exact ⟨fun op h => ih.1 op (by simp [h]), fun op p h => by simp at h; exact ih.1 op (by simp [h.1])⟩
      · rw [setThr_ne _ _ hj]; exact ih
    cases hst with
    | tick _ _ => exact ih
    | startW j' op' rest ht _ _ _ => exact start ht ih
    | startR j' op' rest ht _ _ _ => exact start ht ih
    | startN j' op' rest ht _ => exact start ht ih
    | act j' op' todo u c ht =>
      by_cases hj : j = j'
      · subst hj
        rw [ht] at ih
        simp only [setThr_same]
        exact ⟨ih.1, fun op p h => by simp at h; exact ih.2 op _ (by rw [h.1])⟩
      · simp only [setThr_ne _ _ hj]; exact ih
    | fin j' op' todo o ht =>
      by_cases hj : j = j'
      · subst hj
        rw [ht] at ih
        simp only [setThr_same]
        exact ⟨ih.1, by intro op p h; cases h⟩
      · simp only [setThr_ne _ _ hj]; exact ih

/-- If only goroutine `i` looks at `k`, every schedule is of the kind `C42_overlap_partial` speaks of. -/
theorem stepsIn_of_calls {s : World} {k : Bytes} {calls : Nat → List Call} {i : Nat} (hc : ∀ j, j ≠ i → ∀ op ∈ calls j, op.sees k = false)
    {g : Cfg} (h : Steps spec true (initial s calls) g) : StepsIn (OnlyOne i k) (initial s calls) g := by
  have hq : ∀ {g : Cfg}, Steps spec true (initial s calls) g → OnlyOne i k g :=
    fun h j op p op' p' _ _ hj hcur => hc j hj op' ((from_calls h j).2 op' p' hcur)
  induction h with
  | refl => exact .refl (hq .refl)
  | snoc h hst ih => exact .snoc ih hst (hq (h.snoc hst))

/-- C42 with one goroutine that looks at `k`: whatever the others do with other keys, in every schedule, it is told that
`k` does not exist. -/
theorem C42_one_reader_partial (c0 : Cache) (t0 d : Int) (k : Bytes) (calls : Nat → List Call) (i : Nat)
    (hc : ∀ j, ∀ op ∈ calls j, op.writes k = false) (ho : ∀ j, j ≠ i → ∀ op ∈ calls j, op.sees k = false) (hd : c0.exp k = some d) (hlt : d < t0)
    (g : Cfg) (hs : Steps spec true (initial ⟨c0, t0⟩ calls) g)
    (o : Out) (hl : (i, .get k, o) ∈ g.log) : o = .str (.err .keyNil) :=
  C42_overlap_partial c0 t0 d k calls i hc hd hlt g (stepsIn_of_calls ho hs) (.get k) o hl (by simp [Call.sees])

/-- The hypotheses are met: two Gets overlap, of different keys. -/
example : (∀ j, j ≠ 0 → ∀ op ∈ (fun i => if i = 0 then [Call.get b!"k"] else if i = 1 then [.get b!"j", .set b!"x" b!"1"] else []) j, op.sees b!"k" = false) ∧
    (sched spec (initial ⟨staleDemo, 10⟩ (fun i => if i = 0 then [.get b!"k"] else if i = 1 then [.get b!"j", .set b!"x" b!"1"] else []))
      [.start 0, .act 0, .start 1, .act 1, .act 0, .act 0, .act 0, .act 0, .fin 0, .fin 1]).map
      (fun g => g.log.map (fun e => (e.1, e.2.2))) = some [(0, .str (.err .keyNil)), (1, .str (.err .keyNil))] := by
  refine ⟨?_, by decide +kernel⟩
  intro j hj op ho
  simp only [hj, if_false] at ho
  split at ho
  · simp at ho; rcases ho with rfl | rfl <;> decide
  · cases ho

theorem one_act {g : Cfg} {j : Nat} {op : Call} {todo : List Call} {u : World → World} {c : World → P Out}
    (ht : g.thr j = ⟨todo, some (op, .act u c)⟩) : ∃ g', Step spec true g g' ∧ g'.sh = u g.sh ∧ g'.thr j = ⟨todo, some (op, c g.sh)⟩ ∧
      (∀ j', j' ≠ j → g'.thr j' = g.thr j') ∧ g'.writer = g.writer ∧ g'.log = g.log :=
  ⟨_, .act g j op todo u c ht, rfl, by simp, fun j' h => setThr_ne _ _ h, rfl, rfl⟩

theorem one_start {g : Cfg} {j : Nat} {op : Call} {rest : List Call} (ht : g.thr j = ⟨op :: rest, none⟩)
    (hm : mode op = .read ∨ mode op = .unlocked) (hw : g.writer = none) :
    ∃ g', Step spec true g g' ∧ g'.sh = g.sh ∧ g'.thr j = ⟨rest, some (op, prog op)⟩ ∧
      (∀ j', j' ≠ j → g'.thr j' = g.thr j') ∧ g'.writer = none ∧ g'.log = g.log := by
  rcases hm with hm | hm
  · exact ⟨_, .startR g j op rest ht hm hw (.inl rfl), rfl, by simp [spec], fun j' h => setThr_ne _ _ h, hw, rfl⟩
  · exact ⟨_, .startN g j op rest ht hm, rfl, by simp [spec], fun j' h => setThr_ne _ _ h, hw, rfl⟩

theorem getP_some {k : Bytes} {v : Val} {w : World} (h : w.c.data k = some v) (f : Option Val → P Out) :
    ∃ u c, (getP k >>= f) = .act u c ∧ u w = w ∧ c w = (expiredP k >>= fun b => if b then f none else f (some v)) := by
  refine ⟨_, _, rfl, rfl, ?_⟩
  have : ∀ x : Option Val, x = some v → ((match x with
      | none => pure none
      | some v => do if ← expiredP k then pure none else pure (some v) : P (Option Val)) >>= f) = (expiredP k >>= fun b => if b then f none else f (some v)) := by
    rintro _ rfl
    simp only
    rw [Prog.assoc]
    congr 1
    funext b
    cases b <;> rfl
  exact this _ h

theorem expiredP_gone {k : Bytes} {w : World} (h : w.c.exp k = none) (f : Bool → P Out) :
    ∃ u c, (expiredP k >>= f) = .act u c ∧ u w = w ∧ c w = f false := by
  refine ⟨_, _, rfl, rfl, ?_⟩
  have : ∀ x : Option Int, x = none → ((match x with
      | none => pure false
      | some d => do
        let n ← clock
        if d < n then do delData k; delExp k; pure true else pure false : P Bool) >>= f) = f false := by
    rintro _ rfl; rfl
  exact this _ h

theorem expiredP_some {k : Bytes} {w : World} {d : Int} (h : w.c.exp k = some d) (f : Bool → P Out) :
    ∃ u c, (expiredP k >>= f) = .act u c ∧ u w = w ∧ c w = (clock >>= fun n => if d < n then (delData k >>= fun _ => delExp k >>= fun _ => f true) else f false) := by
  refine ⟨_, _, rfl, rfl, ?_⟩
  have : ∀ x : Option Int, x = some d → ((match x with
      | none => pure false
      | some d => do
        let n ← clock
        if d < n then do delData k; delExp k; pure true else pure false : P Bool) >>= f) =
      (clock >>= fun n => if d < n then (delData k >>= fun _ => delExp k >>= fun _ => f true) else f false) := by
    rintro _ rfl
    simp only
    rw [Prog.assoc]
    congr 1
    funext n
    split
    · rw [Prog.assoc]; congr 1
    · rfl
  exact this _ h

/-- What Get does with what it found. -/
def getK : Option Val → P Out
  | none => pure (.str (.err .keyNil))
  | some v => pure (.str (fmtString v))

theorem prog_get (k : Bytes) : prog (.get k) = (getP k >>= getK) := by
  simp only [prog]
  congr 1

/-- C42 fails for every expired key: if `k` holds `v` and its deadline has passed, then of two goroutines one of which calls
Get(k) and the other Get, StrLen, GetRange or Type of `k`, the first may be given the expired value. -/
theorem C42_violated_any (c0 : Cache) (t0 d : Int) (k : Bytes) (v : Val) (hv : c0.data k = some v) (hd : c0.exp k = some d) (hlt : d < t0)
    (op : Call) (hop : op = .get k ∨ op = .strLen k ∨ (∃ a b, op = .getRange k a b) ∨ op = .type k) :
    ∃ g : Cfg, Steps spec true (initial ⟨c0, t0⟩ (fun i => if i = 0 then [.get k] else if i = 1 then [op] else [])) g ∧
      (0, .get k, .str (fmtString v)) ∈ g.log := by
  obtain ⟨f, hf, hm⟩ : ∃ f, prog op = (getP k >>= f) ∧ (mode op = .read ∨ mode op = .unlocked) := by
    rcases hop with rfl | rfl | ⟨a, b, rfl⟩ | rfl
    · exact ⟨_, rfl, .inl rfl⟩
    · exact ⟨_, rfl, .inl rfl⟩
    · exact ⟨_, rfl, .inl rfl⟩
    · exact ⟨_, rfl, .inr rfl⟩
  obtain ⟨g1, s1, a1, b1, c1, d1, e1⟩ := one_start (g := initial ⟨c0, t0⟩ (fun i => if i = 0 then [.get k] else if i = 1 then [op] else []))
    (j := 0) (op := .get k) (rest := []) rfl (.inl rfl) rfl
  have hsh1 : g1.sh = ⟨c0, t0⟩ := a1
  obtain ⟨u, c, hp, hu, hc⟩ := getP_some (w := g1.sh) (k := k) (v := v) (by rw [hsh1]; exact hv) getK
  rw [prog_get, hp] at b1
  obtain ⟨g2, s2, a2, b2, c2, d2, e2⟩ := one_act b1
  rw [hu, hsh1] at a2
  rw [hc] at b2
  obtain ⟨g3, s3, a3, b3, c3, d3, e3⟩ := one_start (g := g2) (j := 1) (op := op) (rest := [])
    (by rw [c2 1 (by omega), c1 1 (by omega)]; rfl) hm (by rw [d2, d1])
  have hsh3 : g3.sh = ⟨c0, t0⟩ := by rw [a3, a2]
  obtain ⟨u, c, hp, hu, hc⟩ := getP_some (w := g3.sh) (k := k) (v := v) (by rw [hsh3]; exact hv) f
  rw [hf, hp] at b3
  obtain ⟨g4, s4, a4, b4, c4, d4, e4⟩ := one_act b3
  rw [hu] at a4
  rw [hc] at b4
  obtain ⟨u, c, hp, hu, hc⟩ := expiredP_some (w := g4.sh) (k := k) (d := d) (by rw [a4, hsh3]; exact hd) (fun b => if b then f none else f (some v))
  rw [hp] at b4
  obtain ⟨g5, s5, a5, b5, c5, d5, e5⟩ := one_act b4
  rw [hu] at a5
  rw [hc] at b5
  have hsh5 : g5.sh = ⟨c0, t0⟩ := by rw [a5, a4, hsh3]
  obtain ⟨g6, s6, a6, b6, c6, d6, e6⟩ := one_act b5
  have hsh6 : g6.sh = ⟨c0, t0⟩ := by rw [a6, hsh5]
  have b6' : g6.thr 1 = ⟨[], some (op, delData k >>= fun _ => delExp k >>= fun _ => f none)⟩ := by
    rw [b6, hsh5]
    exact congrArg (fun p => Thread.mk [] (some (op, p))) (if_pos hlt)
  obtain ⟨g7, s7, a7, b7, c7, d7, e7⟩ := one_act b6'
  obtain ⟨g8, s8, a8, b8, c8, d8, e8⟩ := one_act b7
  have hsh8 : g8.sh.c.exp k = none := by rw [a8]; simp [upd]
  have ht8 : g8.thr 0 = ⟨[], some (.get k, expiredP k >>= fun b => if b then getK none else getK (some v))⟩ := by
    rw [c8 0 (by omega), c7 0 (by omega), c6 0 (by omega), c5 0 (by omega), c4 0 (by omega), c3 0 (by omega)]; exact b2
  obtain ⟨u, c, hp, hu, hc⟩ := expiredP_gone (w := g8.sh) (k := k) hsh8 (fun b => if b then getK none else getK (some v))
  rw [hp] at ht8
  obtain ⟨g9, s9, a9, b9, c9, d9, e9⟩ := one_act ht8
  rw [hc] at b9
  refine ⟨_, ((((((((((Steps.refl.snoc s1).snoc s2).snoc s3).snoc s4).snoc s5).snoc s6).snoc s7).snoc s8).snoc s9).snoc (.fin g9 0 (.get k) [] (.str (fmtString v)) b9)), ?_⟩
  simp

end Verif.Conc

import Verif.Conc.PropsLost
import Verif.Cache.PropsDb
/-!
# C103: exactly when an MGet of a goroutine that is alone shows one moment

Nobody else runs, only the clock moves on.  MGet reads the keys one after the other, each at its own time
(cache/cachestring.go:338-356, cache/cacheutil.go:36-48).
-/
namespace Verif.Conc
open Cache

/-- `p` run by a goroutine that is alone from `w` ends in `w'` with `b`; the clock may move on before every step and
after the last one. -/
def Lone {α : Type} : P α → World → World → α → Prop
  | .ret a, w, w', b => w'.c = w.c ∧ w.now ≤ w'.now ∧ b = a
  | .act u c, w, w', b => ∃ n, w.now ≤ n ∧ Lone (c ⟨w.c, n⟩) (u ⟨w.c, n⟩) w' b

theorem lone_later {α : Type} {p : P α} {w w' : World} {b : α} {n : Int} (hn : w.now ≤ n) (h : Lone p ⟨w.c, n⟩ w' b) :
    Lone p w w' b := by
  cases p with
  | ret a =>
    obtain ⟨h1, h2, h3⟩ := h
    exact ⟨h1, by simp only at h2; omega, h3⟩
  | act u c =>
    obtain ⟨m, h1, h2⟩ := h
    exact ⟨m, by simp only at h1; omega, h2⟩

theorem lone_bind {α β : Type} {p : P α} {f : α → P β} {w' : World} {b : β} : ∀ {w : World}, Lone (p >>= f) w w' b →
    ∃ w1 a, Lone p w w1 a ∧ Lone (f a) w1 w' b := by
  induction p with
  | ret a => exact fun {w} h => ⟨w, a, ⟨rfl, Int.le_refl _, rfl⟩, h⟩
  | act u c ih =>
    rintro w ⟨n, hn, h⟩
    obtain ⟨w1, a, h1, h2⟩ := ih _ h
    exact ⟨w1, a, ⟨n, hn, h1⟩, h2⟩

theorem lone_step {α β : Type} {f : Cache → Int → Cache × α} {g : α → P β} {w w' : World} {b : β} (h : Lone (step f >>= g) w w' b) :
    ∃ n, w.now ≤ n ∧ Lone (g (f w.c n).2) ⟨(f w.c n).1, n⟩ w' b := h

/-- One key: what `get` finds and leaves is what it finds and leaves at one time. -/
theorem lone_getP {k : Bytes} {w w' : World} {v : Option Val} (h : Lone (getP k) w w' v) :
    ∃ t, w.now ≤ t ∧ t ≤ w'.now ∧ v = liveVal w.c t k ∧ w'.c = (w.c.load t k).1 := by
  unfold getP loadData at h
  obtain ⟨n1, hn1, h⟩ := lone_step h
  simp only at h
  cases hd : w.c.data k with
  | none =>
    rw [hd] at h
    obtain ⟨h1, h2, h3⟩ := h
    refine ⟨n1, hn1, h2, ?_, ?_⟩
    · rw [h3]; simp [liveVal, hd]
    · rw [h1]; simp [load, hd]
  | some x =>
    rw [hd] at h
    simp only [expiredP] at h
    rw [Prog.assoc] at h
    obtain ⟨n2, hn2, h⟩ := lone_step h
    simp only at h hn2
    cases he : w.c.exp k with
    | none =>
      rw [he] at h
      obtain ⟨h1, h2, h3⟩ := h
      simp only at h1 h2
      refine ⟨n2, by omega, h2, ?_, ?_⟩
      · rw [h3]; simp [liveVal, hd, he]
      · rw [h1]; simp [load, hd, expired, he]
    | some d =>
      rw [he] at h
      simp only at h
      rw [Prog.assoc] at h
      obtain ⟨n3, hn3, h⟩ := lone_step h
      simp only at h hn3
      by_cases hlt : d < n3
      · rw [if_pos hlt, Prog.assoc] at h
        obtain ⟨n4, hn4, h⟩ := lone_step h
        simp only at h hn4
        rw [Prog.assoc] at h
        obtain ⟨n5, hn5, h⟩ := lone_step h
        obtain ⟨h1, h2, h3⟩ := h
        simp only at h1 h2 hn5
        refine ⟨n3, by omega, by omega, ?_, ?_⟩
        · rw [h3]; simp [liveVal, hd, he, hlt]
        · rw [h1]; simp [load, hd, expired, he, hlt]
      · rw [if_neg hlt] at h
        obtain ⟨h1, h2, h3⟩ := h
        simp only at h1 h2
        refine ⟨n3, by omega, by omega, ?_, ?_⟩
        · rw [h3]; simp [liveVal, hd, he, hlt]
        · rw [h1]; simp [load, hd, expired, he, hlt]

/-- The keys in order, each at its own time. -/
def AtTimes (c : Cache) : Int → Int → List Bytes → List (Res Bytes) → Prop
  | lo, hi, [], rs => lo ≤ hi ∧ rs = []
  | lo, hi, k :: ks, rs => ∃ t rs', lo ≤ t ∧ rs = (c.get t k).2 :: rs' ∧ AtTimes c t hi ks rs'

theorem atTimes_hi {c : Cache} {ks : List Bytes} : ∀ {lo hi hi' : Int} {rs : List (Res Bytes)}, AtTimes c lo hi ks rs → hi ≤ hi' →
    AtTimes c lo hi' ks rs := by
  induction ks with
  | nil => exact fun h h' => ⟨by have := h.1; omega, h.2⟩
  | cons k ks ih =>
    rintro lo hi hi' rs ⟨t, rs', h1, h2, h3⟩ h'
    exact ⟨t, rs', h1, h2, ih h3 h'⟩

theorem atTimes_lo {c : Cache} {ks : List Bytes} {lo lo' hi : Int} {rs : List (Res Bytes)} (h : AtTimes c lo hi ks rs) (h' : lo' ≤ lo) :
    AtTimes c lo' hi ks rs := by
  cases ks with
  | nil => exact ⟨by have := h.1; omega, h.2⟩
  | cons k ks =>
    obtain ⟨t, rs', h1, h2, h3⟩ := h
    exact ⟨t, rs', by omega, h2, h3⟩

theorem lone_mGetP {c : Cache} {ks : List Bytes} : ∀ {w w' : World} {rs : List (Res Bytes)},
    (∀ k t, w.now ≤ t → liveVal w.c t k = liveVal c t k) → Lone (mGetP ks) w w' rs → AtTimes c w.now w'.now ks rs := by
  induction ks with
  | nil =>
    rintro w w' rs _ ⟨_, h2, h3⟩
    exact ⟨h2, h3⟩
  | cons k ks ih =>
    intro w w' rs hs h
    unfold mGetP at h
    obtain ⟨w1, v, g1, h⟩ := lone_bind h
    obtain ⟨w2, rs', g2, h⟩ := lone_bind h
    obtain ⟨e1, e2, e3⟩ := h
    obtain ⟨t, t1, t2, t3, t4⟩ := lone_getP g1
    refine ⟨t, rs', t1, ?_, ?_⟩
    · rw [e3, get_snd, ← hs k t t1, ← t3]
      cases v <;> rfl
    · have := ih (w := w1) (w' := w2) (fun k' t' ht' => by
        rw [t4, liveVal_load _ _ _ (by omega), hs k' t' (by omega)]) g2
      exact atTimes_lo (atTimes_hi this e2) t2

/-! ## The machine with one goroutine -/

/-- One goroutine that makes one call. -/
def oneCall (op : Call) : Nat → List Call := fun i => if i = 0 then [op] else []

theorem lone_of_steps {w : World} {op : Call} {g : Cfg} (hs : Steps spec true (initial w (oneCall op)) g) :
    (∀ i, i ≠ 0 → g.thr i = ⟨[], none⟩) ∧
    ((g.thr 0 = ⟨[op], none⟩ ∧ g.log = [] ∧ g.sh.c = w.c ∧ w.now ≤ g.sh.now) ∨
     (∃ p, g.thr 0 = ⟨[], some (op, p)⟩ ∧ g.log = [] ∧ ∀ w' o, Lone p g.sh w' o → Lone (prog op) w w' o) ∨
     (∃ o w', g.thr 0 = ⟨[], none⟩ ∧ g.log = [(0, op, o)] ∧ Lone (prog op) w w' o ∧ w'.now ≤ g.sh.now)) := by
  induction hs with
  | refl => exact ⟨fun i hi => by simp [initial, oneCall, hi], .inl ⟨rfl, rfl, rfl, Int.le_refl _⟩⟩
  | snoc _ s ih =>
    obtain ⟨hi, h⟩ := ih
    have start : ∀ {g : Cfg} {i : Nat} {op' : Call} {rest : List Call}, g.thr i = ⟨op' :: rest, none⟩ → (∀ i, i ≠ 0 → g.thr i = ⟨[], none⟩) →
        ((g.thr 0 = ⟨[op], none⟩ ∧ g.log = [] ∧ g.sh.c = w.c ∧ w.now ≤ g.sh.now) ∨
         (∃ p, g.thr 0 = ⟨[], some (op, p)⟩ ∧ g.log = [] ∧ ∀ w' o, Lone p g.sh w' o → Lone (prog op) w w' o) ∨
         (∃ o w', g.thr 0 = ⟨[], none⟩ ∧ g.log = [(0, op, o)] ∧ Lone (prog op) w w' o ∧ w'.now ≤ g.sh.now)) →
        (∀ j, j ≠ 0 → setThr g.thr i ⟨rest, some (op', prog op')⟩ j = ⟨[], none⟩) ∧ ∃ p, setThr g.thr i ⟨rest, some (op', prog op')⟩ 0 = ⟨[], some (op, p)⟩ ∧ g.log = [] ∧
          ∀ w' o, Lone p g.sh w' o → Lone (prog op) w w' o := by
      intro g i op' rest ht hi h
      by_cases h0 : i = 0
      · subst h0
        rcases h with ⟨a, b, c, d⟩ | ⟨p, a, _⟩ | ⟨o, w', a, _⟩
        · rw [a] at ht
          injection ht with e1 _
          injection e1 with e1 e2
          subst e1; subst e2
          refine ⟨fun j hj => by rw [setThr_ne _ _ hj, hi j hj], _, by rw [setThr_same], b, fun w' o hl => ?_⟩
          refine lone_later d ?_
          rw [← c]
          exact hl
        · rw [a] at ht; cases ht
        · rw [a] at ht; cases ht
      · rw [hi i h0] at ht; cases ht
    cases s with
    | tick s' ht =>
      refine ⟨hi, ?_⟩
      rcases h with ⟨a, b, c, d⟩ | ⟨p, a, b, c⟩ | ⟨o, w', a, b, c, d⟩
      · exact .inl ⟨a, b, by rw [ht.1]; exact c, by have := ht.2; simp only; omega⟩
      · refine .inr (.inl ⟨p, a, b, fun w' o hl => c w' o (lone_later ht.2 ?_)⟩)
        rw [← ht.1]
        exact hl
      · exact .inr (.inr ⟨o, w', a, b, c, by have := ht.2; simp only; omega⟩)
    | startW i op' rest ht hm hw hr =>
      obtain ⟨a, b⟩ := start ht hi h
      exact ⟨a, .inr (.inl b)⟩
    | startR i op' rest ht hm hw hr =>
      obtain ⟨a, b⟩ := start ht hi h
      exact ⟨a, .inr (.inl b)⟩
    | startN i op' rest ht hm =>
      obtain ⟨a, b⟩ := start ht hi h
      exact ⟨a, .inr (.inl b)⟩
    | act i op' todo u k ht =>
      by_cases h0 : i = 0
      · subst h0
        rcases h with ⟨a, _⟩ | ⟨p, a, b, c⟩ | ⟨o, w', a, _⟩
        · rw [a] at ht; cases ht
        · rw [a] at ht
          injection ht with e1 e2
          subst e1
          injection e2 with e2
          injection e2 with e2 e3
          subst e2; subst e3
          refine ⟨fun j hj => (setThr_ne _ _ hj).trans (hi j hj), .inr (.inl ⟨k _, by simp only [setThr_same]; rfl, b, fun w' o hl => ?_⟩)⟩
          exact c w' o ⟨_, Int.le_refl _, hl⟩
        · rw [a] at ht; cases ht
      · rw [hi i h0] at ht; cases ht
    | fin i op' todo o ht =>
      by_cases h0 : i = 0
      · subst h0
        rcases h with ⟨a, _⟩ | ⟨p, a, b, c⟩ | ⟨o, w', a, _⟩
        · rw [a] at ht; cases ht
        · rename_i g1 g2
          rw [a] at ht
          injection ht with e1 e2
          subst e1
          injection e2 with e2
          injection e2 with e2 e3
          subst e2; subst e3
          refine ⟨fun j hj => (setThr_ne _ _ hj).trans (hi j hj), .inr (.inr ⟨o, _, by simp only [setThr_same], by rw [b]; rfl, c _ _ ⟨rfl, Int.le_refl _, rfl⟩, Int.le_refl _⟩)⟩
        · rw [a] at ht; cases ht
      · rw [hi i h0] at ht; cases ht

/-- Every answer of MGet is each key at its own time, in order. -/
theorem mGet_times {c : Cache} {t0 : Int} {ks : List Bytes} {g : Cfg} (hs : Steps spec true (initial ⟨c, t0⟩ (oneCall (.mGet ks))) g)
    {e : Nat × Call × Out} (he : e ∈ g.log) : ∃ rs, e = (0, .mGet ks, .slots (.ok rs)) ∧ AtTimes c t0 g.sh.now ks rs := by
  rcases (lone_of_steps hs).2 with ⟨_, b, _⟩ | ⟨p, _, b, _⟩ | ⟨o, w', _, b, h, hn⟩
  · rw [b] at he; cases he
  · rw [b] at he; cases he
  · rw [b] at he
    obtain rfl := List.mem_singleton.1 he
    simp only [prog] at h
    obtain ⟨w1, rs, h1, h2⟩ := lone_bind h
    obtain ⟨e1, e2, e3⟩ := h2
    subst e3
    exact ⟨rs, rfl, atTimes_hi (lone_mGetP (c := c) (fun _ _ _ => rfl) h1) (Int.le_trans e2 hn)⟩

/-! ## One moment -/

/-- `k` holds a value at `t`. -/
def Held (c : Cache) (t : Int) (k : Bytes) : Prop := c.data k ≠ none ∧ ∀ d, c.exp k = some d → t ≤ d

/-- Among the keys held at `t`, a later one in the list that has a deadline has an earlier deadline than those before
it (no deadline counts as the latest). -/
def Falling (c : Cache) (t : Int) (ks : List Bytes) : Prop :=
  ∀ (i j : Nat) (a b : Bytes), i < j → ks[i]? = some a → ks[j]? = some b → Held c t a → Held c t b →
    ∀ db, c.exp b = some db → ∀ da, c.exp a = some da → db < da

theorem get_held {c : Cache} {t : Int} {k : Bytes} (h : Held c t k) : ∃ v, c.data k = some v ∧ (c.get t k).2 = fmtString v := by
  obtain ⟨h1, h2⟩ := h
  cases hd : c.data k with
  | none => exact absurd hd h1
  | some v =>
    refine ⟨v, rfl, ?_⟩
    rw [get_snd]
    cases he : c.exp k with
    | none => simp [liveVal, hd, he, showVal]
    | some d =>
      have := h2 d he
      simp [liveVal, hd, he, showVal, show ¬ d < t by omega]

theorem get_not_held {c : Cache} {t : Int} {k : Bytes} (h : ¬ Held c t k) : (c.get t k).2 = .err .keyNil := by
  rw [get_snd]
  cases hd : c.data k with
  | none => simp [liveVal, hd, showVal]
  | some v =>
    cases he : c.exp k with
    | none => exact absurd ⟨by simp [hd], by simp [he]⟩ h
    | some d =>
      by_cases hlt : d < t
      · simp [liveVal, hd, he, showVal, hlt]
      · exact absurd ⟨by simp [hd], fun d' hd' => by rw [he] at hd'; cases hd'; omega⟩ h

theorem held_earlier {c : Cache} {s t : Int} {k : Bytes} (h : Held c t k) (hst : s ≤ t) : Held c s k :=
  ⟨h.1, fun d hd => by have := h.2 d hd; omega⟩

theorem fmtString_ne (v : Val) : fmtString v ≠ .err .keyNil := by
  cases v <;> simp [fmtString]

theorem one_moment {c : Cache} {t0 hi : Int} {ks : List Bytes} : ∀ {lo : Int} {rs : List (Res Bytes)}, t0 ≤ lo → Falling c t0 ks →
    AtTimes c lo hi ks rs → ∃ t, lo ≤ t ∧ t ≤ hi ∧ rs = ks.map (fun k => (c.get t k).2) := by
  induction ks with
  | nil => exact fun {lo rs} _ _ h => ⟨lo, Int.le_refl _, h.1, h.2⟩
  | cons a ks ih =>
    rintro lo rs hlo hf ⟨t1, rs', h1, h2, h3⟩
    have hf' : Falling c t0 ks := fun i j x y hij hi hj => hf (i + 1) (j + 1) x y (by omega) hi hj
    obtain ⟨t, g1, g2, g3⟩ := ih (lo := t1) (by omega) hf' h3
    by_cases ha : Held c t a
    · refine ⟨t, by omega, g2, ?_⟩
      obtain ⟨v, e1, e2⟩ := get_held ha
      obtain ⟨v', e1', e2'⟩ := get_held (held_earlier ha g1)
      rw [e1] at e1'
      cases e1'
      rw [h2, g3, e2', List.map_cons, e2]
    · by_cases ha1 : Held c t1 a
      · obtain ⟨d, hd, hlt⟩ : ∃ d, c.exp a = some d ∧ d < t := by
          refine Decidable.byContradiction fun hn => ha ⟨ha1.1, fun d hd => ?_⟩
          refine Decidable.byContradiction fun hl => hn ⟨d, hd, by omega⟩
        have h1d := ha1.2 d hd
        refine ⟨d, by omega, by omega, ?_⟩
        have had : Held c d a := ⟨ha1.1, fun d' hd' => by rw [hd] at hd'; cases hd'; omega⟩
        obtain ⟨v, e1, e2⟩ := get_held had
        obtain ⟨v', e1', e2'⟩ := get_held ha1
        rw [e1] at e1'
        cases e1'
        rw [h2, g3, e2', List.map_cons, e2]
        congr 1
        refine List.map_congr_left (fun b hb => ?_)
        obtain ⟨j, hj⟩ := List.getElem?_of_mem hb
        by_cases hbt : Held c t b
        · obtain ⟨x, f1, f2⟩ := get_held hbt
          obtain ⟨x', f1', f2'⟩ := get_held (held_earlier hbt (Int.le_of_lt hlt))
          rw [f1] at f1'
          cases f1'
          rw [f2, f2']
        · rw [get_not_held hbt]
          by_cases hbd : Held c d b
          · obtain ⟨db, hdb, hl⟩ : ∃ db, c.exp b = some db ∧ db < t := by
              refine Decidable.byContradiction fun hn => hbt ⟨hbd.1, fun x hx => ?_⟩
              refine Decidable.byContradiction fun hl => hn ⟨x, hx, by omega⟩
            have := hf 0 (j + 1) a b (by omega) rfl hj (held_earlier ha1 (by omega)) (held_earlier hbd (by omega)) db hdb d hd
            have := hbd.2 db hdb
            omega
          · rw [get_not_held hbd]
      · refine ⟨t, by omega, g2, ?_⟩
        rw [h2, g3, get_not_held ha1, List.map_cons, get_not_held ha]

theorem mGetP_append (a b : List Bytes) : mGetP (a ++ b) = (mGetP a >>= fun rs => mGetP b >>= fun rs' => .ret (rs ++ rs')) := by
  induction a with
  | nil =>
    show mGetP b = (mGetP b >>= fun rs' => .ret ([] ++ rs'))
    generalize mGetP b = p
    induction p with
    | ret x => rfl
    | act u c ih => rw [Prog.act_bind]; congr 1; funext s; exact ih s
  | cons k a ih =>
    simp only [List.cons_append, mGetP]
    rw [Prog.assoc]
    congr 1
    funext v
    rw [ih, Prog.assoc, Prog.assoc]
    congr 1
    funext rs
    rw [Prog.assoc]
    simp only [Prog.pure_eq, Prog.ret_bind]
    rfl

theorem alone_mGetP_map (ks : List Bytes) (c : Cache) (t : Int) : alone (mGetP ks) ⟨c, t⟩ = (⟨(c.mGet t ks).1, t⟩, ks.map (fun k => (c.get t k).2)) := by
  have h := C102_alone (.mGet ks) (by simp [mode]) c t
  simp only [prog] at h
  rw [alone_bind] at h
  have h1 := congrArg Prod.fst h
  have h2 := congrArg Prod.snd h
  rw [C22_mGet] at h2
  simp only [alone] at h1 h2
  refine Prod.ext h1 ?_
  injection h2 with h2
  injection h2

/-- The keys up to some place at the beginning, the others at any later time. -/
theorem mGet_split (c : Cache) (t0 t1 : Int) (ht : t0 ≤ t1) (pre post : List Bytes) :
    ∃ g : Cfg, Steps spec true (initial ⟨c, t0⟩ (oneCall (.mGet (pre ++ post)))) g ∧ g.sh.now = t1 ∧
      (0, .mGet (pre ++ post), .slots (.ok (pre.map (fun k => (c.get t0 k).2) ++ post.map (fun k => (c.get t1 k).2)))) ∈ g.log := by
  let g0 : Cfg := initial ⟨c, t0⟩ (oneCall (.mGet (pre ++ post)))
  let g1 : Cfg := { g0 with thr := setThr g0.thr 0 ⟨[], some (.mGet (pre ++ post), prog (.mGet (pre ++ post)))⟩ }
  have s1 : Step spec true g0 g1 := .startN g0 0 _ _ rfl rfl
  have b1 : g1.thr 0 = ⟨[], some (.mGet (pre ++ post), mGetP pre >>= fun rs => mGetP post >>= fun rs' => .ret (.slots (.ok (rs ++ rs'))))⟩ := by
    simp only [g1, setThr_same, prog, mGetP_append]
    rw [Prog.assoc]
    congr 4
    funext rs
    rw [Prog.assoc]
    rfl
  obtain ⟨g2, s2, a2, b2, _, _, _, f2⟩ := steps_part (P := spec) _ _ g1 b1
  have hsh1 : g1.sh = ⟨c, t0⟩ := rfl
  rw [hsh1, alone_mGetP_map] at a2 b2
  let g3 : Cfg := { g2 with sh := ⟨(c.mGet t0 pre).1, t1⟩ }
  have s3 : Step spec true g2 g3 := .tick g2 _ ⟨by rw [a2], by rw [a2]; exact ht⟩
  have b3 : g3.thr 0 = _ := b2
  obtain ⟨g4, s4, a4, b4, _⟩ := steps_alone (P := spec) _ g3 b3
  have hsh3 : g3.sh = ⟨(c.mGet t0 pre).1, t1⟩ := rfl
  rw [hsh3, alone_bind, alone_mGetP_map] at a4 b4
  refine ⟨_, (Steps.trans ((Steps.trans (Steps.refl.snoc s1) s2).snoc s3) s4).snoc (.fin g4 0 _ [] _ b4), by rw [a4]; rfl, ?_⟩
  refine List.mem_append_right _ (List.mem_singleton.2 ?_)
  simp only [alone]
  congr 5
  refine List.map_congr_left (fun k _ => ?_)
  rw [get_snd, get_snd, liveVal_mGet _ _ _ ht]

/-- C103, exactly, for a goroutine that is alone: every MGet of these keys shows one moment of the call, just when each
key in the list that holds a value and has a deadline has an earlier one than every key before it that has a deadline.
So it is false for any two keys whose deadlines are in the order of the list, and true if at most one key has one. -/
theorem C103_exact (c : Cache) (t0 : Int) (ks : List Bytes) :
    (∀ g : Cfg, Steps spec true (initial ⟨c, t0⟩ (oneCall (.mGet ks))) g → ∀ i op o, (i, op, o) ∈ g.log →
      ∃ t, t0 ≤ t ∧ t ≤ g.sh.now ∧ o = (exec c t (.mGet ks)).2) ↔ Falling c t0 ks := by
  constructor
  · intro h i j a b hij hi hj ha hb db hdb da hda
    refine Decidable.byContradiction fun hn => ?_
    have hjl : j < ks.length := by
      rcases Nat.lt_or_ge j ks.length with hl | hl
      · exact hl
      · rw [List.getElem?_eq_none hl] at hj; cases hj
    have hb0 := hb.2 db hdb
    obtain ⟨g, hs, hnow, hl⟩ := mGet_split c t0 (db + 1) (by omega) (ks.take j) (ks.drop j)
    rw [List.take_append_drop] at hs hl
    obtain ⟨t, h1, h2, h3⟩ := h g hs _ _ _ hl
    rw [C22_mGet] at h3
    injection h3 with h3
    injection h3 with h3
    have ei := congrArg (fun l => l[i]?) h3
    have ej := congrArg (fun l => l[j]?) h3
    rw [List.getElem?_append_left (by simp; omega), List.getElem?_map, List.getElem?_map, List.getElem?_take_of_lt hij, hi] at ei
    rw [List.getElem?_append_right (by simp; omega), List.getElem?_map, List.getElem?_map] at ej
    have : (ks.drop j)[j - (List.map (fun k => (c.get t0 k).2) (ks.take j)).length]? = some b := by
      rw [List.length_map, List.length_take, Nat.min_eq_left (by omega), Nat.sub_self, List.getElem?_drop, Nat.add_zero, hj]
    rw [this, hj] at ej
    simp only [Option.map_some, Option.some.injEq] at ei ej
    have hbn : ¬ Held c (db + 1) b := fun hh => by have := hh.2 db hdb; omega
    rw [get_not_held hbn] at ej
    obtain ⟨v, v1, v2⟩ := get_held ha
    rw [v2] at ei
    have hat : Held c t a := Classical.byContradiction fun hh => by
      rw [get_not_held hh] at ei
      exact fmtString_ne v ei
    have := hat.2 da hda
    have hbt : Held c t b := ⟨hb.1, fun d hd => by rw [hdb] at hd; cases hd; omega⟩
    obtain ⟨x, x1, x2⟩ := get_held hbt
    rw [x2] at ej
    exact fmtString_ne x ej.symm
  · intro hf g hs i op o hl
    obtain ⟨rs, e, ha⟩ := mGet_times hs hl
    obtain ⟨t, h1, h2, h3⟩ := one_moment (Int.le_refl t0) hf ha
    refine ⟨t, h1, h2, ?_⟩
    rw [C22_mGet, ← h3]
    exact (Prod.mk.inj (Prod.mk.inj e).2).2

/-- Two keys with deadlines. -/
def twoHeld : Cache := run Cache.new [(0, .setEX b!"a" b!"x" 5), (0, .setEX b!"b" b!"y" 10)]

theorem twoHeld_a : twoHeld.exp b!"a" = some 5000000000 := by decide +kernel
theorem twoHeld_b : twoHeld.exp b!"b" = some 10000000000 := by decide +kernel

/-- In falling order it holds, in the other order it does not. -/
example : Falling twoHeld 1 [b!"b", b!"a"] ∧ ¬ Falling twoHeld 1 [b!"a", b!"b"] := by
  constructor
  · intro i j a b hij hi hj _ _ db hdb da hda
    obtain ⟨rfl, rfl⟩ : i = 0 ∧ j = 1 := by
      match j, hj with
      | 0, _ => omega
      | 1, _ => omega
      | j + 2, hj => simp at hj
    cases hi
    cases hj
    rw [twoHeld_a] at hdb
    rw [twoHeld_b] at hda
    cases hdb
    cases hda
    decide
  · intro h
    have := h 0 1 b!"a" b!"b" (by omega) rfl rfl
      ⟨by decide +kernel, fun d hd => by rw [twoHeld_a] at hd; cases hd; decide⟩
      ⟨by decide +kernel, fun d hd => by rw [twoHeld_b] at hd; cases hd; decide⟩ _ twoHeld_b _ twoHeld_a
    omega

end Verif.Conc

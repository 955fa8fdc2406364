import Verif.Conc.PropsTorn
/-!
# C44, exactly, for any number of writers: what an MGet may show while goroutines call Set and MSet
-/
namespace Verif.Conc
open Cache

/-- The pairs a call writes, if it is a Set or an MSet. -/
def pairsOf : Call → List (Bytes × Bytes)
  | .mSet kv => kv
  | .set k v => [(k, v)]
  | _ => []

/-- The call is a Set or an MSet. -/
def Writer (op : Call) : Prop := (∃ kv, op = .mSet kv) ∨ ∃ k v, op = .set k v

theorem prog_writer {op : Call} (h : Writer op) : prog op = (mSetP (pairsOf op) >>= fun _ => .ret (.str (.ok OK))) := by
  rcases h with ⟨kv, rfl⟩ | ⟨k, v, rfl⟩ <;> rfl

/-- A write and the goroutine that makes it. -/
abbrev Tagged := Nat × Bytes × Bytes

/-- The writes of one goroutine. -/
def writesOf (W : List Tagged) (i : Nat) : List (Bytes × Bytes) := (W.filter (fun p => p.1 = i)).map (·.2)

theorem writesOf_append (W X : List Tagged) (i : Nat) : writesOf (W ++ X) i = writesOf W i ++ writesOf X i := by
  simp [writesOf]

theorem writesOf_same (i : Nat) (p : Bytes × Bytes) (X : List Tagged) : writesOf ((i, p) :: X) i = p :: writesOf X i := by
  simp [writesOf]

theorem writesOf_other {i j : Nat} (h : i ≠ j) (p : Bytes × Bytes) (X : List Tagged) : writesOf ((i, p) :: X) j = writesOf X j := by
  simp [writesOf, h]

/-- The goroutine has these pairs still to write. -/
def RemIs (t : Thread World Call Out) (r : List (Bytes × Bytes)) : Prop :=
  (∀ op ∈ t.todo, Writer op) ∧
    ((t.cur = none ∧ r = t.todo.flatMap pairsOf) ∨
     ∃ op l, t.cur = some (op, mSetP l >>= fun _ => .ret (.str (.ok OK))) ∧ r = l ++ t.todo.flatMap pairsOf)

theorem part_prefix (c0 : Cache) (W X : List (Bytes × Bytes)) {n : Nat} (h : n ≤ W.length) : part c0 (W ++ X) n = part c0 W n := by
  unfold part
  rw [List.take_append_of_le_length h]

/-- A program that changes nothing and, run while others write on from `W`, ends with an answer in `Q`. -/
def LooksW (c0 : Cache) (Q : List (Bytes × Bytes) → Out → Prop) : List (Bytes × Bytes) → P Out → Prop
  | W, .ret o => Q W o
  | W, .act u c => ∀ X w, w.c = part c0 (W ++ X) (W ++ X).length → u w = w ∧ LooksW c0 Q (W ++ X) (c w)

theorem looksW_later {c0 : Cache} {Q : List (Bytes × Bytes) → Out → Prop} (hQ : ∀ W X o, Q W o → Q (W ++ X) o) {p : P Out}
    {W : List (Bytes × Bytes)} (h : LooksW c0 Q W p) (X : List (Bytes × Bytes)) : LooksW c0 Q (W ++ X) p := by
  cases p with
  | ret o => exact hQ W X o h
  | act u c =>
    intro Y w hw
    rw [List.append_assoc] at hw ⊢
    exact h (X ++ Y) w hw

theorem looksW_getP {c0 : Cache} {Q : List (Bytes × Bytes) → Out → Prop} (hQ : ∀ W X o, Q W o → Q (W ++ X) o) {k : Bytes}
    (hk : c0.exp k = none) {f : Option Val → P Out} {W : List (Bytes × Bytes)}
    (h : ∀ X, LooksW c0 Q (W ++ X) (f ((part c0 (W ++ X) (W ++ X).length).data k))) : LooksW c0 Q W (getP k >>= f) := by
  intro X w h3
  refine ⟨rfl, ?_⟩
  have hd := h X
  rw [← h3] at hd
  show LooksW c0 Q (W ++ X) ((match w.c.data k with
    | none => pure none
    | some v => do if ← expiredP k then pure none else pure (some v) : P (Option Val)) >>= f)
  cases e : w.c.data k with
  | none => rw [e] at hd; exact hd
  | some v =>
    rw [e] at hd
    intro Y w' h3'
    refine ⟨rfl, ?_⟩
    have he : w'.c.exp k = none := by rw [h3', part_exp]; exact hk
    show LooksW c0 Q (W ++ X ++ Y) ((((match w'.c.exp k with
      | none => pure false
      | some d => do
        let n ← clock
        if d < n then do delData k; delExp k; pure true else pure false : P Bool) >>= fun b => if b then pure none else pure (some v)) : P (Option Val)) >>= f)
    rw [he]
    exact looksW_later hQ hd Y

theorem looksW_all {c0 : Cache} {Q : List (Bytes × Bytes) → Out → Prop} (hQ : ∀ W X o, Q W o → Q (W ++ X) o) (ks : List Bytes)
    (hk : ∀ k ∈ ks, c0.exp k = none) : ∀ (f : List (Res Bytes) → P Out) (W : List (Bytes × Bytes)),
    (∀ (X : List (Bytes × Bytes)) (ns : List Nat), ns.length = ks.length → (W.length :: ns).Pairwise (· ≤ ·) → (∀ x ∈ ns, x ≤ (W ++ X).length) →
      ∃ o, f (List.zipWith (fun k n => slotAt (part c0 (W ++ X) n) k) ks ns) = .ret o ∧ Q (W ++ X) o) → LooksW c0 Q W (mGetP ks >>= f) := by
  induction ks with
  | nil =>
    intro f W h
    obtain ⟨o, ho, hq⟩ := h [] [] rfl (by simp) (by simp)
    show LooksW c0 Q W (f [])
    rw [show f [] = .ret o from ho]
    rw [List.append_nil] at hq
    exact hq
  | cons k ks ih =>
    intro f W h
    rw [mGetP_cons]
    refine looksW_getP hQ (hk k (by simp)) fun X => ih (fun k hk' => hk k (List.mem_cons_of_mem _ hk')) _ (W ++ X) fun Y ns hl hp hb => ?_
    have := h (X ++ Y) ((W ++ X).length :: ns) (by simp [hl]) ?_ ?_
    · rw [← List.append_assoc, List.zipWith_cons_cons, part_prefix c0 (W ++ X) Y (Nat.le_refl _)] at this
      exact this
    · rw [List.pairwise_cons] at hp ⊢
      have hx : W.length ≤ (W ++ X).length := by simp
      refine ⟨fun x hx' => ?_, List.pairwise_cons.2 hp⟩
      rcases List.mem_cons.1 hx' with rfl | hx'
      · exact hx
      · exact Nat.le_trans hx (hp.1 x hx')
    · intro x hx
      rw [← List.append_assoc]
      rcases List.mem_cons.1 hx with rfl | hx
      · simp
      · exact hb x hx

/-- Where the goroutines are: `R` is the one that calls MGet. -/
def WInv (c0 : Cache) (calls : Nat → List Call) (R : Nat) (ks : List Bytes) (Q : List (Bytes × Bytes) → Out → Prop) (g : Cfg) : Prop :=
  ∃ W : List Tagged, g.sh.c = part c0 (W.map (·.2)) (W.map (·.2)).length ∧
    (∀ i, i ≠ R → ∃ r, RemIs (g.thr i) r ∧ (calls i).flatMap pairsOf = writesOf W i ++ r) ∧ writesOf W R = [] ∧
    (g.thr R = ⟨[.mGet ks], none⟩ ∨ (∃ p, g.thr R = ⟨[], some (.mGet ks, p)⟩ ∧ LooksW c0 Q (W.map (·.2)) p) ∨ g.thr R = ⟨[], none⟩) ∧
    ∀ op o, (R, op, o) ∈ g.log → Q (W.map (·.2)) o

theorem winv_step {c0 : Cache} {calls : Nat → List Call} {R : Nat} {ks : List Bytes} {Q : List (Bytes × Bytes) → Out → Prop}
    (hQ : ∀ W X o, Q W o → Q (W ++ X) o) (hstart : ∀ W, LooksW c0 Q W (prog (.mGet ks))) {g g' : Cfg} (h : WInv c0 calls R ks Q g)
    (hs : Step spec true g g') : WInv c0 calls R ks Q g' := by
  obtain ⟨W, hsh, hth, hWR, hR, hl⟩ := h
  have start : ∀ i op rest (w : Option Nat) (rd : List Nat), g.thr i = ⟨op :: rest, none⟩ →
      WInv c0 calls R ks Q { g with writer := w, readers := rd, thr := setThr g.thr i ⟨rest, some (op, prog op)⟩ } := by
    intro i op rest w rd ht
    by_cases e : i = R
    · subst e
      refine ⟨W, hsh, fun j hj => by simp only [setThr_ne _ _ hj]; exact hth j hj, hWR, .inr (.inl ?_), hl⟩
      rcases hR with h | ⟨p, h, _⟩ | h <;> rw [h] at ht <;> simp at ht
      obtain ⟨rfl, rfl⟩ := ht
      exact ⟨_, by simp only [setThr_same], hstart _⟩
    · refine ⟨W, hsh, fun j hj => ?_, hWR, by simp only [setThr_ne _ _ (Ne.symm e)]; exact hR, hl⟩
      by_cases ej : j = i
      · subst ej
        obtain ⟨r, ⟨h1, h2⟩, h3⟩ := hth j hj
        refine ⟨r, ?_, h3⟩
        rw [ht] at h1 h2
        simp only [setThr_same]
        refine ⟨fun o ho => h1 o (List.mem_cons_of_mem _ ho), .inr ⟨op, pairsOf op, ?_, ?_⟩⟩
        · rw [prog_writer (h1 op (by simp))]
        · rcases h2 with ⟨_, h2⟩ | ⟨_, _, h2, _⟩
          · simpa using h2
          · cases h2
      · simp only [setThr_ne _ _ ej]; exact hth j hj
  cases hs with
  | tick s' ht =>
    obtain ⟨t1, t2⟩ := ht
    exact ⟨W, by simp only [t1]; exact hsh, hth, hWR, hR, hl⟩
  | startW i op rest ht => exact start i op rest _ _ ht
  | startR i op rest ht => exact start i op rest _ _ ht
  | startN i op rest ht => exact start i op rest _ _ ht
  | act i op todo u c ht =>
    by_cases e : i = R
    · subst e
      rcases hR with h | ⟨p, h, hp⟩ | h <;> rw [h] at ht <;> simp at ht
      obtain ⟨rfl, rfl, rfl⟩ := ht
      obtain ⟨l1, l2⟩ := hp [] g.sh (by simpa using hsh)
      rw [List.append_nil] at l2
      exact ⟨W, by simp only [l1]; exact hsh, fun j hj => by simp only [setThr_ne _ _ hj]; exact hth j hj, hWR,
        .inr (.inl ⟨_, by simp only [setThr_same], l2⟩), hl⟩
    · obtain ⟨r, ⟨h1, h2⟩, h3⟩ := hth i e
      rw [ht] at h1 h2
      rcases h2 with ⟨h2, _⟩ | ⟨op', l, h2, h4⟩
      · cases h2
      simp only [Option.some.injEq, Prod.mk.injEq] at h2
      obtain ⟨rfl, hp⟩ := h2
      rcases l with _ | ⟨⟨k, v⟩, tl⟩
      · cases hp
      have hp' : Prog.act u c = (Prog.act (fun w : World => { w with c := w.c.store k (.scalar (tryInt64 v)) }) fun _ => mSetP tl >>= fun _ => .ret (.str (.ok OK))) := hp
      injection hp' with e1 e2
      refine ⟨W ++ [(i, k, v)], ?_, fun j hj => ?_, ?_, ?_, fun op o ho => ?_⟩
      · simp only [e1, hsh, List.map_append, List.map_cons, List.map_nil]
        rw [List.length_append, part_add, part_prefix c0 _ _ (Nat.le_refl _)]
        simp
      · by_cases ej : j = i
        · subst ej
          refine ⟨tl ++ todo.flatMap pairsOf, ?_, ?_⟩
          · simp only [setThr_same]
            exact ⟨h1, .inr ⟨op, tl, by rw [e2], rfl⟩⟩
          · rw [h3, h4, writesOf_append, writesOf_same]; simp [writesOf]
        · obtain ⟨r', h5, h6⟩ := hth j hj
          exact ⟨r', by simp only [setThr_ne _ _ ej]; exact h5, by rw [h6, writesOf_append, writesOf_other (Ne.symm ej)]; simp [writesOf]⟩
      · rw [writesOf_append, hWR, writesOf_other e]; rfl
      · simp only [setThr_ne _ _ (Ne.symm e), List.map_append]
        rcases hR with h | ⟨p, h, hp⟩ | h
        · exact .inl h
        · exact .inr (.inl ⟨p, h, looksW_later hQ hp _⟩)
        · exact .inr (.inr h)
      · rw [List.map_append]; exact hQ _ _ _ (hl op o ho)
  | fin i op todo o ht =>
    by_cases e : i = R
    · subst e
      rcases hR with h | ⟨p, h, hp⟩ | h <;> rw [h] at ht <;> simp at ht
      obtain ⟨rfl, rfl, rfl⟩ := ht
      refine ⟨W, hsh, fun j hj => by simp only [setThr_ne _ _ hj]; exact hth j hj, hWR, .inr (.inr (by simp only [setThr_same])),
        fun op' o' h => ?_⟩
      rcases List.mem_append.1 h with h | h
      · exact hl op' o' h
      · simp only [List.mem_singleton, Prod.mk.injEq, true_and] at h
        rw [h.2]; exact hp
    · refine ⟨W, hsh, fun j hj => ?_, hWR, by simp only [setThr_ne _ _ (Ne.symm e)]; exact hR, fun op' o' h => ?_⟩
      · by_cases ej : j = i
        · subst ej
          obtain ⟨r, ⟨h1, h2⟩, h3⟩ := hth j hj
          rw [ht] at h1 h2
          refine ⟨r, ?_, h3⟩
          simp only [setThr_same]
          refine ⟨h1, .inl ⟨rfl, ?_⟩⟩
          rcases h2 with ⟨h2, _⟩ | ⟨op', l, h2, h4⟩
          · cases h2
          · simp only [Option.some.injEq, Prod.mk.injEq] at h2
            rcases l with _ | ⟨⟨k, v⟩, tl⟩
            · exact h4
            · cases h2.2
        · simp only [setThr_ne _ _ ej]; exact hth j hj
      · rcases List.mem_append.1 h with h | h
        · exact hl op' o' h
        · simp only [List.mem_singleton, Prod.mk.injEq] at h
          exact absurd h.1.symm e

/-! ## Every such answer can be given -/

/-- The goroutine has these pairs still to write and is not inside a Set. -/
def RemB (t : Thread World Call Out) (r : List (Bytes × Bytes)) : Prop :=
  (∀ op ∈ t.todo, Writer op) ∧
    ((t.cur = none ∧ r = t.todo.flatMap pairsOf) ∨
     ∃ kv l, t.cur = some (.mSet kv, mSetP l >>= fun _ => .ret (.str (.ok OK))) ∧ r = l ++ t.todo.flatMap pairsOf)

/-- Nobody holds the lock. -/
def Free (g : Cfg) : Prop := g.writer = none ∧ g.readers = []

/-- Goroutine `i` writes one pair, and the lock is free again. -/
def WritesOne (i : Nat) (k v : Bytes) (r : List (Bytes × Bytes)) (g : Cfg) : Prop :=
  ∃ g' : Cfg, Steps spec true g g' ∧ g'.sh.c = g.sh.c.store k (.scalar (tryInt64 v)) ∧ RemB (g'.thr i) r ∧ (∀ j, j ≠ i → g'.thr j = g.thr j) ∧ Free g'

/-- A goroutine can go on to its next write: an MSet may be left half done, a Set is run to its end. -/
theorem write_one {i : Nat} {k v : Bytes} {r : List (Bytes × Bytes)} {g : Cfg} (hf : Free g) (h : RemB (g.thr i) ((k, v) :: r)) :
    WritesOne i k v r g := by
  have running : ∀ todo : List Call, (∀ op ∈ todo, Writer op) →
      (∀ g : Cfg, Free g → g.thr i = ⟨todo, none⟩ → todo.flatMap pairsOf = (k, v) :: r → WritesOne i k v r g) →
      ∀ (g : Cfg) (kv l : List (Bytes × Bytes)), Free g → g.thr i = ⟨todo, some (.mSet kv, mSetP l >>= fun _ => .ret (.str (.ok OK)))⟩ →
        l ++ todo.flatMap pairsOf = (k, v) :: r → WritesOne i k v r g := by
    intro todo hw hn g kv l hf ht hl
    rcases l with _ | ⟨p, tl⟩
    · obtain ⟨g', s', a, b, c, d⟩ := hn { g with
          writer := unlockW (mode (.mSet kv)) g.writer, readers := unlockR (mode (.mSet kv)) i g.readers
          thr := setThr g.thr i ⟨todo, none⟩, log := g.log ++ [(i, .mSet kv, .str (.ok OK))] } hf (by simp) hl
      exact ⟨g', Steps.trans (Steps.refl.snoc (.fin g i (.mSet kv) todo _ ht)) s', a, b, fun j hj => by rw [c j hj]; simp [setThr_ne _ _ hj], d⟩
    · simp only [List.cons_append, List.cons.injEq] at hl
      obtain ⟨rfl, rfl⟩ := hl
      refine ⟨_, Steps.refl.snoc (.act g i (.mSet kv) todo (fun w : World => { w with c := w.c.store k (.scalar (tryInt64 v)) })
        (fun _ => mSetP tl >>= fun _ => .ret (.str (.ok OK))) ht), rfl, ?_, fun j hj => by simp [setThr_ne _ _ hj], hf⟩
      simp only [setThr_same]
      exact ⟨hw, .inr ⟨kv, tl, rfl, rfl⟩⟩
  have idle : ∀ todo : List Call, (∀ op ∈ todo, Writer op) → ∀ g : Cfg, Free g → g.thr i = ⟨todo, none⟩ → todo.flatMap pairsOf = (k, v) :: r →
      WritesOne i k v r g := by
    intro todo
    induction todo with
    | nil => intro _ g _ _ h; simp at h
    | cons op rest ih =>
      intro hw g hf ht h
      have hrest : ∀ o ∈ rest, Writer o := fun o ho => hw o (List.mem_cons_of_mem _ ho)
      rcases hw op (by simp) with ⟨kv, rfl⟩ | ⟨k', v', rfl⟩
      · obtain ⟨g', s', a, b, c, d⟩ := running rest hrest (ih hrest) { g with thr := setThr g.thr i ⟨rest, some (.mSet kv, prog (.mSet kv))⟩ } kv kv hf
          (by simp only [setThr_same]; rfl) (by simpa [pairsOf] using h)
        exact ⟨g', Steps.trans (Steps.refl.snoc (.startN g i (.mSet kv) rest ht rfl)) s', a, b,
          fun j hj => by rw [c j hj]; simp [setThr_ne _ _ hj], d⟩
      · simp only [List.flatMap_cons, pairsOf, List.cons_append, List.nil_append, List.cons.injEq, Prod.mk.injEq] at h
        obtain ⟨⟨rfl, rfl⟩, rfl⟩ := h
        let g1 : Cfg := { g with writer := some i, thr := setThr g.thr i ⟨rest, some (.set k' v', prog (.set k' v'))⟩ }
        have s1 : Step spec true g g1 := .startW g i (.set k' v') rest ht rfl hf.1 hf.2
        let u : World → World := fun w => { w with c := w.c.store k' (.scalar (tryInt64 v')) }
        let g2 : Cfg := { g1 with sh := u g1.sh, thr := setThr g1.thr i ⟨rest, some (.set k' v', .ret (.str (.ok OK)))⟩ }
        have s2 : Step spec true g1 g2 := .act g1 i (.set k' v') rest u (fun _ => .ret (.str (.ok OK))) (by simp only [g1, setThr_same]; rfl)
        have s3 := Step.fin (P := spec) (ov := true) g2 i (.set k' v') rest (.str (.ok OK)) (by simp [g2])
        refine ⟨_, ((Steps.refl.snoc s1).snoc s2).snoc s3, rfl, ?_, fun j hj => by simp [g2, g1, setThr_ne _ _ hj], rfl, hf.2⟩
        simp only [setThr_same]
        exact ⟨hrest, .inl ⟨rfl, rfl⟩⟩
  obtain ⟨hw, h⟩ := h
  rcases ht : g.thr i with ⟨todo, cur⟩
  rw [ht] at hw h
  rcases h with ⟨h1, h2⟩ | ⟨kv, l, h1, h2⟩
  · simp only at h1; subst h1; exact idle todo hw g hf ht h2.symm
  · simp only at h1; subst h1; exact running todo hw (idle todo hw) g kv l hf ht h2.symm

theorem write_many {R : Nat} {r : Nat → List (Bytes × Bytes)} (X : List Tagged) : ∀ (g : Cfg), Free g →
    (∀ i, i ≠ R → RemB (g.thr i) (writesOf X i ++ r i)) → writesOf X R = [] →
    ∃ g' : Cfg, Steps spec true g g' ∧ g'.sh.c = (X.map (·.2)).foldl (fun c p => c.store p.1 (.scalar (tryInt64 p.2))) g.sh.c ∧
      (∀ i, i ≠ R → RemB (g'.thr i) (r i)) ∧ g'.thr R = g.thr R ∧ Free g' := by
  induction X with
  | nil => exact fun g hf h _ => ⟨g, .refl, rfl, h, rfl, hf⟩
  | cons x X ih =>
    obtain ⟨i, k, v⟩ := x
    intro g hf h hR
    have hi : i ≠ R := by rintro rfl; rw [writesOf_same] at hR; cases hR
    rw [writesOf_other hi] at hR
    have h1 := h i hi
    rw [writesOf_same] at h1
    obtain ⟨g1, s1, a1, b1, c1, f1⟩ := write_one hf h1
    obtain ⟨g2, s2, a2, b2, c2, f2⟩ := ih g1 f1 (fun j hj => by
      by_cases e : j = i
      · subst e; exact b1
      · rw [c1 j e]
        have := h j hj
        rwa [writesOf_other (Ne.symm e)] at this) hR
    refine ⟨g2, Steps.trans s1 s2, ?_, b2, c2.trans (c1 R (Ne.symm hi)), f2⟩
    rw [a2, a1]; rfl

theorem writers_build {c0 : Cache} {R : Nat} {W : List Tagged} {r : Nat → List (Bytes × Bytes)} {ks0 : List Bytes} (hWR : writesOf W R = [])
    (ks : List Bytes) (hk : ∀ k ∈ ks, c0.exp k = none) :
    ∀ (ns : List Nat) (m : Nat) (f : List (Res Bytes) → P Out) (g : Cfg), Free g → ns.length = ks.length → (m :: ns).Pairwise (· ≤ ·) →
    (∀ x ∈ ns, x ≤ W.length) → g.sh.c = part c0 (W.map (·.2)) m →
    (∀ i, i ≠ R → RemB (g.thr i) (writesOf (W.drop m) i ++ r i)) → g.thr R = ⟨[], some (.mGet ks0, mGetP ks >>= f)⟩ →
    ∃ g' : Cfg, Steps spec true g g' ∧ g'.thr R = ⟨[], some (.mGet ks0, f (List.zipWith (fun k n => slotAt (part c0 (W.map (·.2)) n) k) ks ns))⟩ := by
  induction ks with
  | nil =>
    intro ns m f g hf hl _ _ _ _ h1
    have : ns = [] := List.length_eq_zero_iff.1 hl
    subst this
    exact ⟨g, .refl, h1⟩
  | cons k ks ih =>
    intro ns m f g hf hl hp hb hsh h0 h1
    rcases ns with _ | ⟨n, ns⟩
    · simp at hl
    rw [List.pairwise_cons] at hp
    have hmn : m ≤ n := hp.1 n (by simp)
    obtain ⟨e, rfl⟩ := Nat.exists_eq_add_of_le hmn
    -- the others go on to write `n`
    have split : W.drop m = (W.drop m).take e ++ W.drop (m + e) := by
      rw [← List.drop_drop, List.take_append_drop]
    have hnoR : writesOf ((W.drop m).take e) R = [] := by
      have h2 : writesOf W R = writesOf (W.take m) R ++ (writesOf ((W.drop m).take e) R ++ writesOf (W.drop (m + e)) R) := by
        rw [← writesOf_append, ← split, ← writesOf_append, List.take_append_drop]
      rw [hWR] at h2
      simp only [List.nil_eq, List.append_eq_nil_iff] at h2
      exact h2.2.1
    obtain ⟨g1, s1, a1, b1, c1, f1⟩ := write_many (R := R) (r := fun i => writesOf (W.drop (m + e)) i ++ r i) ((W.drop m).take e) g hf
      (fun i hi => by
        have := h0 i hi
        rw [split, writesOf_append, List.append_assoc] at this
        exact this) hnoR
    have hsh1 : g1.sh.c = part c0 (W.map (·.2)) (m + e) := by
      rw [a1, hsh, part_add, List.map_take, List.map_drop]
    have t1 : g1.thr R = _ := c1.trans h1
    rw [mGetP_cons] at t1
    obtain ⟨g2, s2, a2, b2, c2, d2, e2, f2⟩ := steps_part (P := spec) _ _ g1 t1
    have hex : g1.sh.c.exp k = none := by rw [hsh1, part_exp]; exact hk k (by simp)
    rw [torn_getP hex] at a2 b2
    obtain ⟨g3, s3, h3⟩ := ih (fun k h => hk k (List.mem_cons_of_mem _ h)) ns (m + e)
      (fun rs => f ((match g1.sh.c.data k with | none => .err .keyNil | some v => fmtString v) :: rs)) g2 ⟨d2.trans f1.1, e2.trans f1.2⟩ (by simpa using hl) hp.2
      (fun x hx => hb x (List.mem_cons_of_mem _ hx)) (by rw [a2]; exact hsh1) (fun i hi => by rw [c2 i hi]; exact b1 i hi) b2
    refine ⟨g3, Steps.trans (Steps.trans s1 s2) s3, ?_⟩
    rw [h3, hsh1]
    rfl

/-- C44, exactly, for any number of goroutines that call Set and MSet any number of times, and one MGet of keys without deadlines: the MGet is given
an answer in some schedule if and only if there is an order of first parts of the goroutines' writes, pair by pair, such that each slot shows its key when
some first part of that order was written, the parts growing from slot to slot. Nothing keeps the pairs of one MSet together. -/
theorem C44_writers_exact (c0 : Cache) (t0 : Int) (calls : Nat → List Call) (R : Nat) (ks : List Bytes) (hR : calls R = [.mGet ks])
    (hw : ∀ i, i ≠ R → ∀ op ∈ calls i, Writer op) (hk : ∀ k ∈ ks, c0.exp k = none) (o : Out) :
    (∃ g : Cfg, Steps spec true (initial ⟨c0, t0⟩ calls) g ∧ (R, .mGet ks, o) ∈ g.log) ↔
      ∃ (W : List Tagged) (ns : List Nat), (∀ i, writesOf W i <+: (calls i).flatMap pairsOf) ∧ ns.length = ks.length ∧ ns.Pairwise (· ≤ ·) ∧
        (∀ n ∈ ns, n ≤ W.length) ∧ o = tornAnswer c0 (W.map (·.2)) ks ns := by
  constructor
  · rintro ⟨g, hs, hl⟩
    let Q : List (Bytes × Bytes) → Out → Prop := fun W o => ∃ ns : List Nat, ns.length = ks.length ∧ ns.Pairwise (· ≤ ·) ∧
      (∀ n ∈ ns, n ≤ W.length) ∧ o = tornAnswer c0 W ks ns
    have answer : ∀ (W X : List (Bytes × Bytes)) (ns : List Nat), (∀ n ∈ ns, n ≤ W.length) →
        tornAnswer c0 W ks ns = tornAnswer c0 (W ++ X) ks ns := by
      intro W X ns h
      unfold tornAnswer
      congr 2
      clear hl hR hk
      induction ks generalizing ns with
      | nil => rfl
      | cons k ks ih =>
        rcases ns with _ | ⟨n, ns⟩
        · rfl
        · rw [List.zipWith_cons_cons, List.zipWith_cons_cons, part_prefix c0 W X (h n (by simp)), ih ns (fun n hn => h n (List.mem_cons_of_mem _ hn))]
    have hQ : ∀ W X o, Q W o → Q (W ++ X) o := by
      rintro W X o ⟨ns, a, b, c, rfl⟩
      exact ⟨ns, a, b, fun n hn => by have := c n hn; simp; omega, answer W X ns c⟩
    have hstart : ∀ W, LooksW c0 Q W (prog (.mGet ks)) := fun W =>
      looksW_all hQ ks hk (fun rs => .ret (.slots (.ok rs))) W fun X ns a b c => ⟨_, rfl, ns, a, (List.pairwise_cons.1 b).2, c, rfl⟩
    have inv : WInv c0 calls R ks Q g := by
      clear hl
      induction hs with
      | refl =>
        refine ⟨[], rfl, fun i hi => ⟨(calls i).flatMap pairsOf, ⟨hw i hi, .inl ⟨rfl, rfl⟩⟩, rfl⟩, rfl, .inl (by simp [initial, hR]), fun op o h => ?_⟩
        cases h
      | snoc _ hst ih => exact winv_step hQ hstart ih hst
    obtain ⟨W, _, h2, h3, _, h5⟩ := inv
    obtain ⟨ns, a, b, c, d⟩ := h5 _ _ hl
    refine ⟨W, ns, fun i => ?_, a, b, by simpa using c, d⟩
    by_cases e : i = R
    · subst e; rw [h3]; exact List.nil_prefix
    · obtain ⟨r, _, h⟩ := h2 i e
      exact ⟨r, h.symm⟩
  · rintro ⟨W, ns, h0, h1, h2, h3, rfl⟩
    have hWR : writesOf W R = [] := by
      have := h0 R
      rw [hR] at this
      simpa [pairsOf] using this
    let g0 : Cfg := initial ⟨c0, t0⟩ calls
    let g1 : Cfg := { g0 with thr := setThr g0.thr R ⟨[], some (.mGet ks, prog (.mGet ks))⟩ }
    have s1 : Step spec true g0 g1 := .startN g0 R _ _ (by simp [g0, initial, hR]) rfl
    have hr : ∀ i, ∃ r, writesOf W i ++ r = (calls i).flatMap pairsOf := h0
    obtain ⟨g3, s3, h4⟩ := writers_build (c0 := c0) (R := R) (W := W) (r := fun i => (hr i).choose) (ks0 := ks) hWR ks hk ns 0
      (fun rs => .ret (.slots (.ok rs))) g1 ⟨rfl, rfl⟩ h1 (List.pairwise_cons.2 ⟨fun _ _ => Nat.zero_le _, h2⟩) h3 (by simp [g1, g0, initial, part])
      (fun i hi => by
        simp only [g1, setThr_ne _ _ hi, List.drop_zero]
        rw [(hr i).choose_spec]
        exact ⟨hw i hi, .inl ⟨rfl, rfl⟩⟩)
      (by simp [g1, prog])
    exact ⟨_, (Steps.trans (Steps.refl.snoc s1) s3).snoc (.fin g3 R (.mGet ks) [] _ h4), by simp [tornAnswer]⟩

/-- Two MSets of the same two keys by two goroutines: an MGet may show the first key of one and the second of the other, which no order of the calls gives. -/
example (c0 : Cache) (t0 : Int) (h : ∀ k, c0.exp k = none) :
    ∃ g : Cfg, Steps spec true (initial ⟨c0, t0⟩ (fun i => if i = 0 then [.mSet [(b!"a", b!"x"), (b!"b", b!"x")]] else
        if i = 1 then [.mSet [(b!"a", b!"y"), (b!"b", b!"y")]] else if i = 2 then [.mGet [b!"a", b!"b"]] else [])) g ∧
      (2, .mGet [b!"a", b!"b"], .slots (.ok [.ok b!"x", .ok b!"y"])) ∈ g.log := by
  refine (C44_writers_exact c0 t0 _ 2 [b!"a", b!"b"] rfl ?_ (fun k _ => h k) _).2
    ⟨[(1, b!"a", b!"y"), (0, b!"a", b!"x"), (0, b!"b", b!"x"), (1, b!"b", b!"y")], [4, 4], ?_, rfl, by simp, by simp, ?_⟩
  · intro i hi op hop
    split at hop
    · exact .inl ⟨_, List.mem_singleton.1 hop⟩
    · split at hop
      · exact .inl ⟨_, List.mem_singleton.1 hop⟩
      · simp at hop
  · intro i
    by_cases e0 : i = 0
    · subst e0; simp [writesOf, pairsOf]
    · by_cases e1 : i = 1
      · subst e1; simp [writesOf, pairsOf]
      · simp [writesOf, Ne.symm e0, Ne.symm e1]
  · simp [tornAnswer, slotAt, part, store, upd, tryInt64, fmtString]
    decide

end Verif.Conc

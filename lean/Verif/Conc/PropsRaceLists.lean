import Verif.Conc.PropsRace
import Verif.Conc.PropsLost
/-!
# C114 for any number of goroutines with any lists of calls
-/
namespace Verif.Conc.Race
open Verif
open Verif.Conc.Full (Cell Mem)

theorem mode_supported (op : Call) : spec.mode op ≠ .unsupported := by
  show Full.mode op ≠ .unsupported
  cases op <;> simp [Full.mode]

/-- Nobody holds the lock. -/
def Unheld (g : Cfg) : Prop := g.writer = none ∧ g.readers = []

/-- With the lock free a goroutine can make its next call alone, from begin to end. -/
theorem call_alone {g : Cfg} {i : Nat} {op : Call} {rest : List Call} (hf : Unheld g) (ht : g.thr i = ⟨op :: rest, none⟩) :
    ∃ g', Steps spec true g g' ∧ g'.thr i = ⟨rest, none⟩ ∧ (∀ j, j ≠ i → g'.thr j = g.thr j) ∧ Unheld g' := by
  have after : ∀ g1 : Cfg, Steps spec true g g1 → g1.thr i = ⟨rest, some (op, prog op)⟩ → (∀ j, j ≠ i → g1.thr j = g.thr j) →
      (unlockW (spec.mode op) g1.writer = none ∧ unlockR (spec.mode op) i g1.readers = []) →
      ∃ g', Steps spec true g g' ∧ g'.thr i = ⟨rest, none⟩ ∧ (∀ j, j ≠ i → g'.thr j = g.thr j) ∧ Unheld g' := by
    intro g1 s1 t1 o1 u1
    obtain ⟨g2, s2, _, t2, o2, w2, r2, _⟩ := steps_alone (P := spec) _ g1 t1
    refine ⟨_, (s1.trans s2).snoc (.fin g2 i op rest _ t2), by simp, fun j hj => ?_, ?_⟩
    · simp [setThr_ne _ _ hj, o2 j hj, o1 j hj]
    · simp only [Unheld, w2, r2]; exact u1
  cases hm : spec.mode op with
  | write =>
    refine after _ (Steps.refl.snoc (.startW g i op rest ht hm hf.1 hf.2)) (by simp; rfl) (fun j hj => by simp [setThr_ne _ _ hj]) ?_
    simp [unlockW, unlockR, hm, hf.2]
  | read =>
    refine after _ (Steps.refl.snoc (.startR g i op rest ht hm hf.1 (.inl rfl))) (by simp; rfl) (fun j hj => by simp [setThr_ne _ _ hj]) ?_
    simp [unlockW, unlockR, hm, hf.1, hf.2]
  | unlocked =>
    refine after _ (Steps.refl.snoc (.startN g i op rest ht hm)) (by simp; rfl) (fun j hj => by simp [setThr_ne _ _ hj]) ?_
    simp [unlockW, unlockR, hm, hf.1, hf.2]
  | unsupported => exact absurd hm (mode_supported op)

/-- A goroutine can go on to any of its calls. -/
theorem calls_alone {i : Nat} {rest : List Call} (l : List Call) : ∀ {g : Cfg}, Unheld g → g.thr i = ⟨l ++ rest, none⟩ →
    ∃ g', Steps spec true g g' ∧ g'.thr i = ⟨rest, none⟩ ∧ (∀ j, j ≠ i → g'.thr j = g.thr j) ∧ Unheld g' := by
  induction l with
  | nil => exact fun hf ht => ⟨_, .refl, ht, fun _ _ => rfl, hf⟩
  | cons op l ih =>
    intro g hf ht
    obtain ⟨g1, s1, t1, o1, f1⟩ := call_alone hf ht
    obtain ⟨g2, s2, t2, o2, f2⟩ := ih f1 t1
    exact ⟨g2, s1.trans s2, t2, fun j hj => (o2 j hj).trans (o1 j hj), f2⟩

/-- Two goroutines in front of conflicting accesses. -/
theorem race_at {g0 g : Cfg} {i j : Nat} {a b : Call} {r r' : List Call} {p q : GP Out} {x y : Access} (h : Steps spec true g0 g) (hij : i ≠ j)
    (hi : g.thr i = ⟨r, some (a, p)⟩) (hj : g.thr j = ⟨r', some (b, q)⟩) (hp : At p x) (hq : At q y) (hc : Conflict x y) : HasRace g0 := by
  obtain ⟨u, k, rfl, hu⟩ := hp
  obtain ⟨u', k', rfl, hu'⟩ := hq
  exact ⟨_, _, _, i, j, x, y, h, .mk _ a r u k hi, .mk _ b r' u' k' (by simp [setThr_ne _ _ (Ne.symm hij), hj]), hij, hu _, hu' _, hc⟩

/-- C114 is false of every state and every program in which one goroutine calls `Flush` and another, anywhere in its list, a call without lock that looks
at the map (if a call before panics, its caller recovers). -/
theorem C114_flush_lists_violated (v : Mem) (calls : Nat → List Call) {i j : Nat} (hij : i ≠ j) (hf : Call.flush ∈ calls i) {b : Call}
    (hb : b ∈ calls j) (hbare : bare b = true) (hm : mapUse b = true) : HasRace (start v calls) := by
  obtain ⟨l, rest, hl⟩ := List.append_of_mem hf
  obtain ⟨l', rest', hl'⟩ := List.append_of_mem hb
  obtain ⟨g1, s1, t1, o1, f1⟩ := calls_alone (g := start v calls) (i := i) l (rest := .flush :: rest) ⟨rfl, rfl⟩ (by simp [start, initial, hl])
  obtain ⟨g2, s2, t2, o2, f2⟩ := calls_alone (g := g1) (i := j) l' (rest := b :: rest') f1 (by rw [o1 j (Ne.symm hij)]; simp [start, initial, hl'])
  have t2' : g2.thr i = ⟨.flush :: rest, none⟩ := (o2 i hij).trans t1
  let g3 : Cfg := { g2 with writer := some i, thr := setThr g2.thr i ⟨rest, some (.flush, prog .flush)⟩ }
  let g4 : Cfg := { g3 with thr := setThr g3.thr j ⟨rest', some (b, prog b)⟩ }
  have s3 : Step spec true g2 g3 := .startW g2 i .flush rest t2' rfl f2.1 f2.2
  have s4 : Step spec true g3 g4 := .startN g3 j b rest' (by simp only [g3, setThr_ne _ _ (Ne.symm hij)]; exact t2) (bare_mode hbare)
  refine race_at ((((s1.trans s2).snoc s3).snoc s4)) hij (a := .flush) (r := rest) (p := prog .flush) ?_ (b := b) (r' := rest') (q := prog b) ?_
    (x := ⟨.dataDict, true⟩) ⟨_, _, rfl, fun g => by simp⟩ (bare_first hbare hm) ⟨rfl, .inl rfl⟩
  · simp only [g4, g3, setThr_ne _ _ hij, setThr_same]
  · simp only [g4, setThr_same]

/-- C114, exactly, for any number of goroutines with any lists of calls in which no two use the size of one hash (one of them changing it): from every
state, they can race if and only if one calls `Flush` and another makes a call without lock that looks at the map. -/
theorem C114_lists_exact {v : Mem} (hv : v.WF) (calls : Nat → List Call)
    (hs : ∀ i j, i ≠ j → ∀ a ∈ calls i, ∀ b ∈ calls j, ∀ k x y, sizeUse a = some (k, x) → sizeUse b = some (k, y) → x = false ∧ y = false) :
    HasRace (start v calls) ↔ ∃ i j b, i ≠ j ∧ Call.flush ∈ calls i ∧ b ∈ calls j ∧ bare b = true ∧ mapUse b = true := by
  constructor
  · intro h
    refine Classical.byContradiction fun hn => C114_no_race_partial hv (fun i j hij a ha b hb hc => ?_) h
    rcases hc with ⟨rfl, h1, h2⟩ | ⟨rfl, h1, h2⟩ | ⟨k, x, y, h1, h2, h3⟩
    · exact hn ⟨i, j, b, hij, ha, hb, h1, h2⟩
    · exact hn ⟨j, i, a, Ne.symm hij, hb, ha, h1, h2⟩
    · obtain ⟨rfl, rfl⟩ := hs i j hij a ha b hb k x y h1 h2
      simp at h3
  · rintro ⟨i, j, b, hij, hf, hb, h1, h2⟩
    exact C114_flush_lists_violated v calls hij hf hb h1 h2

/-- One goroutine calls Set and later Flush, another Get and later MGet: they race from every state, because of the MGet. -/
example (v : Mem) (hv : v.WF) (k : Bytes) : HasRace (start v fun i => if i = 0 then [.set k b!"1", .flush] else if i = 1 then [.get k, .mGet [k]] else []) :=
  (C114_lists_exact hv _ (fun i j _ a ha b hb k' x y h1 h2 => by
    split at ha
    · simp at ha; rcases ha with rfl | rfl <;> simp [sizeUse] at h1
    · split at ha
      · simp at ha; rcases ha with rfl | rfl <;> simp [sizeUse] at h1
      · cases ha)).2 ⟨0, 1, .mGet [k], by decide, by simp, by simp, rfl, rfl⟩

/-- A goroutine in a call goes on alone. -/
theorem go_on {g : Cfg} {i : Nat} {a : Call} {r : List Call} {p p' : GP Out} {s' : G} (ht : g.thr i = ⟨r, some (a, p)⟩) (h : Go p g.sh p' s') :
    ∃ g', Steps spec true g g' ∧ g'.sh = s' ∧ g'.thr i = ⟨r, some (a, p')⟩ ∧ ∀ j, j ≠ i → g'.thr j = g.thr j :=
  ⟨_, steps_go (op := a) h g i r rfl ht, rfl, by simp, fun j hj => by simp [setThr_ne _ _ hj]⟩

/-- Two calls on the size of one hash, the first of their goroutines, whatever else is to be called and by whomever. -/
theorem race_size_first {a b : Call} {k : Bytes} {x y : Bool} (ha : sizeUse a = some (k, x)) (hb : sizeUse b = some (k, y))
    (hw : x = true ∨ y = true) (hn : ¬ SameNX a b) (calls : Nat → List Call) {i j : Nat} (hij : i ≠ j) {r r' : List Call} (hi : calls i = a :: r)
    (hj : calls j = b :: r') : ∃ v : Mem, v.WF ∧ HasRace (start v calls) := by
  obtain ⟨F, hF, h⟩ := room (x := cls a) (y := cls b) (by
    rintro f ⟨h1, h2⟩
    obtain ⟨k1, v1, rfl⟩ := cls_nx h1
    obtain ⟨k2, v2, rfl⟩ := cls_nx h2
    simp only [sizeUse, Option.some.injEq, Prod.mk.injEq] at ha hb
    obtain ⟨rfl, _⟩ := ha
    obtain ⟨rfl, _⟩ := hb
    exact hn ⟨_, f, v1, v2, rfl, rfl⟩)
  refine ⟨oneHash k F, oneHash_wf hF, ?_⟩
  have h0 : Has k 0 F ⟨oneHash k F, []⟩ := ⟨by simp [oneHash], rfl, by simp [oneHash]⟩
  let g0 : Cfg := start (oneHash k F) calls
  let g1 : Cfg := { g0 with thr := setThr g0.thr i ⟨r, some (a, prog a)⟩ }
  let g2 : Cfg := { g1 with thr := setThr g1.thr j ⟨r', some (b, prog b)⟩ }
  have s1 : Step spec true g0 g1 := .startN g0 i a r (by simp [g0, start, initial, hi]) (bare_mode (sizeUse_bare ha))
  have s2 : Step spec true g1 g2 := .startN g1 j b r' (by simp [g1, setThr_ne _ _ (Ne.symm hij), g0, start, initial, hj]) (bare_mode (sizeUse_bare hb))
  have ti : g2.thr i = ⟨r, some (a, prog a)⟩ := by simp [g2, g1, setThr_ne _ _ hij]
  have tj : g2.thr j = ⟨r', some (b, prog b)⟩ := by simp [g2]
  have hs : Steps spec true g0 g2 := (Steps.refl.snoc s1).snoc s2
  -- the two take turns: first one, the other, and so on to the size
  have turns : ∀ {m n : Nat} {c d : Call} {rc rd : List Call} {x' y' : Access}, m ≠ n → g2.thr m = ⟨rc, some (c, prog c)⟩ → g2.thr n = ⟨rd, some (d, prog d)⟩ →
      ∀ {p1 q1 : GP Out} {u1 u2 : G}, Go (prog c) g2.sh p1 u1 → Go (prog d) u1 q1 u2 → Will p1 x' → Will q1 y' → Conflict x' y' → HasRace g0 := by
    intro m n c d rc rd x' y' hmn tm tn p1 q1 u1 u2 e1 e2 w1 w2 hc
    obtain ⟨a1, b1, c1, d1, f1⟩ := go_on tm e1
    obtain ⟨a2, b2, c2, d2, f2⟩ := go_on (g := a1) ((f1 n (Ne.symm hmn)).trans tn) (by rw [c1]; exact e2)
    obtain ⟨p2, u3, e3, t3⟩ := w1 a2.sh
    obtain ⟨a3, b3, c3, d3, f3⟩ := go_on (g := a2) ((f2 m hmn).trans d1) e3
    obtain ⟨q2, u4, e4, t4⟩ := w2 a3.sh
    obtain ⟨a4, b4, c4, d4, f4⟩ := go_on (g := a3) ((f3 n (Ne.symm hmn)).trans d2) e4
    exact race_at ((((hs.trans b1).trans b2).trans b3).trans b4) hmn ((f4 m hmn).trans d3) d4 t3 t4 hc
  rcases h with ⟨r1, r2⟩ | ⟨r1, r2⟩
  · obtain ⟨p1, u1, F1, e1, w1, h1, a1⟩ := commit ha h0 r1
    obtain ⟨q1, u2, F2, e2, w2, h2, _⟩ := commit hb h1 (r2 F1 a1)
    exact turns hij ti tj e1 e2 w1 w2 ⟨rfl, hw⟩
  · obtain ⟨p1, u1, F1, e1, w1, h1, a1⟩ := commit hb h0 r1
    obtain ⟨q1, u2, F2, e2, w2, h2, _⟩ := commit ha h1 (r2 F1 a1)
    exact turns (Ne.symm hij) tj ti e1 e2 w1 w2 ⟨rfl, hw.symm⟩

/-- C114 is false of all programs in which the first calls of two goroutines clash (but for two `HSetNX` of one field): whatever the goroutines call later
and whatever others call, there is a state from which they can race. -/
theorem C114_first_violated {a b : Call} (h : Clash a b) (hn : ¬ SameNX a b) (calls : Nat → List Call) {i j : Nat} (hij : i ≠ j) {r r' : List Call}
    (hi : calls i = a :: r) (hj : calls j = b :: r') : ∃ v : Mem, v.WF ∧ HasRace (start v calls) := by
  rcases h with ⟨rfl, h1, h2⟩ | ⟨rfl, h1, h2⟩ | ⟨k, x, y, ha, hb, hw⟩
  · exact ⟨Mem.empty 0, Full.Mem.empty_wf 0, C114_flush_lists_violated _ calls hij (by simp [hi]) (b := b) (by simp [hj]) h1 h2⟩
  · exact ⟨Mem.empty 0, Full.Mem.empty_wf 0, C114_flush_lists_violated _ calls (Ne.symm hij) (by simp [hj]) (b := a) (by simp [hi]) h1 h2⟩
  · exact race_size_first ha hb hw hn calls hij hi hj

example (k f x : Bytes) (rest : List Call) : ∃ v : Mem, v.WF ∧ HasRace (start v fun i => if i = 0 then .hSet k f x :: rest else .hLen k :: rest) :=
  C114_first_violated (a := .hSet k f x) (b := .hLen k) (.inr (.inr ⟨k, true, false, rfl, rfl, .inl rfl⟩)) (by rintro ⟨_, _, _, _, h, _⟩; cases h) _
    (i := 0) (j := 1) (by decide) rfl rfl

end Verif.Conc.Race

import Verif.Conc.PropsWriters
/-!
# C103 beside a writer: when an MGet shows one moment while another goroutine calls Set and MSet
-/
namespace Verif.Conc
open Cache

/-- One goroutine makes the writing calls `ws`, another one MGet. -/
def writeGet (ws : List Call) (ks : List Bytes) : Nat → List Call := fun i => if i = 0 then ws else if i = 1 then [.mGet ks] else []

theorem zip_prefix (c0 : Cache) (W X : List (Bytes × Bytes)) (ks : List Bytes) : ∀ ns : List Nat, (∀ n ∈ ns, n ≤ W.length) →
    List.zipWith (fun k n => slotAt (part c0 W n) k) ks ns = List.zipWith (fun k n => slotAt (part c0 (W ++ X) n) k) ks ns := by
  induction ks with
  | nil => intro ns _; rfl
  | cons k ks ih =>
    intro ns h
    rcases ns with _ | ⟨n, ns⟩
    · rfl
    · rw [List.zipWith_cons_cons, List.zipWith_cons_cons, part_prefix c0 W X (h n (by simp)), ih ns (fun n hn => h n (List.mem_cons_of_mem _ hn))]

theorem writesOf_zero {W : List Tagged} (h : ∀ i, i ≠ 0 → writesOf W i = []) : writesOf W 0 = W.map (·.2) := by
  induction W with
  | nil => rfl
  | cons x W ih =>
    obtain ⟨i, p⟩ := x
    have hi : i = 0 := Classical.byContradiction fun e => by
      have := h i e
      rw [writesOf_same] at this
      cases this
    subst hi
    rw [writesOf_same, ih (fun j hj => by have := h j hj; rwa [writesOf_other (Ne.symm hj)] at this)]
    rfl

theorem writesOf_map (L : List (Bytes × Bytes)) (i : Nat) : writesOf (L.map fun p => (0, p)) i = if i = 0 then L else [] := by
  induction L with
  | nil => simp [writesOf]
  | cons p L ih =>
    rw [List.map_cons]
    by_cases e : i = 0
    · subst e; rw [writesOf_same, ih]; simp
    · rw [writesOf_other (Ne.symm e), ih]; simp [e]

/-- C44, exactly, for one goroutine with any number of Set and MSet calls beside one MGet: each slot shows its key when some first part of the pairs, in
the order of the calls, was written, the parts growing from slot to slot. -/
theorem C44_writer_exact (c0 : Cache) (t0 : Int) (ws : List Call) (hw : ∀ op ∈ ws, Writer op) (ks : List Bytes) (hk : ∀ k ∈ ks, c0.exp k = none) (o : Out) :
    (∃ g : Cfg, Steps spec true (initial ⟨c0, t0⟩ (writeGet ws ks)) g ∧ (1, .mGet ks, o) ∈ g.log) ↔
      ∃ ns : List Nat, ns.length = ks.length ∧ ns.Pairwise (· ≤ ·) ∧ (∀ n ∈ ns, n ≤ (ws.flatMap pairsOf).length) ∧
        o = tornAnswer c0 (ws.flatMap pairsOf) ks ns := by
  rw [C44_writers_exact c0 t0 (writeGet ws ks) 1 ks rfl (fun i hi op hop => by
    unfold writeGet at hop
    split at hop
    · exact hw op hop
    · simp at hop) hk o]
  have flat : ∀ i, (writeGet ws ks i).flatMap pairsOf = if i = 0 then ws.flatMap pairsOf else [] := by
    intro i
    unfold writeGet
    by_cases e0 : i = 0
    · simp [e0]
    · by_cases e1 : i = 1 <;> simp [e0, e1, pairsOf]
  constructor
  · rintro ⟨W, ns, h0, h1, h2, h3, rfl⟩
    have hz := writesOf_zero (W := W) fun i hi => by
      have := h0 i
      rw [flat, if_neg hi] at this
      exact List.prefix_nil.1 this
    have hp := h0 0
    rw [flat, if_pos rfl, hz] at hp
    obtain ⟨X, hX⟩ := hp
    have hlen : ∀ n ∈ ns, n ≤ (W.map (·.2)).length := by simpa using h3
    refine ⟨ns, h1, h2, fun n hn => ?_, ?_⟩
    · rw [← hX, List.length_append]
      exact Nat.le_trans (hlen n hn) (Nat.le_add_right _ _)
    · unfold tornAnswer
      rw [zip_prefix c0 _ X ks ns hlen, hX]
  · rintro ⟨ns, h1, h2, h3, rfl⟩
    have hm : ((ws.flatMap pairsOf).map fun p => ((0 : Nat), p)).map (·.2) = ws.flatMap pairsOf := by
      rw [List.map_map]; exact List.map_id _
    refine ⟨(ws.flatMap pairsOf).map fun p => (0, p), ns, fun i => ?_, h1, h2, fun n hn => ?_, ?_⟩
    · rw [writesOf_map, flat]; exact List.prefix_rfl
    · rw [List.length_map]; exact h3 n hn
    · rw [hm]

/-- The `a`-th pair is of key `k`, and the writes change what MGet shows for `k`. -/
def Changes (c0 : Cache) (L : List (Bytes × Bytes)) (a : Nat) (k : Bytes) : Prop :=
  (∃ v, L[a]? = some (k, v)) ∧ slotAt c0 k ≠ slotAt (part c0 L L.length) k

theorem slot_other {c c' : Cache} {k : Bytes} (h : c.data k = c'.data k) : slotAt c k = slotAt c' k := by
  unfold slotAt; rw [h]

theorem slot_before {c0 : Cache} {L : List (Bytes × Bytes)} {k : Bytes} {n : Nat} (h : k ∉ (L.take n).map Prod.fst) : slotAt (part c0 L n) k = slotAt c0 k :=
  slot_other (fold_other _ _ h)

theorem slot_after {c0 : Cache} {L : List (Bytes × Bytes)} {k : Bytes} {n : Nat} (hn : n ≤ L.length) (h : k ∉ (L.drop n).map Prod.fst) :
    slotAt (part c0 L n) k = slotAt (part c0 L L.length) k := by
  obtain ⟨d, e⟩ := Nat.exists_eq_add_of_le hn
  rw [e, part_add]
  refine (slot_other (fold_other _ _ fun hm => h ?_)).symm
  obtain ⟨p, hp, rfl⟩ := List.mem_map.1 hm
  exact List.mem_map.2 ⟨p, List.mem_of_mem_take hp, rfl⟩

theorem changes_slot {c0 : Cache} {L : List (Bytes × Bytes)} (hd : (L.map Prod.fst).Nodup) {a : Nat} {k : Bytes} (h : Changes c0 L a k) :
    a < L.length ∧ (∀ n, n ≤ a → slotAt (part c0 L n) k = slotAt c0 k) ∧
      ∀ n, a < n → n ≤ L.length → slotAt (part c0 L n) k = slotAt (part c0 L L.length) k := by
  obtain ⟨⟨v, hv⟩, _⟩ := h
  obtain ⟨ha, hv⟩ := List.getElem?_eq_some_iff.1 hv
  have uniq : ∀ b (hb : b < L.length), L[b].1 = k → b = a := by
    intro b hb e
    have hb' : b < (L.map Prod.fst).length := by simpa using hb
    have ha' : a < (L.map Prod.fst).length := by simpa using ha
    refine (List.getElem_inj (h₀ := hb') (h₁ := ha') hd).1 ?_
    simp [e, hv]
  refine ⟨ha, fun n hn => slot_before fun hm => ?_, fun n hn hl => slot_after hl fun hm => ?_⟩
  · obtain ⟨p, hp, e⟩ := List.mem_map.1 hm
    obtain ⟨b, hb, rfl⟩ := List.getElem_of_mem hp
    rw [List.getElem_take] at e
    have hb2 : b < n := by simp at hb; omega
    have := uniq b (by simp at hb; omega) e
    omega
  · obtain ⟨p, hp, e⟩ := List.mem_map.1 hm
    obtain ⟨b, hb, rfl⟩ := List.getElem_of_mem hp
    rw [List.getElem_drop] at e
    have := uniq (n + b) (by simp at hb; omega) e
    omega

theorem still_slot {c0 : Cache} {L : List (Bytes × Bytes)} (hd : (L.map Prod.fst).Nodup) {k : Bytes} (h : ∀ a, ¬ Changes c0 L a k) {n : Nat} (hn : n ≤ L.length) :
    slotAt (part c0 L n) k = slotAt c0 k := by
  by_cases e : slotAt c0 k = slotAt (part c0 L L.length) k
  · rcases slot_two hd hn k (c0 := c0) with h1 | h1
    · exact h1
    · exact h1.trans e.symm
  · refine slot_before fun hm => ?_
    obtain ⟨p, hp, rfl⟩ := List.mem_map.1 hm
    obtain ⟨a, ha, hpa⟩ := List.getElem_of_mem (List.mem_of_mem_take hp)
    exact h a ⟨⟨p.2, by rw [List.getElem?_eq_getElem ha, hpa]⟩, e⟩

/-- If later slots are of keys written earlier, growing parts look like one part. -/
theorem one_part {c0 : Cache} {L : List (Bytes × Bytes)} (hd : (L.map Prod.fst).Nodup) (ks : List Bytes) : ∀ ns : List Nat, ns.length = ks.length →
    ns.Pairwise (· ≤ ·) → (∀ n ∈ ns, n ≤ L.length) → ks.Pairwise (fun x y => ∀ a b, Changes c0 L a x → Changes c0 L b y → b < a) →
    ∃ n, n ≤ L.length ∧ List.zipWith (fun k n => slotAt (part c0 L n) k) ks ns = ks.map (slotAt (part c0 L n)) := by
  induction ks with
  | nil => intro ns _ _ _ _; exact ⟨0, Nat.zero_le _, by simp⟩
  | cons x ks ih =>
    intro ns hl hp hb hc
    rcases ns with _ | ⟨m, ns⟩
    · simp at hl
    rw [List.pairwise_cons] at hp hc
    have hm := hb m (by simp)
    obtain ⟨n, hn, hz⟩ := ih ns (by simpa using hl) hp.2 (fun n h => hb n (List.mem_cons_of_mem _ h)) hc.2
    rw [List.zipWith_cons_cons]
    by_cases hx : ∃ a, Changes c0 L a x
    · obtain ⟨a, ha⟩ := hx
      obtain ⟨a1, a2, a3⟩ := changes_slot hd ha
      by_cases e : m ≤ a
      · -- the first slot is old: take the smaller part
        refine ⟨min n a, by omega, ?_⟩
        rw [hz, List.map_cons, a2 m e, a2 (min n a) (by omega)]
        congr 1
        refine List.map_inj_left.2 fun y hy => ?_
        by_cases hy' : ∃ b, Changes c0 L b y
        · obtain ⟨b, hb'⟩ := hy'
          have hba := hc.1 y hy a b ha hb'
          obtain ⟨b1, b2, b3⟩ := changes_slot hd hb'
          by_cases e2 : n ≤ b
          · exact (b2 n e2).trans (b2 (min n a) (by omega)).symm
          · exact (b3 n (by omega) hn).trans (b3 (min n a) (by omega) (by omega)).symm
        · rw [still_slot hd (fun b h => hy' ⟨b, h⟩) hn, still_slot hd (fun b h => hy' ⟨b, h⟩) (by omega)]
      · -- the first slot is new: so are all later ones
        refine ⟨L.length, Nat.le_refl _, ?_⟩
        rw [List.map_cons, a3 m (by omega) hm]
        congr 1
        clear ih hz
        have key : ∀ (ks : List Bytes) (ns : List Nat), ns.length = ks.length → (∀ n ∈ ns, m ≤ n) → (∀ n ∈ ns, n ≤ L.length) →
            (∀ y ∈ ks, ∀ b, Changes c0 L b y → b < a) →
            List.zipWith (fun k n => slotAt (part c0 L n) k) ks ns = ks.map (slotAt (part c0 L L.length)) := by
          intro ks
          induction ks with
          | nil => intro ns _ _ _ _; simp
          | cons y ks ih =>
            intro ns h1 h2 h3 h4
            rcases ns with _ | ⟨n', ns⟩
            · simp at h1
            rw [List.zipWith_cons_cons, List.map_cons, ih ns (by simpa using h1) (fun n h => h2 n (List.mem_cons_of_mem _ h))
              (fun n h => h3 n (List.mem_cons_of_mem _ h)) (fun y h => h4 y (List.mem_cons_of_mem _ h))]
            congr 1
            have g1 := h2 n' (by simp)
            have g2 := h3 n' (by simp)
            by_cases hy' : ∃ b, Changes c0 L b y
            · obtain ⟨b, hb'⟩ := hy'
              have hba := h4 y (by simp) b hb'
              exact (changes_slot hd hb').2.2 n' (by omega) g2
            · rw [still_slot hd (fun b h => hy' ⟨b, h⟩) g2, still_slot hd (fun b h => hy' ⟨b, h⟩) (Nat.le_refl _)]
        exact key ks ns (by simpa using hl) hp.1 (fun n h => hb n (List.mem_cons_of_mem _ h)) fun y hy b hb' => hc.1 y hy a b ha hb'
    · refine ⟨n, hn, ?_⟩
      rw [hz, List.map_cons, still_slot hd (fun b h => hx ⟨b, h⟩) hm, still_slot hd (fun b h => hx ⟨b, h⟩) hn]

/-- C103, exactly, beside a goroutine that makes any number of Set and MSet calls of different keys, none of the keys asked for having a deadline: every
MGet shows the cache after some first part of the writes, if and only if of any two of its slots whose keys are changed the later one is
written first. So MGet(a, b) is safe beside Set(b), Set(a), and not beside Set(a), Set(b); a key that changes must not be asked for twice. -/
theorem C103_writer_exact (c0 : Cache) (t0 : Int) (ws : List Call) (hw : ∀ op ∈ ws, Writer op) (hd : ((ws.flatMap pairsOf).map Prod.fst).Nodup)
    (ks : List Bytes) (hk : ∀ k ∈ ks, c0.exp k = none) :
    (∀ (g : Cfg) (o : Out), Steps spec true (initial ⟨c0, t0⟩ (writeGet ws ks)) g → (1, .mGet ks, o) ∈ g.log →
      ∃ n, n ≤ (ws.flatMap pairsOf).length ∧ o = .slots (.ok (ks.map (slotAt (part c0 (ws.flatMap pairsOf) n))))) ↔
    ks.Pairwise (fun x y => ∀ a b, Changes c0 (ws.flatMap pairsOf) a x → Changes c0 (ws.flatMap pairsOf) b y → b < a) := by
  generalize hL : ws.flatMap pairsOf = L at hd
  constructor
  · intro h
    refine List.pairwise_iff_getElem.2 fun i j hi hj hij a b ha hb => Classical.byContradiction fun hn => ?_
    obtain ⟨a1, a2, a3⟩ := changes_slot hd ha
    obtain ⟨b1, b2, b3⟩ := changes_slot hd hb
    let ns := List.replicate j a ++ List.replicate (ks.length - j) (b + 1)
    obtain ⟨g, s, l⟩ := (C44_writer_exact c0 t0 ws hw ks hk (tornAnswer c0 L ks ns)).2 ⟨ns, by simp [ns]; omega, by
        rw [List.pairwise_append]
        refine ⟨List.pairwise_replicate.2 (.inr (Nat.le_refl _)), List.pairwise_replicate.2 (.inr (Nat.le_refl _)), fun x hx y hy => ?_⟩
        rw [(List.mem_replicate.1 hx).2, (List.mem_replicate.1 hy).2]; omega, by
        intro n hn'
        rw [hL]
        rcases List.mem_append.1 hn' with h | h <;> rw [(List.mem_replicate.1 h).2] <;> omega, by rw [hL]⟩
    obtain ⟨n, hn1, hn2⟩ := h g _ s l
    simp only [tornAnswer, Out.slots.injEq, GoRes.ok.injEq] at hn2
    have nsi : ns[i]? = some a := by
      rw [List.getElem?_append_left (by simpa using hij), List.getElem?_replicate]; simp [hij]
    have nsj : ns[j]? = some (b + 1) := by
      rw [List.getElem?_append_right (by simp), List.getElem?_replicate]; simp; omega
    have ei := congrArg (fun l => l[i]?) hn2
    have ej := congrArg (fun l => l[j]?) hn2
    simp only [List.getElem?_zipWith, List.getElem?_map, List.getElem?_eq_getElem hi, List.getElem?_eq_getElem hj, nsi, nsj, Option.map_some,
      Option.some.injEq] at ei ej
    rw [a2 a (Nat.le_refl _)] at ei
    rw [b3 (b + 1) (by omega) (by omega)] at ej
    have hna : n ≤ a := Classical.byContradiction fun e => ha.2 (by rw [ei, a3 n (by omega) hn1])
    exact hb.2 (by rw [ej, b2 n (by omega)])
  · intro hc g o s l
    obtain ⟨ns, h1, h2, h3, rfl⟩ := (C44_writer_exact c0 t0 ws hw ks hk o).1 ⟨g, s, l⟩
    rw [hL] at h3 ⊢
    obtain ⟨n, hn, hz⟩ := one_part hd ks ns h1 h2 h3 hc
    exact ⟨n, hn, by unfold tornAnswer; rw [hz]⟩

/-- An empty cache, Set(a), Set(b): MGet(a, b) can show a state that never was, MGet(b, a) cannot. -/
example : ¬ (∀ (g : Cfg) (o : Out), Steps spec true (initial ⟨(⟨fun _ => none, fun _ => none⟩ : Cache), 0⟩ (writeGet [.set b!"a" b!"1", .set b!"b" b!"2"] [b!"a", b!"b"])) g →
      (1, .mGet [b!"a", b!"b"], o) ∈ g.log → ∃ n, n ≤ 2 ∧ o = .slots (.ok ([b!"a", b!"b"].map (slotAt (part ⟨fun _ => none, fun _ => none⟩ [(b!"a", b!"1"), (b!"b", b!"2")] n))))) ∧
    ∀ (g : Cfg) (o : Out), Steps spec true (initial ⟨(⟨fun _ => none, fun _ => none⟩ : Cache), 0⟩ (writeGet [.set b!"a" b!"1", .set b!"b" b!"2"] [b!"b", b!"a"])) g →
      (1, .mGet [b!"b", b!"a"], o) ∈ g.log → ∃ n, n ≤ 2 ∧ o = .slots (.ok ([b!"b", b!"a"].map (slotAt (part ⟨fun _ => none, fun _ => none⟩ [(b!"a", b!"1"), (b!"b", b!"2")] n)))) := by
  have hw : ∀ op ∈ [Call.set b!"a" b!"1", .set b!"b" b!"2"], Writer op := by
    intro op h; simp at h; rcases h with rfl | rfl <;> exact .inr ⟨_, _, rfl⟩
  constructor
  · intro h
    have := (C103_writer_exact ⟨fun _ => none, fun _ => none⟩ 0 _ hw (by decide) [b!"a", b!"b"] (fun _ _ => rfl)).1 h
    rw [List.pairwise_cons] at this
    have := this.1 b!"b" (by simp) 0 1 ⟨⟨_, rfl⟩, by decide +kernel⟩ ⟨⟨_, rfl⟩, by decide +kernel⟩
    omega
  · refine (C103_writer_exact ⟨fun _ => none, fun _ => none⟩ 0 _ hw (by decide) [b!"b", b!"a"] (fun _ _ => rfl)).2 ?_
    simp only [List.pairwise_cons, List.mem_singleton, forall_eq, List.not_mem_nil, false_implies, implies_true, List.Pairwise.nil, and_true]
    rintro a b ⟨⟨v, ha⟩, _⟩ ⟨⟨v', hb⟩, _⟩
    have ha' : a = 1 := by
      rcases a with _ | _ | a
      · simp [pairsOf] at ha
      · rfl
      · simp [pairsOf] at ha
    have hb' : b = 0 := by
      rcases b with _ | _ | b
      · rfl
      · simp [pairsOf] at hb
      · simp [pairsOf] at hb
    omega

end Verif.Conc

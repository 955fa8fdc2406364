import Verif.Conc.PropsMomentWriter
/-!
# C103 beside any number of goroutines that call Set and MSet
-/
namespace Verif.Conc
open Cache

/-- What is under `k` depends only on the writes of the goroutine that writes `k`. -/
theorem fold_own {i : Nat} {k : Bytes} (W : List Tagged) (h : ∀ x ∈ W, x.1 ≠ i → x.2.1 ≠ k) : ∀ c c' : Cache, c.data k = c'.data k →
    ((W.map (·.2)).foldl (fun c p => c.store p.1 (.scalar (tryInt64 p.2))) c).data k =
      ((writesOf W i).foldl (fun c p => c.store p.1 (.scalar (tryInt64 p.2))) c').data k := by
  induction W with
  | nil => exact fun _ _ e => e
  | cons x W ih =>
    intro c c' e
    obtain ⟨j, p⟩ := x
    have ih := ih fun x hx => h x (List.mem_cons_of_mem _ hx)
    by_cases hj : j = i
    · subst hj
      rw [writesOf_same]
      refine ih _ _ ?_
      simp only [Cache.store, upd]
      split
      · rfl
      · exact e
    · rw [writesOf_other hj]
      refine ih _ _ ?_
      have := h (j, p) (by simp) hj
      simp only [Cache.store, upd, if_neg (Ne.symm this)]
      exact e

/-- The keys of a goroutine's writes. -/
def keysOf (calls : Nat → List Call) (i : Nat) : List Bytes := ((calls i).flatMap pairsOf).map Prod.fst

theorem keys_prefix {calls : Nat → List Call} {W : List Tagged} (hW : ∀ i, writesOf W i <+: (calls i).flatMap pairsOf) {x : Tagged} (hx : x ∈ W) :
    x.2.1 ∈ keysOf calls x.1 := by
  refine List.mem_map.2 ⟨x.2, (hW x.1).subset ?_, rfl⟩
  simp only [writesOf, List.mem_map, List.mem_filter, decide_eq_true_eq]
  exact ⟨x, ⟨hx, rfl⟩, rfl⟩

/-- How many of the first `n` writes are of goroutine `i`. -/
def share (W : List Tagged) (i n : Nat) : Nat := (writesOf (W.take n) i).length

theorem share_mono (W : List Tagged) (i : Nat) {m n : Nat} (h : m ≤ n) : share W i m ≤ share W i n := by
  unfold share writesOf
  rw [List.length_map, List.length_map]
  exact ((List.take_prefix_take_left h).sublist.filter _).length_le

theorem share_take {L : List (Bytes × Bytes)} {W : List Tagged} {i : Nat} (h : writesOf W i <+: L) (n : Nat) :
    writesOf (W.take n) i = L.take (share W i n) ∧ share W i n ≤ L.length := by
  have h1 : writesOf (W.take n) i <+: L := by
    refine List.IsPrefix.trans ?_ h
    conv => rhs; rw [← List.take_append_drop n W, writesOf_append]
    exact List.prefix_append _ _
  exact ⟨List.prefix_iff_eq_take.1 h1, h1.length_le⟩

/-- The slot of a key that no other goroutine writes. -/
theorem slot_own {c0 : Cache} {calls : Nat → List Call} {W : List Tagged} (hW : ∀ i, writesOf W i <+: (calls i).flatMap pairsOf) {i : Nat} {k : Bytes}
    (hk : ∀ j, j ≠ i → k ∉ keysOf calls j) (n : Nat) :
    slotAt (part c0 (W.map (·.2)) n) k = slotAt (part c0 ((calls i).flatMap pairsOf) (share W i n)) k := by
  refine slot_other ?_
  unfold part
  rw [← List.map_take, ← (share_take (hW i) n).1]
  exact fold_own _ (fun x hx hi e => hk x.1 hi (by rw [← e]; exact keys_prefix hW (List.mem_of_mem_take hx))) _ _ rfl

theorem writesOf_tag (L : List (Bytes × Bytes)) (i j : Nat) : writesOf (L.map fun p => (i, p)) j = if j = i then L else [] := by
  induction L with
  | nil => simp [writesOf]
  | cons p L ih =>
    rw [List.map_cons]
    by_cases e : j = i
    · subst e; rw [writesOf_same, ih]; simp
    · rw [writesOf_other (Ne.symm e), ih]; simp [e]

/-- The goroutines below `N` write one after the other. -/
def inTurn (X : Nat → List (Bytes × Bytes)) (N : Nat) : List Tagged := (List.range N).flatMap fun i => (X i).map fun p => (i, p)

theorem writesOf_inTurn (X : Nat → List (Bytes × Bytes)) (N j : Nat) : writesOf (inTurn X N) j = if j < N then X j else [] := by
  induction N with
  | zero => simp [inTurn, writesOf]
  | succ N ih =>
    have : inTurn X (N + 1) = inTurn X N ++ (X N).map fun p => (N, p) := by
      simp [inTurn, List.range_succ]
    rw [this, writesOf_append, ih, writesOf_tag]
    by_cases h1 : j < N
    · rw [if_pos h1, if_neg (by omega), if_pos (by omega), List.append_nil]
    · by_cases h2 : j = N
      · subst h2; simp
      · rw [if_neg h1, if_neg h2, if_neg (by omega)]; rfl

/-- The answer of an MGet at one moment: some goroutines have made first parts of their writes. -/
def Moment (c0 : Cache) (calls : Nat → List Call) (ks : List Bytes) (o : Out) : Prop :=
  ∃ W : List Tagged, (∀ i, writesOf W i <+: (calls i).flatMap pairsOf) ∧ o = .slots (.ok (ks.map (slotAt (part c0 (W.map (·.2)) W.length))))

/-- C103, exactly, beside any number of goroutines that make any number of Set and MSet calls, all of different keys, none of the keys asked for having a
deadline: every MGet shows a moment (what there is when each goroutine has made some first part of its writes), if and only if of any two slots whose keys one goroutine
changes the later one is written first. Keys of different goroutines may come in any order. -/
theorem C103_writers_exact (c0 : Cache) (t0 : Int) (calls : Nat → List Call) (R : Nat) (ks : List Bytes) (hR : calls R = [.mGet ks])
    (hw : ∀ i, i ≠ R → ∀ op ∈ calls i, Writer op) (hd : ∀ i, (keysOf calls i).Nodup) (hx : ∀ i j, i ≠ j → ∀ k ∈ keysOf calls i, k ∉ keysOf calls j)
    (hk : ∀ k ∈ ks, c0.exp k = none) :
    (∀ (g : Cfg) (o : Out), Steps spec true (initial ⟨c0, t0⟩ calls) g → (R, .mGet ks, o) ∈ g.log → Moment c0 calls ks o) ↔
    ∀ i, ks.Pairwise (fun x y => ∀ a b, Changes c0 ((calls i).flatMap pairsOf) a x → Changes c0 ((calls i).flatMap pairsOf) b y → b < a) := by
  have own : ∀ {i k}, k ∈ keysOf calls i → ∀ j, j ≠ i → k ∉ keysOf calls j := fun h j hj => hx _ j (Ne.symm hj) _ h
  have keyOf : ∀ {i a k}, Changes c0 ((calls i).flatMap pairsOf) a k → k ∈ keysOf calls i := by
    rintro i a k ⟨⟨v, hv⟩, _⟩
    exact List.mem_map.2 ⟨(k, v), List.mem_of_getElem? hv, rfl⟩
  constructor
  · intro h m
    refine List.pairwise_iff_getElem.2 fun i j hi hj hij a b ha hb => Classical.byContradiction fun hn => ?_
    obtain ⟨a1, a2, a3⟩ := changes_slot (hd m) ha
    obtain ⟨b1, b2, b3⟩ := changes_slot (hd m) hb
    let L := (calls m).flatMap pairsOf
    let ns := List.replicate j a ++ List.replicate (ks.length - j) (b + 1)
    have hm : (L.map fun p => ((m : Nat), p)).map (·.2) = L := by rw [List.map_map]; exact List.map_id _
    obtain ⟨g, s, l⟩ := (C44_writers_exact c0 t0 calls R ks hR hw hk (tornAnswer c0 L ks ns)).2 ⟨L.map fun p => (m, p), ns, fun i => by
        rw [writesOf_tag]
        split
        · rename_i e; subst e; exact List.prefix_rfl
        · exact List.nil_prefix, by simp [ns]; omega, by
        rw [List.pairwise_append]
        refine ⟨List.pairwise_replicate.2 (.inr (Nat.le_refl _)), List.pairwise_replicate.2 (.inr (Nat.le_refl _)), fun x hx y hy => ?_⟩
        rw [(List.mem_replicate.1 hx).2, (List.mem_replicate.1 hy).2]; omega, by
        intro n hn'
        rw [List.length_map]
        show n ≤ ((calls m).flatMap pairsOf).length
        rcases List.mem_append.1 hn' with h | h <;> rw [(List.mem_replicate.1 h).2] <;> omega, by rw [hm]⟩
    obtain ⟨W, hW, hn2⟩ := h g _ s l
    simp only [tornAnswer, Out.slots.injEq, GoRes.ok.injEq] at hn2
    have nsi : ns[i]? = some a := by
      rw [List.getElem?_append_left (by simpa using hij), List.getElem?_replicate]; simp [hij]
    have nsj : ns[j]? = some (b + 1) := by
      rw [List.getElem?_append_right (by simp), List.getElem?_replicate]; simp; omega
    have ei := congrArg (fun l => l[i]?) hn2
    have ej := congrArg (fun l => l[j]?) hn2
    simp only [List.getElem?_zipWith, List.getElem?_map, List.getElem?_eq_getElem hi, List.getElem?_eq_getElem hj, nsi, nsj, Option.map_some,
      Option.some.injEq] at ei ej
    rw [a2 a (Nat.le_refl _), slot_own hW (own (keyOf ha))] at ei
    rw [b3 (b + 1) (by omega) (by omega), slot_own hW (own (keyOf hb))] at ej
    have hle := (share_take (hW m) W.length).2
    have hna : share W m W.length ≤ a := Classical.byContradiction fun e => ha.2 (by rw [ei, a3 _ (by omega) hle])
    exact hb.2 (by rw [ej, b2 _ (by omega)])
  · intro hc g o s l
    obtain ⟨W, ns, hW, h1, h2, h3, rfl⟩ := (C44_writers_exact c0 t0 calls R ks hR hw hk o).1 ⟨g, s, l⟩
    -- each goroutine's keys look like one moment of it
    have one : ∀ i, ∃ m, m ≤ ((calls i).flatMap pairsOf).length ∧ (List.zipWith (fun k n => slotAt (part c0 ((calls i).flatMap pairsOf) n) k) ks (ns.map (share W i)) =
        ks.map (slotAt (part c0 ((calls i).flatMap pairsOf) m))) := fun i =>
      one_part (hd i) ks (ns.map (share W i)) (by simpa using h1) (List.pairwise_map.2 (h2.imp fun h => share_mono W i h))
        (fun n hn => by obtain ⟨n', _, rfl⟩ := List.mem_map.1 hn; exact (share_take (hW i) n').2) (hc i)
    obtain ⟨m, hm⟩ := Classical.axiomOfChoice one
    obtain ⟨N, hN⟩ : ∃ N, ∀ x ∈ W, x.1 < N := by
      clear h3 hW one hm l
      induction W with
      | nil => exact ⟨0, by simp⟩
      | cons x W ih =>
        obtain ⟨N, hN⟩ := ih
        refine ⟨max N (x.1 + 1), fun y hy => ?_⟩
        rcases List.mem_cons.1 hy with rfl | hy
        · omega
        · have := hN y hy; omega
    have none : ∀ i, N ≤ i → ∀ n, share W i n = 0 := by
      intro i hi n
      unfold share writesOf
      rw [List.length_map, List.length_eq_zero_iff, List.filter_eq_nil_iff]
      intro x hx
      have := hN x (List.mem_of_mem_take hx)
      simp only [decide_eq_true_eq]
      omega
    let V := inTurn (fun i => ((calls i).flatMap pairsOf).take (m i)) N
    have hV : ∀ i, writesOf V i <+: (calls i).flatMap pairsOf := by
      intro i
      rw [writesOf_inTurn]
      split
      · exact List.take_prefix _ _
      · exact List.nil_prefix
    have sV : ∀ i, share V i V.length = if i < N then m i else 0 := by
      intro i
      unfold share
      rw [List.take_length, writesOf_inTurn]
      split
      · rw [List.length_take]; have := (hm i).1; omega
      · rfl
    refine ⟨V, hV, ?_⟩
    unfold tornAnswer
    congr 2
    refine List.ext_getElem (by simp [h1]) fun q hq1 hq2 => ?_
    simp only [List.getElem_zipWith, List.getElem_map]
    have hqk : q < ks.length := by simpa using hq2
    by_cases hin : ∃ i, ks[q] ∈ keysOf calls i
    · obtain ⟨i, hi⟩ := hin
      rw [slot_own hW (own hi), slot_own hV (own hi), sV]
      by_cases e : i < N
      · rw [if_pos e]
        have := congrArg (fun l => l[q]?) (hm i).2
        simpa [List.getElem?_zipWith, hqk, h1] using this
      · rw [if_neg e, none i (by omega)]
    · have away : ∀ {U : List Tagged} (_ : ∀ i, writesOf U i <+: (calls i).flatMap pairsOf) (n : Nat), slotAt (part c0 (U.map (·.2)) n) ks[q] = slotAt c0 ks[q] := by
        intro U hU n
        refine slot_before fun hmem => hin ?_
        rw [← List.map_take, List.map_map] at hmem
        obtain ⟨x, hx, e⟩ := List.mem_map.1 hmem
        exact ⟨x.1, e ▸ keys_prefix hU (List.mem_of_mem_take hx)⟩
      rw [away hW, away hV]

/-- Two goroutines set one key each: an MGet of both shows a moment, in whatever order. -/
example (c0 : Cache) (hc : ∀ k, c0.exp k = none) {a b : Bytes} (hab : a ≠ b) (x y : Bytes) (g : Cfg) (o : Out)
    (hs : Steps spec true (initial ⟨c0, 0⟩ fun i => if i = 0 then [.set a x] else if i = 1 then [.mGet [a, b]] else if i = 2 then [.set b y] else []) g)
    (hl : (1, .mGet [a, b], o) ∈ g.log) :
    Moment c0 (fun i => if i = 0 then [.set a x] else if i = 1 then [.mGet [a, b]] else if i = 2 then [.set b y] else []) [a, b] o := by
  let calls : Nat → List Call := fun i => if i = 0 then [.set a x] else if i = 1 then [.mGet [a, b]] else if i = 2 then [.set b y] else []
  have flat : ∀ i, (calls i).flatMap pairsOf = if i = 0 then [(a, x)] else if i = 2 then [(b, y)] else [] := by
    intro i
    show List.flatMap pairsOf (if i = 0 then [.set a x] else if i = 1 then [.mGet [a, b]] else if i = 2 then [.set b y] else []) = _
    by_cases h0 : i = 0
    · simp [h0, pairsOf]
    · by_cases h1 : i = 1
      · simp [h1, pairsOf]
      · by_cases h2 : i = 2 <;> simp [h0, h1, h2, pairsOf]
  have keys : ∀ i, keysOf calls i = if i = 0 then [a] else if i = 2 then [b] else [] := by
    intro i
    unfold keysOf
    rw [flat]
    split
    · rfl
    · split <;> rfl
  refine (C103_writers_exact c0 0 calls 1 [a, b] rfl ?_ ?_ ?_ (fun k _ => hc k)).2 ?_ g o hs hl
  · intro i hi op ho
    simp only [calls, if_neg hi] at ho
    split at ho
    · simp at ho; exact .inr ⟨_, _, ho⟩
    · split at ho
      · simp at ho; exact .inr ⟨_, _, ho⟩
      · cases ho
  · intro i
    rw [keys]
    split
    · simp
    · split <;> simp
  · intro i j hij k hk
    rw [keys] at hk ⊢
    split at hk
    · simp at hk
      subst hk
      rw [if_neg (by omega)]
      split <;> simp [hab]
    · split at hk
      · simp at hk
        subst hk
        split
        · simpa using Ne.symm hab
        · rw [if_neg (by omega)]; simp
      · cases hk
  · intro i
    refine List.pairwise_pair.2 fun p q hp hq => ?_
    obtain ⟨⟨v, hp⟩, _⟩ := hp
    obtain ⟨⟨w, hq⟩, _⟩ := hq
    have hp : a ∈ keysOf calls i := List.mem_map.2 ⟨_, List.mem_of_getElem? hp, rfl⟩
    have hq : b ∈ keysOf calls i := List.mem_map.2 ⟨_, List.mem_of_getElem? hq, rfl⟩
    rw [keys] at hp hq
    split at hp
    · rename_i h; rw [if_pos h] at hq; simp at hq; exact absurd hq.symm hab
    · split at hp
      · simp at hp; exact absurd hp hab
      · cases hp

end Verif.Conc

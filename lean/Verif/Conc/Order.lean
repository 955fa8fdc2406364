import Verif.Conc.Machine
/-!
# Program order, and facts that stay true once a call has returned
-/
namespace Verif.Conc
variable {S Op Out : Type}

/-- The calls thread `i` has made (log), is making and has still to make are its call list. -/
theorem program_order {P : Spec S Op Out} {ov : Bool} {s : S} {calls : Nat → List Op} {g : Config S Op Out}
    (h : Steps P ov (initial s calls) g) (i : Nat) :
    (g.log.filter (fun e => e.1 = i)).map (·.2.1) ++ ((g.thr i).cur.map (·.1)).toList ++ (g.thr i).todo = calls i := by
  induction h with
  | refl => simp [initial]
  | snoc _ st ih =>
    have start : ∀ (g : Config S Op Out) (j : Nat) (op : Op) (rest : List Op) (p : Prog S Out),
        g.thr j = ⟨op :: rest, none⟩ →
        (g.log.filter (fun e => e.1 = i)).map (·.2.1) ++ ((g.thr i).cur.map (·.1)).toList ++ (g.thr i).todo = calls i →
        (g.log.filter (fun e => e.1 = i)).map (·.2.1) ++ ((setThr g.thr j ⟨rest, some (op, p)⟩ i).cur.map (·.1)).toList
          ++ (setThr g.thr j ⟨rest, some (op, p)⟩ i).todo = calls i := by
      intro g j op rest p ht ih
      by_cases e : i = j
      · subst e; rw [ht] at ih; simpa using ih
      · rw [setThr_ne _ _ e]; exact ih
    cases st with
    | tick s' h => exact ih
    | startW j op rest ht hm hw hr => exact start _ j op rest _ ht ih
    | startR j op rest ht hm hw hr => exact start _ j op rest _ ht ih
    | startN j op rest ht hm => exact start _ j op rest _ ht ih
    | act j op todo u k ht =>
      by_cases e : i = j
      · subst e; rw [ht] at ih; simpa using ih
      · simp only [setThr_ne _ _ e]; exact ih
    | fin j op todo o ht =>
      by_cases e : i = j
      · subst e; rw [ht] at ih; simpa [List.filter_append] using ih
      · have e' : ¬ j = i := fun h => e h.symm
        simp only [setThr_ne _ _ e, List.filter_append]
        simpa [e'] using ih

/-- A list split into the buckets `0..N-1` is a permutation of itself. -/
theorem perm_buckets {α : Type} (N : Nat) (l : List (Nat × α)) (h : ∀ e ∈ l, e.1 < N) :
    l.Perm ((List.range N).flatMap (fun i => l.filter (fun e => e.1 = i))) := by
  induction l with
  | nil =>
    have : ∀ ns : List Nat, ns.flatMap (fun _ => ([] : List (Nat × α))) = [] := by
      intro ns; induction ns with
      | nil => rfl
      | cons n ns ih => simp
    simp
  | cons a l ih =>
    have ih := ih (fun e he => h e (by simp [he]))
    have ha := h a (by simp)
    have key : ∀ N, (a.1 < N → (a :: (List.range N).flatMap (fun i => l.filter (fun e => e.1 = i))).Perm
          ((List.range N).flatMap (fun i => (a :: l).filter (fun e => e.1 = i)))) ∧
        (¬ a.1 < N → (List.range N).flatMap (fun i => (a :: l).filter (fun e => e.1 = i)) =
          (List.range N).flatMap (fun i => l.filter (fun e => e.1 = i))) := by
      intro N
      induction N with
      | zero => simp
      | succ N ihN =>
        constructor
        · intro hlt
          rw [List.range_succ, List.flatMap_append, List.flatMap_append]
          by_cases hN : a.1 < N
          · have hne : ¬ a.1 = N := by omega
            have := ihN.1 hN
            simp only [List.flatMap_cons, List.flatMap_nil, List.append_nil, List.filter_cons, hne,
              decide_false] at this ⊢
            exact this.append_right _
          · have he : a.1 = N := by omega
            rw [ihN.2 hN]
            simp only [List.flatMap_cons, List.flatMap_nil, List.append_nil]
            rw [show (a :: l).filter (fun e => decide (e.1 = N)) = a :: l.filter (fun e => decide (e.1 = N)) by
              simp [he]]
            exact List.perm_middle.symm
        · intro hge
          have hne : ¬ a.1 = N := by omega
          rw [List.range_succ, List.flatMap_append, List.flatMap_append, ihN.2 (by omega)]
          simp [hne]
    exact (ih.cons a).trans ((key N).1 ha)

/-- Steps keep `I`, and keep `Q` once it holds. -/
def Stable (I Q : S → Prop) {α : Type} : Prog S α → Prop
  | .ret _ => True
  | .act u k => ∀ s, I s → I (u s) ∧ (Q s → Q (u s)) ∧ Stable I Q (k s)

/-- By the time the program returns, `Q` holds (`b`: it is already known to hold). -/
def Ens (I Q : S → Prop) {α : Type} : Bool → Prog S α → Prop
  | b, .ret _ => b = true
  | b, .act u k => ∀ s, I s → (b = true → Q s) →
      ∃ b', (b = true → b' = true) ∧ (b' = true → Q (u s)) ∧ Ens I Q b' (k s)

/-- If every call keeps `I` and `Q`, and the target calls establish `Q`, then in every schedule
`Q` holds from the return of the first target call on. -/
theorem ensures_sound {P : Spec S Op Out} {ov : Bool} {I Q : S → Prop} {ok T : Op → Prop}
    (hp : ∀ op, ok op → Stable I Q (P.prog op)) (hT : ∀ op, T op → Ens I Q false (P.prog op))
    (ht : ∀ s s', P.tick s s' → (I s → I s') ∧ (Q s → Q s'))
    {s : S} (hs : I s) {calls : Nat → List Op} (hc : ∀ i, ∀ op ∈ calls i, ok op)
    {g : Config S Op Out} (h : Steps P ov (initial s calls) g) :
    I g.sh ∧ (∀ e ∈ g.log, T e.2.1 → Q g.sh) ∧
    (∀ i op p, (g.thr i).cur = some (op, p) → Stable I Q p ∧
      (T op → ∃ b, (b = true → Q g.sh) ∧ Ens I Q b p)) ∧
    (∀ i, ∀ op ∈ (g.thr i).todo, ok op) := by
  induction h with
  | refl => exact ⟨hs, by simp [initial], by simp [initial], by simpa [initial] using hc⟩
  | snoc _ st ih =>
    obtain ⟨h1, h2, h3, h4⟩ := ih
    have start : ∀ (g : Config S Op Out) (i : Nat) (op : Op) (rest : List Op),
        g.thr i = ⟨op :: rest, none⟩ →
        (∀ i op p, (g.thr i).cur = some (op, p) → Stable I Q p ∧
          (T op → ∃ b, (b = true → Q g.sh) ∧ Ens I Q b p)) →
        (∀ i, ∀ op ∈ (g.thr i).todo, ok op) →
        (∀ j op' p, (setThr g.thr i ⟨rest, some (op, P.prog op)⟩ j).cur = some (op', p) → Stable I Q p ∧
          (T op' → ∃ b, (b = true → Q g.sh) ∧ Ens I Q b p)) ∧
        (∀ j, ∀ op' ∈ (setThr g.thr i ⟨rest, some (op, P.prog op)⟩ j).todo, ok op') := by
      intro g i op rest hti h3 h4
      have hok := h4 i
      rw [hti] at hok
      constructor
      · intro j op' p hj
        by_cases e : j = i
        · subst e; simp at hj; obtain ⟨rfl, rfl⟩ := hj
          exact ⟨hp _ (hok _ (by simp)), fun hTo => ⟨false, by simp, hT _ hTo⟩⟩
        · rw [setThr_ne _ _ e] at hj; exact h3 j op' p hj
      · intro j op' hj
        by_cases e : j = i
        · subst e; simp at hj; exact hok _ (by simp [hj])
        · rw [setThr_ne _ _ e] at hj; exact h4 j op' hj
    cases st with
    | tick s' h =>
      have := ht _ _ h
      refine ⟨this.1 h1, fun e he hte => this.2 (h2 e he hte), ?_, h4⟩
      intro i op p hi
      obtain ⟨a, b⟩ := h3 i op p hi
      refine ⟨a, fun hTo => ?_⟩
      obtain ⟨d, d1, d2⟩ := b hTo
      exact ⟨d, fun hd => this.2 (d1 hd), d2⟩
    | startW i op rest hti hm hw hr => exact ⟨h1, h2, start _ i op rest hti h3 h4⟩
    | startR i op rest hti hm hw hr => exact ⟨h1, h2, start _ i op rest hti h3 h4⟩
    | startN i op rest hti hm => exact ⟨h1, h2, start _ i op rest hti h3 h4⟩
    | act i op todo u k hti =>
      obtain ⟨hk, hke⟩ := h3 i op _ (by rw [hti])
      obtain ⟨q1, q2, q3⟩ := hk _ h1
      refine ⟨q1, fun e he hte => q2 (h2 e he hte), ?_, ?_⟩
      · intro j op' p hj
        by_cases e : j = i
        · subst e; simp at hj; obtain ⟨rfl, rfl⟩ := hj
          refine ⟨q3, fun hTo => ?_⟩
          obtain ⟨b, b1, b2⟩ := hke hTo
          obtain ⟨b', c1, c2, c3⟩ := b2 _ h1 b1
          exact ⟨b', c2, c3⟩
        · simp only [setThr_ne _ _ e] at hj
          obtain ⟨a, b⟩ := h3 j op' p hj
          refine ⟨a, fun hTo => ?_⟩
          obtain ⟨d, d1, d2⟩ := b hTo
          exact ⟨d, fun hd => q2 (d1 hd), d2⟩
      · intro j op' hj
        by_cases e : j = i
        · subst e; simp at hj; exact h4 j op' (by rw [hti]; exact hj)
        · simp only [setThr_ne _ _ e] at hj; exact h4 j op' hj
    | fin i op todo o hti =>
      obtain ⟨_, hke⟩ := h3 i op (.ret o) (by rw [hti])
      refine ⟨h1, ?_, ?_, ?_⟩
      · intro e he hte
        simp at he
        rcases he with he | rfl
        · exact h2 e he hte
        · obtain ⟨b, b1, b2⟩ := hke hte
          exact b1 b2
      · intro j op' p hj
        by_cases e : j = i
        · subst e; simp at hj
        · simp only [setThr_ne _ _ e] at hj; exact h3 j op' p hj
      · intro j op' hj
        by_cases e : j = i
        · subst e; simp at hj; exact h4 j op' (by rw [hti]; exact hj)
        · simp only [setThr_ne _ _ e] at hj; exact h4 j op' hj

end Verif.Conc

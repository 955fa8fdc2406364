import Verif.Conc.RaceProofs
/-!
# No clash, no race
-/
namespace Verif.Conc.Race
open Verif
open Verif.Conc.Full (Cell Mem fmtCell cronCell Own Ext Held)

/-- What a call may touch. -/
def May (op : Call) : Perm := fun o n a =>
  match a.loc with
  | .length p => p < n ∧ ∃ b, sizeUse op = some (o p, b) ∧ (a.write = true → b = true)
  | _ => mapUse op = true ∧ (a.write = true → op = .flush)

theorem may_maps {op : Call} (h : mapUse op = true) : Maps (May op) :=
  ⟨fun _ _ => ⟨h, by simp⟩, fun _ _ => ⟨h, by simp⟩⟩

theorem may_lens {op : Call} {k : Bytes} {b : Bool} (h : sizeUse op = some (k, b)) : Lens (May op) k false :=
  fun _ _ _ hp => ⟨hp.1, b, by rw [hp.2]; exact h, by simp⟩

theorem may_counts {op : Call} {k : Bytes} (h : sizeUse op = some (k, true)) : Counts (May op) k :=
  ⟨may_lens h, fun _ _ _ hp => ⟨hp.1, true, by rw [hp.2]; exact h, by simp⟩⟩

/-- Every call touches only what it may. -/
theorem ok_prog (op : Call) (o : Own) (n : Nat) : Ok (May op) Any (prog op) o n := by
  cases op
  case hSet k f v =>
    exact ok_bind (ok_fetchP (may_maps rfl) o n (fun p o n hp => ok_bind (ok_setP (may_counts rfl) _ _ hp) (fun _ _ _ _ _ => ok_ret _ _ _)))
      (fun _ _ _ _ _ => ok_ret _ _ _)
  case hSetNX k f v =>
    refine ok_bind (ok_fetchP (may_maps rfl) o n (fun p o n hp => ok_bind (ok_field _ _ _ _ _) (fun b o n he _ => ?_)))
      (fun _ _ _ _ _ => ok_ret _ _ _)
    cases b
    · exact ok_bind (ok_lenAdd (may_counts rfl) 1 (hp.later he)) (fun _ _ _ _ _ => ok_ret _ _ _)
    · exact ok_ret _ _ _
  case hMSet k fv =>
    refine ok_bind (ok_fetchP (may_maps rfl) o n (fun p o n hp => ok_hMSetP p fv (fun h => ?_) 0 hp)) (fun _ _ _ _ _ => ok_ret _ _ _)
    cases fv with
    | nil => exact absurd rfl h
    | cons => exact may_counts rfl
  case hIncrBy k f i =>
    refine ok_bind (ok_fetchP (may_maps rfl) o n (fun p o n hp => ok_bind (ok_field _ _ _ _ _) (fun c o n he _ => ?_)))
      (fun _ _ _ _ _ => ok_ret _ _ _)
    have hp := hp.later he
    cases c with
    | none => exact ok_bind (ok_setP (may_counts rfl) _ _ hp) (fun _ _ _ _ _ => ok_ret _ _ _)
    | some v =>
      cases h : Cache.hIncrScalar i v <;> simp only [h]
      · exact ok_bind (ok_setP (may_counts rfl) _ _ hp) (fun _ _ _ _ _ => ok_ret _ _ _)
      · exact ok_ret _ _ _
      · exact ok_ret _ _ _
  case hIncrByFloat k f i =>
    refine ok_bind (ok_fetchP (may_maps rfl) o n (fun p o n hp => ok_bind (ok_field _ _ _ _ _) (fun c o n he _ => ?_)))
      (fun _ _ _ _ _ => ok_ret _ _ _)
    have hp := hp.later he
    cases c with
    | none => exact ok_bind (ok_setP (may_counts rfl) _ _ hp) (fun _ _ _ _ _ => ok_ret _ _ _)
    | some v =>
      cases h : Cache.hIncrFloatScalar i v <;> simp only [h]
      · exact ok_bind (ok_setP (may_counts rfl) _ _ hp) (fun _ _ _ _ _ => ok_ret _ _ _)
      · exact ok_ret _ _ _
      · exact ok_ret _ _ _
  case hExists k f =>
    exact ok_bind (ok_readP (may_maps rfl) o n (fun o n => ok_ret _ _ _) (fun p o n hp => ok_bind (ok_field _ _ _ _ _)
      (fun v o n he _ => ok_bind (ok_lenAdd (may_counts rfl) _ (hp.later he)) (fun _ _ _ _ _ => ok_ret _ _ _)))) (fun _ _ _ _ _ => ok_ret _ _ _)
  case hDel k fs =>
    refine ok_bind (ok_readP (may_maps rfl) o n (fun o n => ok_ret _ _ _) (fun p o n hp => ?_)) (fun _ _ _ _ _ => ok_ret _ _ _)
    cases fs with
    | nil => exact ok_ret _ _ _
    | cons f fs => exact ok_hDelP (k := k) (may_counts rfl) p _ 0 hp
  case hLen k =>
    exact ok_bind (ok_readP (may_maps rfl) o n (fun o n => ok_ret _ _ _) (fun p o n hp => ok_bind (ok_lenLoad (may_lens rfl) hp)
      (fun _ _ _ _ _ => ok_ret _ _ _))) (fun _ _ _ _ _ => ok_ret _ _ _)
  case hStrLen k f =>
    refine ok_bind (ok_readP (may_maps rfl) o n (fun o n => ok_ret _ _ _) (fun p o n hp => ok_bind (ok_field _ _ _ _ _) (fun c _ _ _ _ => ?_)))
      (fun _ _ _ _ _ => ok_ret _ _ _)
    cases c <;> exact ok_ret _ _ _
  case hGet k f =>
    refine ok_bind (ok_readP (may_maps rfl) o n (fun o n => ok_ret _ _ _) (fun p o n hp => ok_bind (ok_field _ _ _ _ _) (fun c _ _ _ _ => ?_)))
      (fun _ _ _ _ _ => ok_ret _ _ _)
    cases c <;> exact ok_ret _ _ _
  case hMGet k fs =>
    exact ok_bind (ok_readP (may_maps rfl) o n (fun o n => ok_bind (ok_hMGetP _ _ _ _) (fun _ _ _ _ _ => ok_ret _ _ _))
      (fun p o n hp => ok_bind (ok_hMGetP _ _ _ _) (fun _ _ _ _ _ => ok_ret _ _ _))) (fun _ _ _ _ _ => ok_ret _ _ _)
  case hKeys k =>
    exact ok_bind (ok_readP (may_maps rfl) o n (fun o n => ok_ret _ _ _) (fun p o n hp => ok_bind (ok_field _ _ _ _ _)
      (fun ns _ _ _ _ => ok_bind (ok_hKeysP _ _ _ _) (fun _ _ _ _ _ => ok_ret _ _ _)))) (fun _ _ _ _ _ => ok_ret _ _ _)
  case hVals k =>
    exact ok_bind (ok_readP (may_maps rfl) o n (fun o n => ok_ret _ _ _) (fun p o n hp => ok_bind (ok_field _ _ _ _ _)
      (fun ns _ _ _ _ => ok_bind (ok_hValsP _ _ _ _) (fun _ _ _ _ _ => ok_ret _ _ _)))) (fun _ _ _ _ _ => ok_ret _ _ _)
  case hGetAll k =>
    exact ok_bind (ok_readP (may_maps rfl) o n (fun o n => ok_ret _ _ _) (fun p o n hp => ok_bind (ok_field _ _ _ _ _)
      (fun ns _ _ _ _ => ok_hGetAllP _ _ _ _))) (fun _ _ _ _ _ => ok_ret _ _ _)
  case mSet kv =>
    cases kv with
    | nil => exact ok_ret _ _ _
    | cons => exact ok_bind (ok_mSetP (may_maps rfl) _ _ _) (fun _ _ _ _ _ => ok_ret _ _ _)
  case mSetNX kv =>
    cases kv with
    | nil => exact ok_ret _ _ _
    | cons => exact ok_bind (ok_mSetNXP (may_maps rfl) _ _ _ _) (fun _ _ _ _ _ => ok_ret _ _ _)
  case mGet ks =>
    cases ks with
    | nil => exact ok_ret _ _ _
    | cons => exact ok_bind (ok_mGetP (may_maps rfl) _ _ _) (fun _ _ _ _ _ => ok_ret _ _ _)
  case exists_ ks =>
    cases ks with
    | nil => exact ok_ret _ _ _
    | cons => exact ok_bind (ok_existsP (may_maps rfl) _ _ _ _) (fun _ _ _ _ _ => ok_ret _ _ _)
  case incr k => exact ok_bind (ok_incrByP (may_maps rfl) k _ _ _) (fun _ _ _ _ _ => ok_ret _ _ _)
  case incrBy k n => exact ok_bind (ok_incrByP (may_maps rfl) k _ _ _) (fun _ _ _ _ _ => ok_ret _ _ _)
  case decr k => exact ok_bind (ok_incrByP (may_maps rfl) k _ _ _) (fun _ _ _ _ _ => ok_ret _ _ _)
  case decrBy k n => exact ok_bind (ok_incrByP (may_maps rfl) k _ _ _) (fun _ _ _ _ _ => ok_ret _ _ _)
  case set k v => exact ok_bind (ok_storeData (may_maps rfl) _ _ _ _) (fun _ _ _ _ _ => ok_ret _ _ _)
  case setNX k v =>
    refine ok_bind (ok_loadOrStore (may_maps rfl) _ _ _ _) (fun c _ _ _ _ => ?_)
    cases c <;> exact ok_ret _ _ _
  case setEX k v n =>
    exact ok_bind (ok_storeData (may_maps rfl) _ _ _ _) (fun _ _ _ _ _ => ok_bind (ok_expiresP (may_maps rfl) k _ _ _) (fun _ _ _ _ _ => ok_ret _ _ _))
  case pSetEX k v n =>
    exact ok_bind (ok_storeData (may_maps rfl) _ _ _ _) (fun _ _ _ _ _ => ok_bind (ok_expiresP (may_maps rfl) k _ _ _) (fun _ _ _ _ _ => ok_ret _ _ _))
  case get k =>
    refine ok_bind (ok_getP (may_maps rfl) _ _ _) (fun c _ _ _ _ => ?_)
    cases c <;> exact ok_ret _ _ _
  case getSet k v =>
    refine ok_bind (ok_getP (may_maps rfl) _ _ _) (fun c _ _ _ _ => ok_bind (ok_storeData (may_maps rfl) _ _ _ _) (fun _ _ _ _ _ => ?_))
    cases c <;> exact ok_ret _ _ _
  case strLen k =>
    refine ok_bind (ok_getP (may_maps rfl) _ _ _) (fun c _ _ _ _ => ?_)
    cases c <;> exact ok_ret _ _ _
  case append k v =>
    refine ok_bind (ok_getP (may_maps rfl) _ _ _) (fun c o n _ _ => ?_)
    cases c with
    | none => exact ok_bind (ok_storeData (may_maps rfl) _ _ _ _) (fun _ _ _ _ _ => ok_ret _ _ _)
    | some x =>
      cases h : fmtCell x <;> simp only [h]
      · exact ok_bind (ok_storeData (may_maps rfl) _ _ _ _) (fun _ _ _ _ _ => ok_ret _ _ _)
      · exact ok_ret _ _ _
      · exact ok_ret _ _ _
  case setRange k pos r =>
    simp only [prog]
    split
    · exact ok_ret _ _ _
    refine ok_bind (ok_getP (may_maps rfl) _ _ _) (fun c o n _ _ => ?_)
    cases c with
    | none =>
      simp only
      split
      · exact ok_ret _ _ _
      · exact ok_bind (ok_storeData (may_maps rfl) _ _ _ _) (fun _ _ _ _ _ => ok_ret _ _ _)
    | some x =>
      cases h : fmtCell x <;> simp only [h]
      · split
        · exact ok_ret _ _ _
        · exact ok_bind (ok_storeData (may_maps rfl) _ _ _ _) (fun _ _ _ _ _ => ok_ret _ _ _)
      · exact ok_ret _ _ _
      · exact ok_ret _ _ _
  case getRange k a b =>
    refine ok_bind (ok_getP (may_maps rfl) _ _ _) (fun c _ _ _ _ => ?_)
    cases c <;> exact ok_ret _ _ _
  case incrByFloat k x =>
    refine ok_bind (ok_loadOrStore (may_maps rfl) _ _ _ _) (fun c _ _ _ _ => ?_)
    rcases c with _ | (v | p | t)
    · exact ok_ret _ _ _
    · cases v <;> first | exact ok_ret _ _ _ | exact ok_bind (ok_storeData (may_maps rfl) _ _ _ _) (fun _ _ _ _ _ => ok_ret _ _ _)
    · exact ok_ret _ _ _
    · exact ok_ret _ _ _
  case del k =>
    exact ok_bind (ok_getP (may_maps rfl) _ _ _) (fun c _ _ _ _ => ok_bind (ok_delData (may_maps rfl) _ _ _) (fun _ _ _ _ _ =>
      ok_bind (ok_delExp (may_maps rfl) _ _ _) (fun _ _ _ _ _ => ok_ret _ _ _)))
  case flush =>
    exact ok_bind (R := Any) (ok_prim (fun _ _ _ x hx => by simp at hx; subst hx; exact ⟨rfl, fun _ => rfl⟩) (fun _ => rfl)
      (fun _ _ _ h => by cases h) (fun _ _ _ _ _ _ => trivial)) (fun _ _ _ _ _ =>
      ok_bind (R := Any) (ok_prim (fun _ _ _ x hx => by simp at hx; subst hx; exact ⟨rfl, fun _ => rfl⟩) (fun _ => rfl)
        (fun _ _ _ h => h) (fun _ _ _ _ _ _ => trivial)) (fun _ _ _ _ _ => ok_ret _ _ _))
  case type k =>
    refine ok_bind (ok_getP (may_maps rfl) _ _ _) (fun c _ _ _ _ => ?_)
    cases c <;> exact ok_ret _ _ _
  case list n => exact ok_ret _ _ _
  case cronTick =>
    exact ok_bind (R := Any) (ok_prim (fun _ _ _ x hx => by
        simp at hx
        rcases hx with rfl | rfl <;> exact ⟨rfl, by simp⟩) (fun _ => rfl)
      (fun _ _ _ h => Full.cron_sub h) (fun _ _ _ _ _ _ => trivial)) (fun _ _ _ _ _ => ok_ret _ _ _)

/-- The state along a run. -/
structure Inv (calls : Nat → List Call) (o : Own) (g : Cfg) : Prop where
  refs : Refs o g.sh.mem
  cur : ∀ i op p, (g.thr i).cur = some (op, p) → op ∈ calls i ∧ Ok (May op) Any p o g.sh.mem.next
  todo : ∀ i, ∀ op ∈ (g.thr i).todo, op ∈ calls i

theorem inv_act {calls : Nat → List Call} {o : Own} {g g' : Cfg} (h : Inv calls o g) {i : Nat} (ha : Acts i g g') :
    ∃ o' op p, Ext o g.sh.mem.next o' g'.sh.mem.next ∧ Inv calls o' g' ∧ op ∈ calls i ∧
      (g'.thr i).cur = some (op, p) ∧ (∀ a ∈ g'.sh.acc, May op o' g'.sh.mem.next a) := by
  cases ha with
  | mk op todo u k ht =>
    obtain ⟨hm, hk⟩ := h.cur i op _ (by rw [ht])
    obtain ⟨o', e1, e2, e3, e4⟩ := hk g.sh o (.refl _ _) h.refs
    refine ⟨o', op, k g.sh, e1, ⟨e2, ?_, ?_⟩, hm, by simp, e3⟩
    · intro j op' p hj
      rcases cur_start hj with ⟨rfl, hh⟩ | ⟨hne, hh⟩
      · cases hh; exact ⟨hm, e4⟩
      · exact ⟨(h.cur j op' p hh).1, (h.cur j op' p hh).2.later e1⟩
    · intro j op' hj
      by_cases e : j = i
      · subst e; simp at hj; exact h.todo j op' (by rw [ht]; exact hj)
      · simp only [setThr_ne _ _ e] at hj; exact h.todo j op' hj

theorem inv_start {calls : Nat → List Call} {o : Own} {g : Cfg} (h : Inv calls o g) {i : Nat} {op : Call} {rest : List Call}
    (ht : g.thr i = ⟨op :: rest, none⟩) :
    (∀ j a p, (setThr g.thr i ⟨rest, some (op, spec.prog op)⟩ j).cur = some (a, p) → a ∈ calls j ∧ Ok (May a) Any p o g.sh.mem.next) ∧
    (∀ j, ∀ a ∈ (setThr g.thr i ⟨rest, some (op, spec.prog op)⟩ j).todo, a ∈ calls j) := by
  constructor
  · intro j a p hj
    rcases cur_start hj with ⟨rfl, hh⟩ | ⟨hne, hh⟩
    · cases hh; exact ⟨h.todo _ _ (by rw [ht]; simp), ok_prog op _ _⟩
    · exact h.cur j a p hh
  · intro j a hj
    by_cases e : j = i
    · subst e; simp at hj; exact h.todo j a (by rw [ht]; simp [hj])
    · simp only [setThr_ne _ _ e] at hj; exact h.todo j a hj

theorem inv_steps {calls : Nat → List Call} {v : Mem} {o : Own} (hv : Refs o v) {ov : Bool} {g : Cfg} (h : Steps spec ov (start v calls) g) :
    ∃ o, Inv calls o g := by
  induction h with
  | refl => exact ⟨o, hv, by simp [start, initial], by simp [start, initial]⟩
  | snoc _ st ih =>
    rename_i g1 g2 hs
    obtain ⟨o, ih⟩ := ih
    cases st with
    | tick s' ht =>
      obtain ⟨n, _, rfl⟩ := ht
      exact ⟨o, ih.refs, ih.cur, ih.todo⟩
    | startW i op rest ht hm hw hr => exact ⟨o, ih.refs, (inv_start ih ht).1, (inv_start ih ht).2⟩
    | startR i op rest ht hm hw hr => exact ⟨o, ih.refs, (inv_start ih ht).1, (inv_start ih ht).2⟩
    | startN i op rest ht hm => exact ⟨o, ih.refs, (inv_start ih ht).1, (inv_start ih ht).2⟩
    | act i op todo u k ht =>
      obtain ⟨o', _, _, _, h2, _⟩ := inv_act ih (.mk g1 op todo u k ht)
      exact ⟨o', h2⟩
    | fin i op todo a ht =>
      refine ⟨o, ih.refs, ?_, ?_⟩
      · intro j op' p hj
        rcases cur_start hj with ⟨rfl, hh⟩ | ⟨hne, hh⟩
        · cases hh
        · exact ih.cur j op' p hh
      · intro j op' hj
        by_cases e : j = i
        · subst e; simp at hj; exact ih.todo j op' (by rw [ht]; exact hj)
        · simp only [setThr_ne _ _ e] at hj; exact ih.todo j op' hj

theorem refs_of_wf {v : Mem} (hv : v.WF) : ∃ o, Refs o v := by
  classical
  refine ⟨fun p => if h : ∃ k, v.data k = some (.ref p) then h.choose else [], fun k p h => ⟨hv.alloc k p h, ?_⟩⟩
  have he : ∃ k, v.data k = some (.ref p) := ⟨k, h⟩
  simp only [he, dif_pos]
  exact hv.inj _ _ _ he.choose_spec h

/-- Two calls that are in progress at the same time, one of them under the write lock: the other one
takes no lock. -/
theorem write_excludes {g : Cfg} (hl : Locks spec g) {i j : Nat} (hne : i ≠ j) {a b : Call} {p q : GP Out}
    (hi : (g.thr i).cur = some (a, p)) (hj : (g.thr j).cur = some (b, q)) (ha : Full.mode a = .write) : bare b = true := by
  have hw := hl.write i a p hi ha
  cases hb : Full.mode b with
  | write =>
    have := (hl.write j b q hj hb).1
    rw [hw.1] at this
    cases this
    exact absurd rfl hne
  | read =>
    have := (hl.read j b q hj hb).1
    rw [hw.1] at this
    cases this
  | unlocked => simp [bare, hb]
  | unsupported => cases b <;> simp [Full.mode] at hb

theorem no_race {v : Mem} (hv : v.WF) {calls : Nat → List Call}
    (hc : ∀ i j, i ≠ j → ∀ a ∈ calls i, ∀ b ∈ calls j, ¬ Clash a b) : ¬ HasRace (start v calls) := by
  rintro ⟨g, g1, g2, i, j, a, b, hs, h1, h2, hne, ha, hb, hloc, hwr⟩
  obtain ⟨o, ho⟩ := refs_of_wf hv
  obtain ⟨o, inv⟩ := inv_steps ho hs
  obtain ⟨o1, opi, p1, e1, inv1, mi, ci, Ui⟩ := inv_act inv h1
  obtain ⟨o2, opj, p2, e2, inv2, mj, cj, Uj⟩ := inv_act inv1 h2
  have hl1 : Locks spec g1 := by
    refine locks_steps (hs.trans (.snoc .refl ?_))
    cases h1 with
    | mk op todo u k ht => exact .act g i op todo u k ht
  obtain ⟨p2', cj1⟩ : ∃ p, (g1.thr j).cur = some (opj, p) := by
    cases h2 with
    | mk op todo u k ht =>
      simp at cj
      obtain ⟨rfl, _⟩ := cj
      exact ⟨_, by rw [ht]⟩
  have Ua := Ui a ha
  have Ub := Uj b hb
  refine hc i j hne opi mi opj mj ?_
  obtain ⟨la, wa⟩ := a
  obtain ⟨lb, wb⟩ := b
  simp only at hloc hwr
  subst hloc
  have dict : (mapUse opi = true ∧ (wa = true → opi = .flush)) → (mapUse opj = true ∧ (wb = true → opj = .flush)) → Clash opi opj := by
    rintro ⟨m1, w1⟩ ⟨m2, w2⟩
    rcases hwr with h | h
    · have e := w1 h
      exact .inl ⟨e, write_excludes hl1 hne ci cj1 (by rw [e]; rfl), m2⟩
    · have e := w2 h
      exact .inr (.inl ⟨e, write_excludes hl1 (Ne.symm hne) cj1 ci (by rw [e]; rfl), m1⟩)
  cases la with
  | dataDict => exact dict Ua Ub
  | expiresDict => exact dict Ua Ub
  | length p =>
    obtain ⟨hp, x, s1, w1⟩ := Ua
    obtain ⟨_, y, s2, w2⟩ := Ub
    rw [e2.own p hp] at s2
    exact .inr (.inr ⟨o1 p, x, y, s1, s2, hwr.imp w1 w2⟩)

end Verif.Conc.Race

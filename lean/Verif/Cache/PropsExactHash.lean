import Verif.Cache.PropsExact
/-!
# Exactly where the hash properties hold
-/
namespace Verif
open Cache

/-- C29, exactly: the calls that panic. -/
theorem C29_exact (c : Cache) (t : Int) (op : Call) :
    (exec c t op).2.panicked = true ↔
      ((∃ k, op = .list k) ∨ (∃ k, (op = .hKeys k ∨ op = .hVals k ∨ op = .hGetAll k) ∧ liveVal c t k = none) ∨
        ∃ k p r, op = .setRange k p r ∧ maxAlloc < p.toInt ∧ ∃ s, textAt c t k = .ok s) := by
  constructor
  · intro hp
    false_or_by_contra
    rename_i hn
    rw [C29_no_panic_partial c t op (fun k e => hn (.inl ⟨k, e⟩)) (fun k e h => hn (.inr (.inl ⟨k, e, h⟩)))
      (fun k p r e hm s hs => hn (.inr (.inr ⟨k, p, r, e, hm, s, hs⟩)))] at hp
    cases hp
  · rintro (⟨k, rfl⟩ | ⟨k, rfl | rfl | rfl, h⟩ | ⟨k, p, r, rfl, hm, s, hs⟩)
    · rfl
    · simp [exec, hKeys, readHash_snd, h, asHash, GoRes.bind, Out.panicked]
    · simp [exec, hVals, readHash_snd, h, asHash, GoRes.bind, Out.panicked]
    · simp [exec, hGetAll, readHash_snd, h, asHash, GoRes.bind, Out.panicked]
    · rw [(C13_violated_huge c k r s p t hm hs).1]; rfl

/-- C30, exactly, for HSetNX that stores: HGet shows what HSet would have made it show if and only if
the text is its own canonical text. -/
theorem C30_exact_hSetNX (c : Cache) (hc : Reachable c) (k f v : Bytes) (s t : Int) (h : History)
    (hk : HashKey c s k) (hd : NotPassed c t k ∨ Stale c s k) (hn : hgetOut c s k f = .str (.err .keyNil))
    (hw : NoFieldWrite k f h) (hu : Until t h) :
    hgetOut (run (exec c s (.hSetNX k f v)).1 h) t k f = hgetOut (run (exec c s (.hSet k f v)).1 h) t k f ↔
      canon v = v := by
  rw [((C32_hSetNX c hc k f v s t h hk hd hw hu).1 hn).2, (C30_hSet_hGet c hc k f v s t h hk hd hw hu).1]
  simp [eq_comm]

/-- C34, exactly: after HIncrBy on an integer field, HGet shows the answer of the call if and only if
the field held 0. -/
theorem C34_exact (c : Cache) (hc : Reachable c) (k f : Bytes) (old n : Int64) (s t : Int) (h : History)
    (hold : hview c s k f = .ok (some (.int old))) (hd : NotPassed c t k ∨ Stale c s k)
    (hw : NoFieldWrite k f h) (hu : Until t h) :
    (exec c s (.hIncrBy k f n)).2 = .int (.ok (old + n).toInt) ∧
    hgetOut (run (exec c s (.hIncrBy k f n)).1 h) t k f = .str (.ok (itoa n)) ∧
    (hgetOut (run (exec c s (.hIncrBy k f n)).1 h) t k f = .str (.ok (itoa (old + n))) ↔ old = 0) := by
  have hk : HashKey c s k := by
    unfold hview at hold
    cases ho : asHash (liveVal c s k) with
    | ok o => exact ⟨o, ho⟩
    | err e => rw [ho] at hold; simp [GoRes.map, GoRes.bind] at hold
    | panic => rw [ho] at hold; simp [GoRes.map, GoRes.bind] at hold
  obtain ⟨h1, _, h3⟩ := C34_hIncrBy_partial c hc k f n s t h hk hd hw hu
  have h3 := h3 (.inr ⟨old, hold⟩)
  refine ⟨h1 old hold, h3, ?_⟩
  rw [h3]
  constructor
  · intro e
    injection e with e; injection e with e
    have e := itoa_inj e
    have : old + n = 0 + n := by rw [Int64.zero_add]; exact e.symm
    exact (Int64.add_left_inj n).1 this
  · rintro rfl; rw [Int64.zero_add]

/-- C34, the rejections: HIncrBy answers an error exactly on a field that is neither absent, an
integer, nor the empty text. -/
theorem C34_exact_error (c : Cache) (hc : Reachable c) (k f : Bytes) (n : Int64) (s : Int) (v : Scalar)
    (hv : hview c s k f = .ok (some v)) :
    (exec c s (.hIncrBy k f n)).2 = match v with
      | .int old => .int (.ok (old + n).toInt)
      | .str u => if u = [] then .int (.ok n.toInt) else .int (.err .hashNotFloat)
      | _ => .int (.err .hashNotFloat) := by
  unfold hview at hv
  cases ho : asHash (liveVal c s k) with
  | err e => rw [ho] at hv; simp [GoRes.map, GoRes.bind] at hv
  | panic => rw [ho] at hv; simp [GoRes.map, GoRes.bind] at hv
  | ok o =>
    rw [ho] at hv
    cases o with
    | none => simp [GoRes.map, GoRes.bind] at hv
    | some e =>
      simp only [GoRes.map, GoRes.bind, Option.bind, GoRes.ok.injEq] at hv
      have hg := (hc.inv.asHash ho).kinds (f, v) (hfind_mem hv)
      simp only [exec, hIncrBy, withHash_snd, ho, GoRes.bind, Option.getD_some, hv]
      cases hg with
      | str u => by_cases hu : u = [] <;> simp [hIncrScalar, hu, GoRes.map, GoRes.bind]
      | int m => simp [hIncrScalar, GoRes.map, GoRes.bind]
      | float x => simp [hIncrScalar, GoRes.map, GoRes.bind]

/-- The text of a text field. -/
def textField : Bytes × Scalar → Option Bytes
  | (_, .str s) => some s
  | _ => none

/-- C37, exactly: HVals lists the values of the text fields, in the order of HKeys, and drops the
numbers; so it lists one value per field if and only if no field holds a number. -/
theorem C37_exact_hVals (c : Cache) (k : Bytes) (t : Int) (e : HashEntry) (he : liveVal c t k = some (.hash e)) :
    ∃ ks vs, hkeysOut c t k = .strs (.ok ks) ∧ (exec c t (.hVals k)).2 = .strs (.ok vs) ∧
      (vs.length = ks.length ↔ ∀ p ∈ e.fields, ∃ u, p.2 = .str u) := by
  have ho : asHash (liveVal c t k) = .ok (some e) := by rw [he]; rfl
  have hvals : (exec c t (.hVals k)).2 = .strs (.ok (e.fields.filterMap textField)) := by
    simp only [exec, hVals, readHash_snd, ho, GoRes.bind]
    refine congrArg (fun l => Out.strs (.ok l)) (?_ : List.filterMap _ _ = List.filterMap _ _)
    congr 1
    funext p
    obtain ⟨f, v⟩ := p
    cases v <;> rfl
  refine ⟨e.fields.map (·.1), _, by rw [hkeysOut_eq, ho]; rfl, hvals, ?_⟩
  rw [List.length_map]
  generalize e.fields = l
  induction l with
  | nil => simp
  | cons p l ih =>
    have hle := List.length_filterMap_le textField l
    simp only [List.forall_mem_cons, List.length_cons]
    rw [List.filterMap_cons]
    obtain ⟨f, v⟩ := p
    cases v with
    | str u => simp only [textField, List.length_cons]; rw [← ih]; simp
    | _ =>
      simp only [textField]
      constructor
      · intro h; omega
      · rintro ⟨⟨u, hu⟩, _⟩; cases hu

/-! ## C31: what HLen answers, in every history -/

/-- Fields of the entry minus the recorded length. -/
def lost (e : HashEntry) : Int := e.fields.length - e.length

/-- 1 for an HExists of `k` that answered 1. -/
def hitOf (k : Bytes) (op : Call) (o : Out) : Int :=
  match op with
  | .hExists j _ => if j = k ∧ o = .int (.ok 1) then 1 else 0
  | _ => 0

/-- The number of HExists calls on `k` that answered 1 since `k` last held no hash. -/
def hitsSince (k : Bytes) : Cache → Int → History → Int
  | _, n, [] => n
  | c, n, (t, op) :: h =>
    hitsSince k (exec c t op).1
      (if asHash (liveVal c t k) = .ok none then 0 else n + hitOf k op (exec c t op).2) h

theorem lost_set (e : HashEntry) (f v : Bytes) : lost (e.set f v).1 = lost e := by
  simp only [lost, HashEntry.set, hput_length]
  split <;> simp <;> omega

theorem lost_hMSetLoop (fv : List (Bytes × Bytes)) (e : HashEntry) (n : Int) : lost (hMSetLoop fv e n).1 = lost e := by
  induction fv generalizing e n with
  | nil => rfl
  | cons p fv ih => obtain ⟨f, v⟩ := p; exact (ih _ _).trans (lost_set e f v)

theorem liveVal_mono {c : Cache} {t t' : Int} {k : Bytes} {v : Val} (h : liveVal c t' k = some v) (ht : t ≤ t') :
    liveVal c t k = some v := by
  unfold liveVal at h ⊢
  cases hd : c.data k with
  | none => rw [hd] at h; cases h
  | some w =>
    rw [hd] at h
    cases he : c.exp k with
    | none => rw [he] at h; simpa using h
    | some d =>
      rw [he] at h
      simp only at h ⊢
      split at h
      · cases h
      · rw [if_neg (by omega)]; exact h

/-- What is live in `k` after an update of the entry. -/
theorem lost_store {c : Cache} {t t' : Int} {k : Bytes} {e e' : HashEntry}
    (h : liveVal ((c.load t k).1.store k (.hash e)) t' k = some (.hash e')) : e' = e := by
  have := data_of_live h
  simp [store] at this
  exact this.symm

theorem not_scalar_hash {c : Cache} {t' : Int} {k : Bytes} {v : Scalar} {e' : HashEntry}
    (h : liveVal (c.store k (.scalar v)) t' k = some (.hash e')) : False := by
  have := data_of_live h
  simp [store] at this

theorem lost_exec (c : Cache) {t t' : Int} (hz : zeroTime < t) (ht : t ≤ t') (op : Call) (k : Bytes) (e' : HashEntry)
    (h : liveVal (exec c t op).1 t' k = some (.hash e')) :
    (∃ e, liveVal c t k = some (.hash e) ∧ lost e' = lost e + hitOf k op (exec c t op).2) ∨
    (asHash (liveVal c t k) = .ok none ∧ lost e' = 0) := by
  have same : liveVal c t' k = some (.hash e') → hitOf k op (exec c t op).2 = 0 →
      ∃ e, liveVal c t k = some (.hash e) ∧ lost e' = lost e + hitOf k op (exec c t op).2 :=
    fun h1 h2 => ⟨e', liveVal_mono h1 ht, by rw [h2]; omega⟩
  have loaded : liveVal (c.load t k).1 t' k = some (.hash e') → hitOf k op (exec c t op).2 = 0 →
      ∃ e, liveVal c t k = some (.hash e) ∧ lost e' = lost e + hitOf k op (exec c t op).2 :=
    fun h1 h2 => same (by rwa [liveVal_load _ _ _ ht] at h1) h2
  have upd : ∀ {α : Type} (g : HashEntry → HashEntry × Res α), hitOf k op (exec c t op).2 = 0 →
      (∀ e, lost (g e).1 = lost e) → liveVal (c.withHash t k g).1 t' k = some (.hash e') →
      (∃ e, liveVal c t k = some (.hash e) ∧ lost e' = lost e + hitOf k op (exec c t op).2) ∨
      (asHash (liveVal c t k) = .ok none ∧ lost e' = 0) := by
    intro α g h0 hg hl
    rw [withHash_fst] at hl
    split at hl
    · rename_i o ho
      have := lost_store hl
      subst this
      cases o with
      | none => exact .inr ⟨ho, by rw [hg]; rfl⟩
      | some e =>
        left
        refine ⟨e, ?_, by rw [hg, h0]; simp⟩
        rcases hv : liveVal c t k with _ | (_ | _ | _) <;> rw [hv] at ho <;> simp [asHash] at ho
        subst ho; rfl
    · exact .inl (loaded hl h0)
  by_cases hw : op.writes k = false
  · rw [liveVal_exec_of_not_writes c op k hw ht] at h
    refine .inl (same h ?_)
    cases op <;> simp [hitOf]
    simp [Call.writes] at hw
    simp [hw]
  · cases op with
    | set j v => simp [Call.writes] at hw; subst hw; exact (not_scalar_hash h).elim
    | setNX j v =>
      simp [Call.writes] at hw; subst hw
      simp only [exec, setNX] at h
      split at h
      · exact .inl (same h rfl)
      · exact (not_scalar_hash h).elim
    | setEX j v n =>
      simp [Call.writes] at hw; subst hw
      have := data_of_live h
      simp only [exec, Cache.setEX, expires] at this
      split at this <;> simp [store] at this
    | pSetEX j v n =>
      simp [Call.writes] at hw; subst hw
      have := data_of_live h
      simp only [exec, Cache.pSetEX, expires] at this
      split at this <;> simp [store] at this
    | getSet j v =>
      simp [Call.writes] at hw; subst hw
      simp only [exec, getSet_fst] at h
      exact (not_scalar_hash h).elim
    | append j v =>
      simp [Call.writes] at hw; subst hw
      simp only [exec, append_fst] at h
      split at h
      · exact (not_scalar_hash h).elim
      · split at h
        · exact (not_scalar_hash h).elim
        · exact .inl (loaded h rfl)
    | setRange j p r =>
      simp [Call.writes] at hw; subst hw
      simp only [exec, setRange_fst] at h
      split at h
      · exact .inl (same h rfl)
      · split at h
        · split at h
          · exact .inl (loaded h rfl)
          · exact (not_scalar_hash h).elim
        · split at h
          · split at h
            · exact .inl (loaded h rfl)
            · exact (not_scalar_hash h).elim
          · exact .inl (loaded h rfl)
    | incr j =>
      simp [Call.writes] at hw; subst hw
      simp only [exec, incr] at h
      rcases incrBy_fst_form c j 1 with e | ⟨v, e⟩ <;> rw [e] at h <;>
        first | exact .inl (same h rfl) | exact (not_scalar_hash h).elim
    | incrBy j n =>
      simp [Call.writes] at hw; subst hw
      simp only [exec] at h
      rcases incrBy_fst_form c j n with e | ⟨v, e⟩ <;> rw [e] at h <;>
        first | exact .inl (same h rfl) | exact (not_scalar_hash h).elim
    | decr j =>
      simp [Call.writes] at hw; subst hw
      simp only [exec, decr] at h
      rcases incrBy_fst_form c j (-1) with e | ⟨v, e⟩ <;> rw [e] at h <;>
        first | exact .inl (same h rfl) | exact (not_scalar_hash h).elim
    | decrBy j n =>
      simp [Call.writes] at hw; subst hw
      simp only [exec, decrBy] at h
      rcases incrBy_fst_form c j (-n) with e | ⟨v, e⟩ <;> rw [e] at h <;>
        first | exact .inl (same h rfl) | exact (not_scalar_hash h).elim
    | incrByFloat j x =>
      simp [Call.writes] at hw; subst hw
      simp only [exec] at h
      rcases incrByFloat_fst_form c j x with e | ⟨v, e⟩ <;> rw [e] at h <;>
        first | exact .inl (same h rfl) | exact (not_scalar_hash h).elim
    | mSet kv =>
      simp only [exec, mSet] at h
      suffices H : ∀ (kv : List (Bytes × Bytes)) (d : Cache),
          liveVal (kv.foldl (fun c p => c.store p.1 (.scalar (tryInt64 p.2))) d) t' k = some (.hash e') →
          liveVal d t' k = some (.hash e') by exact .inl (same (H kv c h) rfl)
      intro kv
      induction kv with
      | nil => exact fun d h => h
      | cons p kv ih =>
        intro d h
        have h1 := ih _ h
        by_cases ek : k = p.1
        · subst ek; exact (not_scalar_hash h1).elim
        · rwa [liveVal_congr (sameAt_store ek)] at h1
    | mSetNX kv =>
      simp only [exec, mSetNX] at h
      suffices H : ∀ (kv : List (Bytes × Bytes)) (d : Cache) (n : Int),
          liveVal (mSetNXLoop d kv n).1 t' k = some (.hash e') →
          liveVal d t' k = some (.hash e') by exact .inl (same (H kv c _ h) rfl)
      intro kv
      induction kv with
      | nil => exact fun d n h => h
      | cons p kv ih =>
        intro d n h
        obtain ⟨j, v⟩ := p
        simp only [mSetNXLoop] at h
        split at h
        · exact ih _ _ h
        · have h1 := ih _ _ h
          by_cases ek : k = j
          · subst ek; exact (not_scalar_hash h1).elim
          · rwa [liveVal_congr (sameAt_store ek)] at h1
    | del j =>
      simp [Call.writes] at hw; subst hw
      have := data_of_live h
      simp [exec, del] at this
    | flush => simp [exec, Cache.flush, Cache.new, liveVal] at h
    | cronTick =>
      have := data_of_live h
      simp only [exec, cronTick] at this
      cases hd : c.data k with
      | none => simp [hd] at this
      | some w =>
        simp only [hd, cronEntry] at this
        cases w <;> simp at this <;> split at this <;> simp_all
    | hSet j f v =>
      simp [Call.writes] at hw; subst hw
      simp only [exec, hSet] at h
      exact upd _ rfl (fun e => lost_set e f v) h
    | hSetNX j f v =>
      simp [Call.writes] at hw; subst hw
      simp only [exec, hSetNX] at h
      refine upd _ rfl (fun e => ?_) h
      split
      · rfl
      · rename_i hn; simp [lost, hput_length, hn]; omega
    | hIncrBy j f n =>
      simp [Call.writes] at hw; subst hw
      simp only [exec, hIncrBy] at h
      refine upd _ rfl (fun e => ?_) h
      split
      · exact lost_set e _ _
      · split
        · exact lost_set e _ _
        · rfl
    | hIncrByFloat j f n =>
      simp [Call.writes] at hw; subst hw
      simp only [exec, hIncrByFloat] at h
      refine upd _ rfl (fun e => ?_) h
      split
      · exact lost_set e _ _
      · split
        · exact lost_set e _ _
        · rfl
    | hMSet j fv =>
      simp [Call.writes] at hw; subst hw
      simp only [exec, hMSet] at h
      exact upd _ rfl (fun e => lost_hMSetLoop fv e 0) h
    | hDel j fs =>
      simp [Call.writes] at hw; subst hw
      simp only [exec, hDel_fst] at h
      split at h
      · rename_i e he
        have := lost_store h
        subst this
        left
        refine ⟨e, ?_, ?_⟩
        · rcases hv : liveVal c t j with _ | (_ | _ | _) <;> rw [hv] at he <;> simp [asHash] at he
          subst he; rfl
        · have h2 := hDelLoop_length fs e.fields 0
          simp only [lost, hitOf]
          split <;> omega
      · exact .inl (loaded h rfl)
    | hExists j f =>
      simp [Call.writes] at hw; subst hw
      simp only [exec, hExists_fst] at h
      split at h
      · rename_i e he
        have := lost_store h
        subst this
        left
        refine ⟨e, ?_, ?_⟩
        · rcases hv : liveVal c t j with _ | (_ | _ | _) <;> rw [hv] at he <;> simp [asHash] at he
          subst he; rfl
        · have hs : (c.hExists t j f).2 = .ok (if (e.get f).isSome then 1 else 0) := by
            unfold Cache.hExists
            rw [← getHash_snd] at he
            generalize c.getHash t j = p at he
            obtain ⟨c', o⟩ := p
            subst he; rfl
          simp only [exec, hitOf, hs, lost]
          by_cases hf : (e.get f).isSome = true
          · simp [hf]; omega
          · simp [hf]
      · rename_i hne
        rw [liveVal_load _ _ _ ht] at h
        have := liveVal_mono h ht
        exact absurd (by rw [this]; rfl) (hne e')
    | _ => simp [Call.writes] at hw

/-- C31, exactly, over every history: HLen answers the number of fields HKeys lists minus the number
of HExists calls on the key that answered 1 since the key last held no hash. -/
theorem C31_exact (hist : History) (t0 t : Int) (k : Bytes) (ks : List Bytes) (hz : yearOne < t0) (hm : Monotone t0 (hist ++ [(t, .hLen k)]))
    (hk : hkeysOut (run Cache.new hist) t k = .strs (.ok ks)) :
    (exec (run Cache.new hist) t (.hLen k)).2 = .int (.ok (ks.length - hitsSince k Cache.new 0 hist)) := by
  rw [← zeroTime_eq] at hz
  have main : ∀ (hist : History) (c : Cache) (n : Int) (t0 : Int), zeroTime < t0 → Monotone t0 (hist ++ [(t, .hLen k)]) →
      (∀ t' ≥ t0, ∀ e, liveVal c t' k = some (.hash e) → lost e = n) →
      ∀ e, liveVal (run c hist) t k = some (.hash e) → lost e = hitsSince k c n hist := by
    intro hist
    induction hist with
    | nil => intro c n t0 hz hm hi e he; exact hi t hm.1 e he
    | cons p hist ih =>
      obtain ⟨s, op⟩ := p
      intro c n t0 hz hm hi e he
      obtain ⟨h0, hm⟩ := hm
      have hz : zeroTime < s := by omega
      refine ih (exec c s op).1 _ s hz hm ?_ e he
      intro t' ht' e' he'
      rcases lost_exec c hz ht' op k e' he' with ⟨e1, h1, h2⟩ | ⟨h1, h2⟩
      · have := hi s h0 e1 h1
        rw [h2, this, h1, asHash]; simp
      · rw [h2, h1]; simp
  rw [hkeysOut_eq] at hk
  simp only [exec, hLen, readHash_snd]
  rcases hv : liveVal (run Cache.new hist) t k with _ | (v | e | v) <;> rw [hv] at hk <;> simp [asHash, GoRes.bind] at hk
  subst hk
  have := main hist Cache.new 0 t0 hz hm (by intro t' _ e h; simp [liveVal, Cache.new] at h) e hv
  rw [← this]
  simp [asHash, GoRes.bind, lost]
  omega

/-- C31, the exact condition: HLen is right if and only if no HExists found a field since the key
last held no hash. -/
theorem C31_exact_iff (hist : History) (t0 t : Int) (k : Bytes) (ks : List Bytes) (hz : yearOne < t0) (hm : Monotone t0 (hist ++ [(t, .hLen k)]))
    (hk : hkeysOut (run Cache.new hist) t k = .strs (.ok ks)) :
    (exec (run Cache.new hist) t (.hLen k)).2 = .int (.ok ks.length) ↔ hitsSince k Cache.new 0 hist = 0 := by
  rw [C31_exact hist t0 t k ks hz hm hk]
  simp only [Out.int.injEq, GoRes.ok.injEq]
  omega

example : hitsSince b!"k" Cache.new 0 [(0, .hSet b!"k" b!"f" b!"v"), (1, .hExists b!"k" b!"f"), (2, .hExists b!"k" b!"g"),
    (3, .hExists b!"k" b!"f")] = 2 ∧
    hitsSince b!"k" Cache.new 0 [(0, .hSet b!"k" b!"f" b!"v"), (1, .hExists b!"k" b!"f"), (2, .del b!"k"),
    (3, .hSet b!"k" b!"f" b!"v")] = 0 := by decide +kernel

end Verif

import Verif.Conc.FullSafe
/-!
# `Safe` for the body of each call
-/
namespace Verif.Conc.Full
open Verif Verif.Conc

theorem touches_one {op : Call} {k : Bytes} (h : op.keys = some [k]) : touches op k := by
  intro ks hk; rw [h] at hk; cases hk; simp

theorem touches_all {op : Call} (h : op.keys = none) (k : Bytes) : touches op k := by
  intro ks hk; rw [h] at hk; cases hk

theorem may_read {D : Bytes → Prop} {op : Call} {k : Bytes} {v : Mem} (ht : touches op k) (hD : ∀ k, D k → v.exp k = none) :
    may D op k ∨ v.exp k = none := by
  by_cases hd : D k
  · exact .inr (hD k hd)
  · exact .inl (.inr ⟨ht, hd⟩)

/-- A hash call ends by wrapping the result. -/
theorem ans_post {W D : Bytes → Prop} {α : Type} {op : Call} {v : Mem} {p : MP α} {F : Int → Cache × α} {g : α → Out}
    (h : Safe (touches op) W D (Ans (touches op) v.now F) p v) (he : ∀ t, exec v.abs t op = ((F t).1, g (F t).2)) :
    Safe (touches op) W D (Post v.abs v.now op) (p >>= fun r => .ret (g r)) v := by
  refine safe_bind h ?_
  rintro a y ⟨t, h1, h2, rfl, x, h4, h5⟩
  refine ⟨t, h1, h2, by rw [he], fun k hk => ?_⟩
  rw [he, ← h5]
  exact h4.sameAt hk

section
variable {D : Bytes → Prop} {v : Mem}

theorem load_some {t : Int} {k : Bytes} {x : Cell} (h : (v.load t k).2 = some x) :
    v.abs.load t k = ((v.loaded t k).abs, some (x.val v.heap)) := by rw [load_abs, h]; rfl

theorem load_none {t : Int} {k : Bytes} (h : (v.load t k).2 = none) :
    v.abs.load t k = ((v.loaded t k).abs, none) := by rw [load_abs, h]; rfl

theorem safe_incrBy {op : Call} {k : Bytes} {n : Int64} (hk : op.keys = some [k]) (hw : op.writes k = true)
    (he : ∀ t, exec v.abs t op = ((v.abs.incrBy k n).1, .int ((v.abs.incrBy k n).2.map Int64.toInt))) :
    Safe (touches op) (may D op) D (Post v.abs v.now op) (incrByP k n >>= fun r => pure (.int (r.map Int64.toInt))) v := by
  have ht := touches_one hk
  have hw : may D op k := .inl hw
  unfold incrByP
  rw [Prog.assoc]
  refine safe_loadOrStore (post_firm _ _ _) ht hw (fun x hx => ?_) (fun hx => ?_)
  · have hd : v.abs.data k = some (x.val v.heap) := by rw [abs_data, hx]; rfl
    cases x with
    | ref p => exact post_ret (Int.le_refl _) (Int.le_refl _) (by simp [he, Cache.incrBy, hd, Cell.val])
    | time p => exact post_ret (Int.le_refl _) (Int.le_refl _) (by simp [he, Cache.incrBy, hd, Cell.val])
    | scalar s =>
      simp only
      cases hs : Cache.incrScalar n s with
      | none => exact post_ret (Int.le_refl _) (Int.le_refl _) (by simp [he, Cache.incrBy, hd, Cell.val, hs])
      | some r =>
        obtain ⟨w, m⟩ := r
        simp only
        rw [Prog.assoc]
        refine safe_storeData (post_firm _ _ _) hw ?_
        exact post_ret (Int.le_refl _) (Int.le_refl _) (by simp [he, Cache.incrBy, hd, Cell.val, hs, abs_store])
  · have hd : v.abs.data k = none := by rw [abs_data, hx]; rfl
    exact post_ret (Int.le_refl _) (Int.le_refl _) (by simp [he, Cache.incrBy, hd, abs_store])

/-! Loops over keys. -/

def storeAll (v : Mem) : List (Bytes × Bytes) → Mem
  | [] => v
  | (k, s) :: kv => storeAll { v with data := upd v.data k (some (.scalar (tryInt64 s))) } kv

theorem safe_mSetP {K W : Bytes → Prop} (kv : List (Bytes × Bytes)) (hw : ∀ p ∈ kv, W p.1) :
    Safe K W D (Is K (storeAll v kv) ()) (mSetP kv) v := by
  induction kv generalizing v with
  | nil => exact safe_is rfl
  | cons a kv ih =>
    obtain ⟨k, s⟩ := a
    exact safe_storeData (is_firm _ _) (hw (k, s) (by simp)) (ih (fun p hp => hw p (by simp [hp])))

theorem storeAll_abs (v : Mem) (kv : List (Bytes × Bytes)) :
    (storeAll v kv).abs = (v.abs.mSet kv).1 ∧ (storeAll v kv).now = v.now := by
  induction kv generalizing v with
  | nil => exact ⟨rfl, rfl⟩
  | cons a kv ih =>
    obtain ⟨k, s⟩ := a
    have := ih { v with data := upd v.data k (some (.scalar (tryInt64 s))) }
    rw [abs_store] at this
    exact this

def storeNX (v : Mem) : List (Bytes × Bytes) → Int → Mem × Int
  | [], n => (v, n)
  | (k, s) :: kv, n =>
    match v.data k with
    | some _ => storeNX v kv n
    | none => storeNX { v with data := upd v.data k (some (.scalar (tryInt64 s))) } kv (n + 1)

theorem safe_mSetNXP {K W : Bytes → Prop} (kv : List (Bytes × Bytes)) (n : Int) (hk : ∀ p ∈ kv, K p.1) (hw : ∀ p ∈ kv, W p.1) :
    Safe K W D (Is K (storeNX v kv n).1 (storeNX v kv n).2) (mSetNXP kv n) v := by
  induction kv generalizing v n with
  | nil => exact safe_is rfl
  | cons a kv ih =>
    obtain ⟨k, s⟩ := a
    have hk' := fun p hp => hk p (List.mem_cons_of_mem _ hp)
    have hw' := fun p hp => hw p (List.mem_cons_of_mem _ hp)
    refine safe_loadOrStore (is_firm _ _) (hk (k, s) (by simp)) (hw (k, s) (by simp)) (fun x hx => ?_) (fun hx => ?_)
    · simp only [storeNX, hx]; exact ih n hk' hw'
    · simp only [storeNX, hx]; exact ih (n + 1) hk' hw'

theorem storeNX_abs (v : Mem) (kv : List (Bytes × Bytes)) (n : Int) :
    (storeNX v kv n).1.abs = (v.abs.mSetNXLoop kv n).1 ∧ (storeNX v kv n).2 = (v.abs.mSetNXLoop kv n).2 ∧
      (storeNX v kv n).1.now = v.now := by
  induction kv generalizing v n with
  | nil => exact ⟨rfl, rfl, rfl⟩
  | cons a kv ih =>
    obtain ⟨k, s⟩ := a
    have hd : v.abs.data k = (v.data k).map (Cell.val v.heap) := abs_data v k
    cases hx : v.data k with
    | some x =>
      rw [hx] at hd
      simp only [storeNX, hx, Cache.mSetNXLoop, hd, Option.map_some]
      exact ih v n
    | none =>
      rw [hx] at hd
      simp only [storeNX, hx, Cache.mSetNXLoop, hd, Option.map_none]
      have := ih { v with data := upd v.data k (some (.scalar (tryInt64 s))) } (n + 1)
      rw [abs_store] at this
      exact this

theorem safe_existsP {K W : Bytes → Prop} (ks : List Bytes) (n : Int) (hk : ∀ k ∈ ks, K k) :
    Safe K W D (Is K v (ks.foldl (fun n k => if (v.abs.data k).isSome then n + 1 else n) n)) (existsP ks n) v := by
  induction ks generalizing n with
  | nil => exact safe_is rfl
  | cons k ks ih =>
    have hk' := fun p hp => hk p (List.mem_cons_of_mem _ hp)
    refine safe_loadData (is_firm _ _) (hk k (by simp)) ?_
    have hd : v.abs.data k = (v.data k).map (Cell.val v.heap) := abs_data v k
    cases hx : v.data k with
    | some x =>
      rw [hx] at hd
      simp only [List.foldl_cons, hd, Option.map_some, Option.isSome_some, if_true]
      exact ih (n + 1) hk'
    | none =>
      rw [hx] at hd
      simp only [List.foldl_cons, hd, Option.map_none, Option.isSome_none, Bool.false_eq_true, if_false]
      exact ih n hk'

/-- Without deadlines `get` changes nothing and does not depend on the clock. -/
theorem load_plain {t : Int} {k : Bytes} (h : v.exp k = none) : v.load t k = (v, v.data k) := by
  unfold Mem.load
  cases hd : v.data k with
  | none => rfl
  | some x => simp [h]

theorem safe_mGetP {K W : Bytes → Prop} (ks : List Bytes) (hk : ∀ k ∈ ks, K k) (he : ∀ k ∈ ks, v.exp k = none) :
    Safe K W D (fun a y => a = (v.abs.mGet v.now ks).2 ∧ Rely K v y ∧ (v.abs.mGet v.now ks).1 = v.abs) (mGetP ks) v := by
  have hf : ∀ ks, Firm K (fun a y => a = (v.abs.mGet v.now ks).2 ∧ Rely K v y ∧ (v.abs.mGet v.now ks).1 = v.abs) :=
    fun ks a y z h hr => ⟨h.1, h.2.1.trans hr, h.2.2⟩
  induction ks with
  | nil => exact ⟨rfl, .refl _, rfl⟩
  | cons k ks ih =>
    have ih := ih (fun j hj => hk j (by simp [hj])) (fun j hj => he j (by simp [hj]))
    have hek := he k (by simp)
    refine safe_getP (hf (k :: ks)) (hk k (by simp)) (.inr hek) (fun t ht => ?_)
    have e1 : v.loaded t k = { v with now := t } := by unfold Mem.loaded; rw [load_plain hek]
    rw [e1, load_plain hek]
    have hr : Rely K v { v with now := t } := ⟨fun _ _ => rfl, fun _ _ => rfl, fun _ _ _ _ => rfl, Nat.le_refl _, ht⟩
    refine safe_bind (ih.later (hf ks) hr) ?_
    rintro rs y ⟨rfl, hy, hc⟩
    have hg : v.abs.get v.now k = (v.abs, match v.data k with
        | none => .err .keyNil
        | some x => fmtCell x) := by
      unfold Cache.get
      rw [load_abs, load_plain hek]
      have : v.loaded v.now k = v := by unfold Mem.loaded; rw [load_plain hek]
      rw [this]
      cases v.data k with
      | none => rfl
      | some x => simp only [Option.map_some]; rw [fmtCell_val]
    refine ⟨?_, hy, ?_⟩
    · simp only [Cache.mGet]; rw [hg]; cases v.data k <;> rfl
    · simp only [Cache.mGet]; rw [hg]; exact hc

/-! Facts on the fields of an entry. -/

theorem names_found (fs : List (Bytes × Scalar)) :
    (fs.map (·.1)).filter (fun f => (hfind fs f).isSome) = fs.map (·.1) := by
  rw [List.filter_eq_self]
  intro f hf
  cases h : hfind fs f with
  | some x => rfl
  | none => exact absurd hf (hfind_eq_none.1 h)

theorem hfind_of_mem {fs : List (Bytes × Scalar)} (hn : (fs.map (·.1)).Nodup) {f : Bytes} {s : Scalar} (h : (f, s) ∈ fs) :
    hfind fs f = some s := by
  induction fs with
  | nil => cases h
  | cons a fs ih =>
    obtain ⟨g, w⟩ := a
    simp only [List.map_cons, List.nodup_cons] at hn
    simp only [hfind]
    rcases List.mem_cons.1 h with h | h
    · cases h; simp
    · have : g ≠ f := by rintro rfl; exact hn.1 (List.mem_map.2 ⟨_, h, rfl⟩)
      simp only [this, if_false]
      exact ih hn.2 h

theorem vals_found {fs : List (Bytes × Scalar)} (hn : (fs.map (·.1)).Nodup) :
    (fs.map (·.1)).filterMap (fun f => match hfind fs f with
      | some (.str s) => some s
      | _ => none) = fs.filterMap fun p => match p.2 with
      | .str s => some s
      | _ => none := by
  rw [List.filterMap_map]
  have h : ∀ gs : List (Bytes × Scalar), (∀ p ∈ gs, p ∈ fs) →
      gs.filterMap ((fun f => match hfind fs f with
        | some (.str s) => some s
        | _ => none) ∘ (·.1)) = gs.filterMap fun p => match p.2 with
        | .str s => some s
        | _ => none := by
    intro gs
    induction gs with
    | nil => intro _; rfl
    | cons a gs ih =>
      intro hg
      obtain ⟨f, s⟩ := a
      rw [List.filterMap_cons, List.filterMap_cons, ih (fun p hp => hg p (by simp [hp]))]
      simp only [Function.comp]
      rw [hfind_of_mem hn (hg (f, s) (by simp))]
      cases s <;> rfl
  exact h fs (fun _ h => h)

theorem getAll_empty (e : HashEntry) :
    (if e.fields.any (fun p => match fmtString (.scalar p.2) with | .ok _ => false | _ => true) then
      GoRes.panic else .ok [] : Res (List (Bytes × Bytes))) = .ok [] := by
  rw [if_neg]
  simp [fmtString]

end

end Verif.Conc.Full

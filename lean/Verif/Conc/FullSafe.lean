import Verif.Conc.FullRules
/-!
# Every call, among others that leave its keys alone, is one sequential call
-/
namespace Verif.Conc.Full
open Verif Verif.Conc

/-- The keys a call looks at: those it names, or all. -/
def touches (op : Call) (k : Bytes) : Prop := ∀ ks, op.keys = some ks → k ∈ ks

/-- The keys a call may change.  A call that only reads may still delete a key whose deadline
passed, so it changes nothing only where there is no deadline (`D`). -/
def may (D : Bytes → Prop) (op : Call) (k : Bytes) : Prop := op.writes k = true ∨ (touches op k ∧ ¬ D k)

/-- `op` gives no deadline to a key of `D`, and asks for several keys at once only if they have none
(`MGet` looks at the clock for each key). -/
def Plain (D : Bytes → Prop) : Call → Prop
  | .setEX k _ _ | .pSetEX k _ _ => ¬ D k
  | .mGet ks => (∀ k ∈ ks, D k) ∨ ks.length ≤ 1
  | _ => True

/-- The answer and the effect on the touched keys are those of one sequential call on `c`. -/
def Post (c : Cache) (lo : Int) (op : Call) (o : Out) (v : Mem) : Prop :=
  ∃ t, lo ≤ t ∧ t ≤ v.now ∧ (exec c t op).2 = o ∧ ∀ k, touches op k → SameAt (exec c t op).1 v.abs k

theorem post_firm (c : Cache) (lo : Int) (op : Call) : Firm (touches op) (Post c lo op) := by
  rintro o v w ⟨t, h1, h2, h3, h4⟩ hr
  exact ⟨t, h1, Int.le_trans h2 hr.now, h3, fun k hk => (h4 k hk).trans (hr.sameAt hk)⟩

theorem post_ret {K W D : Bytes → Prop} {c : Cache} {lo t : Int} {op : Call} {o : Out} {x : Mem} (h1 : lo ≤ t)
    (h2 : t ≤ x.now) (h3 : exec c t op = (x.abs, o)) : Safe K W D (Post c lo op) (.ret o) x :=
  ⟨t, h1, h2, by rw [h3], fun k _ => by rw [h3]; exact .rfl'⟩

/-- Memory and slot after `get` (cache/cacheutil.go:36-48) at time `t`. -/
def Mem.load (v : Mem) (t : Int) (k : Bytes) : Mem × Option Cell :=
  match v.data k with
  | none => (v, none)
  | some x =>
    match v.exp k with
    | none => (v, some x)
    | some d => if d < t then ({ v with data := upd v.data k none, exp := upd v.exp k none }, none) else (v, some x)

/-- The same with the clock at `t`. -/
def Mem.loaded (v : Mem) (t : Int) (k : Bytes) : Mem := { (v.load t k).1 with now := t }

theorem load_abs (v : Mem) (t : Int) (k : Bytes) :
    v.abs.load t k = ((v.loaded t k).abs, (v.load t k).2.map (Cell.val v.heap)) := by
  unfold Mem.loaded Mem.load Cache.load Cache.expired
  rw [abs_data]
  cases hd : v.data k with
  | none => simp [abs_now]
  | some x =>
    cases he : v.exp k with
    | none =>
      have : v.abs.exp k = none := he
      simp [this, abs_now]
    | some d =>
      have : v.abs.exp k = some d := he
      simp only [this, Option.map_some]
      split
      · simp only [Option.map_none]
        refine Prod.ext ?_ rfl
        show ({ data := upd v.abs.data k none, exp := upd v.abs.exp k none } : Cache) =
          { ({ v with data := upd v.data k none } : Mem).abs with exp := upd v.exp k none }
        rw [abs_delData]
        rfl
      · simp [abs_now]

theorem loaded_wf {v : Mem} (hv : v.WF) (t : Int) (k : Bytes) : (v.loaded t k).WF := by
  unfold Mem.loaded Mem.load
  split
  · exact ⟨hv.alloc, hv.inj, hv.names⟩
  · split
    · exact ⟨hv.alloc, hv.inj, hv.names⟩
    · split
      · constructor
        · intro j p hj
          simp only [upd] at hj
          split at hj
          · cases hj
          · exact hv.alloc _ _ hj
        · intro j j' p hj hj'
          simp only [upd] at hj hj'
          split at hj <;> try cases hj
          split at hj' <;> try cases hj'
          exact hv.inj _ _ _ ‹_› ‹_›
        · exact hv.names
      · exact ⟨hv.alloc, hv.inj, hv.names⟩

@[simp] theorem loaded_now (v : Mem) (t : Int) (k : Bytes) : (v.loaded t k).now = t := rfl
@[simp] theorem loaded_heap (v : Mem) (t : Int) (k : Bytes) : (v.loaded t k).heap = v.heap := by
  unfold Mem.loaded Mem.load
  split
  · rfl
  · split
    · rfl
    · split <;> rfl

theorem load_data {v : Mem} {t : Int} {k : Bytes} {x : Cell} (h : (v.load t k).2 = some x) : (v.loaded t k).data k = some x := by
  unfold Mem.loaded
  unfold Mem.load at h ⊢
  split at h
  · cases h
  · rename_i y hy
    split at h
    · simp only [hy]; rw [← h]
    · rename_i d hd
      simp only
      split at h
      · cases h
      · rename_i hn; simp only [hn, if_false]; rw [← h]; exact hy

section
variable {K W D : Bytes → Prop} {β : Type} {Q : β → Mem → Prop} (hQ : Firm K Q) {v : Mem} {k : Bytes}
include hQ

theorem safe_getP {g : Option Cell → MP β} (hk : K k) (hw : W k ∨ v.exp k = none)
    (h : ∀ t, v.now ≤ t → Safe K W D Q (g (v.load t k).2) (v.loaded t k)) : Safe K W D Q (getP k >>= g) v := by
  unfold getP
  rw [Prog.assoc]
  refine safe_loadData hQ hk ?_
  cases hd : v.data k with
  | none =>
    have := h v.now (Int.le_refl _)
    simpa [Mem.loaded, Mem.load, hd] using this
  | some x =>
    simp only [expiredP]
    rw [Prog.assoc, Prog.assoc]
    refine safe_loadExp hQ hk ?_
    cases he : v.exp k with
    | none =>
      have := h v.now (Int.le_refl _)
      simpa [Mem.loaded, Mem.load, hd, he] using this
    | some d =>
      have hw : W k := hw.resolve_right (by rw [he]; simp)
      simp only
      rw [Prog.assoc]
      refine safe_clock hQ (fun n hn => ?_)
      have := h n hn
      by_cases hlt : d < n
      · simp only [hlt, if_true]
        rw [Prog.assoc]
        refine safe_delData hQ hw ?_
        rw [Prog.assoc]
        refine safe_delExp hQ hw ?_
        simpa [Mem.loaded, Mem.load, hd, he, hlt] using this
      · simp only [hlt, if_false]
        simpa [Mem.loaded, Mem.load, hd, he, hlt] using this

end

/-! ## Hash bodies -/

section
variable {K W D : Bytes → Prop} {v : Mem} {k : Bytes}

/-- "The memory looks like `x` and the answer is `a`." -/
def Is {α : Type} (K : Bytes → Prop) (x : Mem) (a : α) : α → Mem → Prop := fun b y => b = a ∧ Rely K x y

theorem is_firm {α : Type} (x : Mem) (a : α) : Firm K (Is K x a) := fun _ _ _ h hr => ⟨h.1, h.2.trans hr⟩

theorem safe_is {α : Type} {x : Mem} {a b : α} (h : b = a) : Safe K W D (Is K x a) (.ret b) x := ⟨h, .refl _⟩

theorem distinct_put {e : HashEntry} (h : Distinct e) (f : Bytes) (s : Scalar) :
    Distinct { e with fields := hput e.fields f s } := by
  unfold Distinct
  simp only [hput_keys]
  split
  · exact h
  · rename_i hf
    rw [List.nodup_append]
    refine ⟨h, by simp, ?_⟩
    intro a ha b hb
    simp only [List.mem_singleton] at hb
    subst hb
    rintro rfl
    exact hf ha

theorem distinct_delete {e : HashEntry} (h : Distinct e) (f : Bytes) :
    Distinct { e with fields := hdelete e.fields f } := List.Nodup.sublist ((hdelete_sublist _ f).map _) h

theorem distinct_loadOrStore {e : HashEntry} (h : Distinct e) (f : Bytes) (s : Scalar) :
    Distinct (if (hfind e.fields f).isSome then e else { e with fields := hput e.fields f s }) := by
  split
  · exact h
  · exact distinct_put h f s

theorem safe_lenAdd {p : Nat} {n : Int} (hk : K k) (hd : v.data k = some (.ref p)) (hw : W k) :
    Safe K W D (Is K (v.put p { v.heap p with length := (v.heap p).length + n }) ()) (lenAdd p n) v := by
  refine safe_entry (is_firm _ _) hk hd (.inr fun _ => rfl) (fun _ h => h) ?_
  have : Safe K W D (Is K (v.put p { v.heap p with length := (v.heap p).length + n }) ())
      (lenStore p ((v.heap p).length + n) >>= .ret) v := by
    refine safe_entry (is_firm _ _) hk hd (.inl hw) (fun _ h => h) ?_
    exact safe_is rfl
  simpa [bind_ret] using this

theorem safe_setP {p : Nat} {f s : Bytes} (hk : K k) (hd : v.data k = some (.ref p)) (hw : W k) :
    Safe K W D (Is K (v.put p ((v.heap p).set f s).1) ((v.heap p).set f s).2) (setP p f s) v := by
  refine safe_entry (is_firm _ _) hk hd (.inl hw) (fun _ h => distinct_loadOrStore h _ _) ?_
  cases hf : hfind (v.heap p).fields f with
  | none =>
    simp only [Option.isSome_none, Bool.false_eq_true, if_false]
    refine safe_bind (safe_lenAdd hk (by simpa using hd) hw) ?_
    rintro _ y ⟨_, hy⟩
    refine ⟨by simp [HashEntry.set, hf], ?_⟩
    simpa [HashEntry.set, hf] using hy
  | some x =>
    simp only [Option.isSome_some, if_true]
    refine safe_entry (is_firm _ _) hk (by simpa using hd) (.inl hw) (fun _ h => distinct_put h _ _) ?_
    refine safe_bind (safe_lenAdd hk (by simpa using hd) hw) ?_
    rintro _ y ⟨_, hy⟩
    refine ⟨by simp [HashEntry.set, hf], ?_⟩
    simpa [HashEntry.set, hf] using hy

/-- A body that does to the entry at its address what `B` says. -/
def Does {α : Type} (K W D : Bytes → Prop) (k : Bytes) (body : Nat → MP α) (B : HashEntry → HashEntry × α) : Prop :=
  ∀ p (x : Mem), x.WF → x.data k = some (.ref p) →
    Safe K W D (Is K (x.put p (B (x.heap p)).1) (B (x.heap p)).2) (body p) x

/-- The answer and the effect on `K` are those of `F` at some time. -/
def Ans {α : Type} (K : Bytes → Prop) (lo : Int) (F : Int → Cache × α) (a : α) (y : Mem) : Prop :=
  ∃ t, lo ≤ t ∧ t ≤ y.now ∧ a = (F t).2 ∧ ∃ x, Rely K x y ∧ x.abs = (F t).1

theorem ans_firm {α : Type} (lo : Int) (F : Int → Cache × α) : Firm K (Ans K lo F) := by
  rintro a v w ⟨t, h1, h2, h3, x, h4, h5⟩ hr
  exact ⟨t, h1, Int.le_trans h2 hr.now, h3, x, h4.trans hr, h5⟩

theorem Is.ans {α : Type} {lo t : Int} {F : Int → Cache × α} {x : Mem} {a b : α} {y : Mem} (h : Is K x b a y) (h1 : lo ≤ t)
    (h2 : t ≤ x.now) (h3 : F t = (x.abs, b)) : Ans K lo F a y :=
  ⟨t, h1, Int.le_trans h2 h.2.now, by rw [h.1, h3], x, h.2, by rw [h3]⟩

theorem getHash_abs (v : Mem) (t : Int) (k : Bytes) :
    v.abs.getHash t k = ((v.loaded t k).abs, match (v.load t k).2 with
      | none => .ok none
      | some (.ref p) => .ok (some (v.heap p))
      | some _ => .err .wrongType) := by
  unfold Cache.getHash
  rw [load_abs]
  cases (v.load t k).2 with
  | none => rfl
  | some x => cases x <;> rfl

theorem safe_fetchP {α : Type} {body : Nat → MP (Res α)} {B : HashEntry → HashEntry × Res α}
    (hb : Does K W D k body B) (hv : v.WF) (hk : K k) (hw : W k) :
    Safe K W D (Ans K v.now fun t => v.abs.withHash t k B) (fetchP k body) v := by
  refine safe_getP (ans_firm _ _) hk (.inl hw) (fun t ht => ?_)
  have hl := loaded_wf hv t k
  have hg := getHash_abs v t k
  cases hd : (v.load t k).2 with
  | none =>
    simp only
    refine safe_publish (ans_firm _ _) hw (fun p hp => ?_)
    have hpw := published_wf hl (k := k) hp
    have hpd : ((v.loaded t k).published k p).data k = some (.ref p) := by simp [Mem.published, upd]
    refine (hb p _ hpw hpd).weaken ?_
    intro r y hy
    refine hy.ans (t := t) ht (Int.le_refl t) ?_
    unfold Cache.withHash
    rw [hg, hd, abs_put hpw hpd, abs_published hl hp]
    simp only [Option.getD_none]
    have e : ((v.loaded t k).published k p).heap p = HashEntry.empty := by simp [Mem.published]
    rw [e]
    refine Prod.ext ?_ rfl
    simp only [Cache.store]
    congr 1
    funext j
    simp only [upd]
    split <;> rfl
  | some x =>
    have hx := load_data hd
    have bad : (∀ p, x ≠ .ref p) → Safe K W D (Ans K v.now fun t => v.abs.withHash t k B) (.ret (.err .wrongType)) (v.loaded t k) := by
      intro hne
      refine ⟨t, ht, Int.le_refl _, ?_, v.loaded t k, .refl _, ?_⟩ <;>
      · simp only
        unfold Cache.withHash
        rw [hg, hd]
        cases x with
        | ref p => exact absurd rfl (hne p)
        | _ => rfl
    cases x with
    | scalar s => exact bad (by simp)
    | time s => exact bad (by simp)
    | ref p =>
      refine (hb p _ hl hx).weaken ?_
      intro r y hy
      refine hy.ans (t := t) ht (Int.le_refl t) ?_
      unfold Cache.withHash
      rw [hg, hd, abs_put hl hx]
      simp

/-- A call that reads the entry. -/
theorem safe_readP {α : Type} {body : Option Nat → MP (Res α)} {B : Option HashEntry → Res α}
    (hn : ∀ x, Safe K W D (Is K x (B none)) (body none) x)
    (hb : ∀ p (x : Mem), x.WF → x.data k = some (.ref p) → Safe K W D (Is K x (B (some (x.heap p)))) (body (some p)) x)
    (hv : v.WF) (hk : K k) (hw : W k ∨ v.exp k = none) :
    Safe K W D (Ans K v.now fun t => v.abs.readHash t k B) (readP k body) v := by
  refine safe_getP (ans_firm _ _) hk hw (fun t ht => ?_)
  have hg := getHash_abs v t k
  cases hd : (v.load t k).2 with
  | none =>
    refine (hn _).weaken ?_
    intro r y hy
    refine hy.ans (t := t) ht (Int.le_refl t) ?_
    unfold Cache.readHash
    rw [hg, hd]
  | some x =>
    have hx := load_data hd
    have bad : (∀ p, x ≠ .ref p) → Safe K W D (Ans K v.now fun t => v.abs.readHash t k B) (.ret (.err .wrongType)) (v.loaded t k) := by
      intro hne
      refine ⟨t, ht, Int.le_refl _, ?_, v.loaded t k, .refl _, ?_⟩ <;>
      · simp only
        unfold Cache.readHash
        rw [hg, hd]
        cases x with
        | ref p => exact absurd rfl (hne p)
        | _ => rfl
    cases x with
    | scalar s => exact bad (by simp)
    | time s => exact bad (by simp)
    | ref p =>
      refine (hb p _ (loaded_wf hv t k) hx).weaken ?_
      intro r y hy
      refine hy.ans (t := t) ht (Int.le_refl t) ?_
      unfold Cache.readHash
      rw [hg, hd]
      simp

/-- The update pattern of HExists and HDel: nothing is created. -/
def updHash {α : Type} (c : Cache) (now : Int) (k : Bytes) (r0 : Res α) (B : HashEntry → HashEntry × Res α) : Cache × Res α :=
  match c.getHash now k with
  | (c', .err e) => (c', .err e)
  | (c', .panic) => (c', .panic)
  | (c', .ok none) => (c', r0)
  | (c', .ok (some h)) => (c'.store k (.hash (B h).1), (B h).2)

theorem safe_updP {α : Type} {body : Option Nat → MP (Res α)} {r0 : Res α} {B : HashEntry → HashEntry × Res α}
    (hn : body none = .ret r0) (hb : Does K W D k (fun p => body (some p)) B) (hv : v.WF) (hk : K k) (hw : W k) :
    Safe K W D (Ans K v.now fun t => updHash v.abs t k r0 B) (readP k body) v := by
  refine safe_getP (ans_firm _ _) hk (.inl hw) (fun t ht => ?_)
  have hl := loaded_wf hv t k
  have hg := getHash_abs v t k
  cases hd : (v.load t k).2 with
  | none =>
    simp only
    rw [hn]
    refine ⟨t, ht, Int.le_refl _, ?_, v.loaded t k, .refl _, ?_⟩ <;>
    · simp only
      unfold updHash
      rw [hg, hd]
  | some x =>
    have hx := load_data hd
    have bad : (∀ p, x ≠ .ref p) → Safe K W D (Ans K v.now fun t => updHash v.abs t k r0 B) (.ret (.err .wrongType)) (v.loaded t k) := by
      intro hne
      refine ⟨t, ht, Int.le_refl _, ?_, v.loaded t k, .refl _, ?_⟩ <;>
      · simp only
        unfold updHash
        rw [hg, hd]
        cases x with
        | ref p => exact absurd rfl (hne p)
        | _ => rfl
    cases x with
    | scalar s => exact bad (by simp)
    | time s => exact bad (by simp)
    | ref p =>
      refine (hb p _ hl hx).weaken ?_
      intro r y hy
      refine hy.ans (t := t) ht (Int.le_refl t) ?_
      unfold updHash
      rw [hg, hd, abs_put hl hx]
      simp

/-! Loops over fields. -/

theorem safe_hMSetP {p : Nat} (hk : K k) (hw : W k) (fv : List (Bytes × Bytes)) (n : Int) (hd : v.data k = some (.ref p)) :
    Safe K W D (Is K (v.put p (Cache.hMSetLoop fv (v.heap p) n).1) (.ok (Cache.hMSetLoop fv (v.heap p) n).2)) (hMSetP p fv n) v := by
  induction fv generalizing n v with
  | nil => simp only [Cache.hMSetLoop, put_self]; exact safe_is rfl
  | cons a fv ih =>
    obtain ⟨f, s⟩ := a
    simp only [hMSetP]
    refine safe_bind (safe_setP hk hd hw) ?_
    rintro m y ⟨rfl, hy⟩
    have := ih (v := v.put p ((v.heap p).set f s).1) (n + ((v.heap p).set f s).2) (by simpa using hd)
    rw [put_put, put_heap] at this
    exact this.later (is_firm _ _) hy

/-- The entry after `HDel` (cachehash.go:118-129). -/
def hDelEntry (h : HashEntry) (fs : List Bytes) (n : Int) : HashEntry :=
  { fields := (Cache.hDelLoop fs h.fields n).1
    length := if (Cache.hDelLoop fs h.fields n).2 ≠ 0 then h.length - (Cache.hDelLoop fs h.fields n).2 else h.length }

theorem safe_hDelP {p : Nat} (hk : K k) (hw : W k) (fs : List Bytes) (n : Int) (hd : v.data k = some (.ref p)) :
    Safe K W D (Is K (v.put p (hDelEntry (v.heap p) fs n)) (.ok (Cache.hDelLoop fs (v.heap p).fields n).2)) (hDelP p fs n) v := by
  induction fs generalizing n v with
  | nil =>
    simp only [hDelP, hDelEntry, Cache.hDelLoop]
    by_cases hn : n = 0
    · simp only [hn, ne_eq, not_true_eq_false, if_false, if_true]
      show Safe K W D (Is K (v.put p (v.heap p)) _) _ v
      rw [put_self]
      exact safe_is rfl
    · simp only [hn, ne_eq, not_false_eq_true, if_false, if_true]
      refine safe_bind (safe_lenAdd hk hd hw) ?_
      rintro _ y ⟨_, hy⟩
      exact ⟨rfl, by rw [Int.sub_eq_add_neg]; exact hy⟩
  | cons f fs ih =>
    simp only [hDelP]
    refine safe_entry (is_firm _ _) hk hd (.inr fun _ => rfl) (fun _ h => h) ?_
    simp only [id, put_self]
    cases hf : hfind (v.heap p).fields f with
    | none =>
      have e : Cache.hDelLoop (f :: fs) (v.heap p).fields n = Cache.hDelLoop fs (v.heap p).fields n := by
        simp [Cache.hDelLoop, hf]
      have := ih (v := v) n hd
      simp only [hDelEntry, e] at this ⊢
      exact this
    | some x =>
      have e : Cache.hDelLoop (f :: fs) (v.heap p).fields n = Cache.hDelLoop fs (hdelete (v.heap p).fields f) (n + 1) := by
        simp [Cache.hDelLoop, hf]
      refine safe_entry (is_firm _ _) hk hd (.inl hw) (fun _ h => distinct_delete h _) ?_
      have := ih (v := v.put p { v.heap p with fields := hdelete (v.heap p).fields f }) (n + 1) (by simpa using hd)
      simp only [hDelEntry, put_heap, put_put, e] at this ⊢
      exact this

theorem safe_hMGetP {p : Nat} (hk : K k) (fs : List Bytes) (hd : v.data k = some (.ref p)) :
    Safe K W D (Is K v (fs.map fun f => match (v.heap p).get f with
      | some s => .ok s
      | none => .err .keyNil)) (hMGetP (some p) fs) v := by
  induction fs with
  | nil => exact safe_is rfl
  | cons f fs ih =>
    simp only [hMGetP]
    refine safe_entry (is_firm _ _) hk hd (.inr fun _ => rfl) (fun _ h => h) ?_
    simp only [id, put_self]
    refine safe_bind ih ?_
    rintro rs y ⟨rfl, hy⟩
    refine ⟨?_, hy⟩
    simp only [List.map_cons, HashEntry.get]
    cases hfind (v.heap p).fields f <;> rfl

theorem safe_hMGetP_nil (fs : List Bytes) :
    Safe K W D (Is K v (fs.map fun _ => .err .keyNil)) (hMGetP none fs) v := by
  induction fs with
  | nil => exact safe_is rfl
  | cons f fs ih =>
    simp only [hMGetP]
    refine safe_bind ih ?_
    rintro rs y ⟨rfl, hy⟩
    exact ⟨rfl, hy⟩

theorem safe_hKeysP {p : Nat} (hk : K k) (fs : List Bytes) (hd : v.data k = some (.ref p)) :
    Safe K W D (Is K v (fs.filter fun f => (hfind (v.heap p).fields f).isSome)) (hKeysP p fs) v := by
  induction fs with
  | nil => exact safe_is rfl
  | cons f fs ih =>
    simp only [hKeysP]
    refine safe_entry (is_firm _ _) hk hd (.inr fun _ => rfl) (fun _ h => h) ?_
    simp only [id, put_self]
    refine safe_bind ih ?_
    rintro rs y ⟨rfl, hy⟩
    exact ⟨by rw [List.filter_cons], hy⟩

theorem safe_hValsP {p : Nat} (hk : K k) (fs : List Bytes) (hd : v.data k = some (.ref p)) :
    Safe K W D (Is K v (fs.filterMap fun f => match hfind (v.heap p).fields f with
      | some (.str s) => some s
      | _ => none)) (hValsP p fs) v := by
  induction fs with
  | nil => exact safe_is rfl
  | cons f fs ih =>
    simp only [hValsP]
    refine safe_entry (is_firm _ _) hk hd (.inr fun _ => rfl) (fun _ h => h) ?_
    simp only [id, put_self]
    refine safe_bind ih ?_
    rintro rs y ⟨rfl, hy⟩
    refine ⟨?_, hy⟩
    rw [List.filterMap_cons]
    cases hfind (v.heap p).fields f with
    | none => rfl
    | some s => cases s <;> rfl

theorem safe_hGetAllP {p : Nat} (hk : K k) (fs : List Bytes) (hd : v.data k = some (.ref p)) :
    Safe K W D (Is K v (.ok [])) (hGetAllP p fs) v := by
  induction fs with
  | nil => exact safe_is rfl
  | cons f fs ih =>
    simp only [hGetAllP]
    refine safe_entry (is_firm _ _) hk hd (.inr fun _ => rfl) (fun _ h => h) ?_
    simp only [id, put_self]
    cases hfind (v.heap p).fields f with
    | none => exact ih
    | some s => exact ih

end

end Verif.Conc.Full

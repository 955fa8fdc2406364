import Verif.Conc.FullCalls
/-!
# Each call of the machine is one sequential call, if others leave its keys alone
-/
namespace Verif.Conc.Full
open Verif Verif.Conc

section
variable {D : Bytes → Prop} {v : Mem}

theorem safe_expires {op : Call} {k : Bytes} {s : Scalar} {dur : Int64} {o : Out}
    (hw : op.writes k = true) (hd : ¬ D k)
    (he : ∀ t, exec v.abs t op = ((v.abs.store k (.scalar s)).expires t k dur, o)) :
    Safe (touches op) (may D op) D (Post v.abs v.now op) (storeData k s >>= fun _ => expiresP k dur >>= fun _ => pure o) v := by
  have hw : may D op k := .inl hw
  refine safe_storeData (post_firm _ _ _) hw ?_
  unfold expiresP
  split
  · rename_i h
    refine safe_delExp (post_firm _ _ _) hw ?_
    refine post_ret (t := v.now) (Int.le_refl _) (Int.le_refl _) ?_
    rw [he]
    simp only [Cache.expires, h, if_true]
    show _ = (({ ({ v with data := upd v.data k (some (.scalar s)) } : Mem).abs with exp := upd v.exp k none } : Cache), o)
    rw [abs_store]
    rfl
  · rename_i h
    rw [Prog.assoc]
    refine safe_clock (post_firm _ _ _) (fun t ht => ?_)
    refine safe_storeExp (post_firm _ _ _) hw hd ?_
    refine post_ret (t := t) ht (Int.le_refl _) ?_
    rw [he]
    simp only [Cache.expires, h, if_false]
    show _ = (({ ({ v with data := upd v.data k (some (.scalar s)) } : Mem).abs with
      exp := upd v.exp k (some (t + dur.toInt)) } : Cache), o)
    rw [abs_store]
    rfl

theorem safe_string (op : Call) (hD : ∀ k, D k → v.exp k = none) (hp : Plain D op) {k : Bytes}
    (hk : op.keys = some [k]) (hnh : match op with
      | .set .. | .setNX .. | .setEX .. | .pSetEX .. | .get .. | .getSet .. | .strLen .. | .append .. | .setRange ..
      | .getRange .. | .incr .. | .incrBy .. | .decr .. | .decrBy .. | .incrByFloat .. | .del .. | .type .. | .list .. => True
      | _ => False) :
    Safe (touches op) (may D op) D (Post v.abs v.now op) (prog op) v := by
  have ht := touches_one hk
  have hr := may_read (D := D) (op := op) ht hD
  have hf := post_firm v.abs v.now op
  cases op with
  | set j x =>
    cases hk
    exact safe_storeData hf (.inl (by simp [Call.writes]))
      (post_ret (t := v.now) (Int.le_refl _) (Int.le_refl _) (by simp [exec, Cache.set, abs_store]))
  | setNX j x =>
    cases hk
    refine safe_loadOrStore hf ht (.inl (by simp [Call.writes])) (fun x hx => ?_) (fun hx => ?_)
    · have hd : v.abs.data k = some (x.val v.heap) := by rw [abs_data, hx]; rfl
      exact post_ret (t := v.now) (Int.le_refl _) (Int.le_refl _) (by simp [exec, Cache.setNX, hd, GoRes.map, GoRes.bind])
    · have hd : v.abs.data k = none := by rw [abs_data, hx]; rfl
      exact post_ret (t := v.now) (Int.le_refl _) (Int.le_refl _) (by simp [exec, Cache.setNX, hd, GoRes.map, GoRes.bind, abs_store])
  | setEX j x n => cases hk; exact safe_expires (by simp [Call.writes]) hp (fun t => rfl)
  | pSetEX j x n => cases hk; exact safe_expires (by simp [Call.writes]) hp (fun t => rfl)
  | get j =>
    cases hk
    refine safe_getP hf ht hr (fun t htt => ?_)
    cases hd : (v.load t k).2 with
    | none => exact post_ret htt (Int.le_refl t) (by simp only [exec, Cache.get, load_none hd])
    | some x => exact post_ret htt (Int.le_refl t) (by simp only [exec, Cache.get, load_some hd, fmtCell_val])
  | getSet j x =>
    cases hk
    have hw : may D (.getSet k x) k := .inl (by simp [Call.writes])
    refine safe_getP hf ht hr (fun t htt => ?_)
    refine safe_storeData hf hw ?_
    cases hd : (v.load t k).2 with
    | none => exact post_ret htt (Int.le_refl t) (by simp only [exec, Cache.getSet, load_none hd, abs_store])
    | some x => exact post_ret htt (Int.le_refl t) (by simp only [exec, Cache.getSet, load_some hd, fmtCell_val, abs_store])
  | strLen j =>
    cases hk
    refine safe_getP hf ht hr (fun t htt => ?_)
    cases hd : (v.load t k).2 with
    | none => exact post_ret htt (Int.le_refl t) (by simp only [exec, Cache.strLen, Cache.loadLive, load_none hd])
    | some x => exact post_ret htt (Int.le_refl t) (by simp only [exec, Cache.strLen, Cache.loadLive, load_some hd, fmtCell_val])
  | append j x =>
    cases hk
    have hw : may D (.append k x) k := .inl (by simp [Call.writes])
    refine safe_getP hf ht hr (fun t htt => ?_)
    cases hd : (v.load t k).2 with
    | none =>
      refine safe_storeData hf hw ?_
      exact post_ret htt (Int.le_refl t) (by simp only [exec, Cache.append, Cache.loadLive, load_none hd, abs_store])
    | some y =>
      simp only
      cases hs : fmtCell y with
      | ok s =>
        refine safe_storeData hf hw ?_
        exact post_ret htt (Int.le_refl t)
          (by simp only [exec, Cache.append, Cache.loadLive, load_some hd, fmtCell_val, hs, abs_store])
      | err e => exact post_ret htt (Int.le_refl t) (by simp only [exec, Cache.append, Cache.loadLive, load_some hd, fmtCell_val, hs])
      | panic => exact post_ret htt (Int.le_refl t) (by simp only [exec, Cache.append, Cache.loadLive, load_some hd, fmtCell_val, hs])
  | setRange j n x =>
    cases hk
    have hw : may D (.setRange k n x) k := .inl (by simp [Call.writes])
    simp only [prog]
    split
    · rename_i h
      exact post_ret (t := v.now) (Int.le_refl _) (Int.le_refl _) (by simp only [exec, Cache.setRange, h, if_true])
    rename_i h
    refine safe_getP hf ht hr (fun t htt => ?_)
    cases hd : (v.load t k).2 with
    | none =>
      simp only
      split
      · rename_i h1
        exact post_ret htt (Int.le_refl t)
          (by simp only [exec, Cache.setRange, Cache.loadLive, load_none hd, h, h1, if_false, if_true])
      rename_i h1
      refine safe_storeData hf hw ?_
      exact post_ret htt (Int.le_refl t)
        (by simp only [exec, Cache.setRange, Cache.loadLive, load_none hd, abs_store, h, h1, if_false])
    | some y =>
      simp only
      cases hs : fmtCell y with
      | ok s =>
        simp only
        split
        · rename_i h1
          exact post_ret htt (Int.le_refl t)
            (by simp only [exec, Cache.setRange, Cache.loadLive, load_some hd, fmtCell_val, hs, h, h1, if_false, if_true])
        rename_i h1
        refine safe_storeData hf hw ?_
        exact post_ret htt (Int.le_refl t)
          (by simp only [exec, Cache.setRange, Cache.loadLive, load_some hd, fmtCell_val, hs, abs_store, h, h1, if_false])
      | err e =>
        exact post_ret htt (Int.le_refl t)
          (by simp only [exec, Cache.setRange, Cache.loadLive, load_some hd, fmtCell_val, hs, h, if_false])
      | panic =>
        exact post_ret htt (Int.le_refl t)
          (by simp only [exec, Cache.setRange, Cache.loadLive, load_some hd, fmtCell_val, hs, h, if_false])
  | getRange j a b =>
    cases hk
    refine safe_getP hf ht hr (fun t htt => ?_)
    cases hd : (v.load t k).2 with
    | none => exact post_ret htt (Int.le_refl t) (by simp only [exec, Cache.getRange, Cache.loadLive, load_none hd])
    | some x => exact post_ret htt (Int.le_refl t) (by simp only [exec, Cache.getRange, Cache.loadLive, load_some hd, fmtCell_val])
  | incr j => cases hk; exact safe_incrBy rfl (by simp [Call.writes]) (fun t => rfl)
  | incrBy j n => cases hk; exact safe_incrBy rfl (by simp [Call.writes]) (fun t => rfl)
  | decr j => cases hk; exact safe_incrBy rfl (by simp [Call.writes]) (fun t => rfl)
  | decrBy j n => cases hk; exact safe_incrBy rfl (by simp [Call.writes]) (fun t => rfl)
  | incrByFloat j x =>
    cases hk
    have hw : may D (.incrByFloat k x) k := .inl (by simp [Call.writes])
    refine safe_loadOrStore hf ht hw (fun y hy => ?_) (fun hy => ?_)
    · have hd : v.abs.data k = some (y.val v.heap) := by rw [abs_data, hy]; rfl
      cases y with
      | ref p => exact post_ret (t := v.now) (Int.le_refl _) (Int.le_refl _) (by simp [exec, Cache.incrByFloat, hd, Cell.val])
      | time p => exact post_ret (t := v.now) (Int.le_refl _) (Int.le_refl _) (by simp [exec, Cache.incrByFloat, hd, Cell.val])
      | scalar s =>
        cases s
        all_goals
          first
          | exact post_ret (t := v.now) (Int.le_refl _) (Int.le_refl _) (by simp [exec, Cache.incrByFloat, hd, Cell.val])
          | exact safe_storeData hf hw (post_ret (t := v.now) (Int.le_refl _) (Int.le_refl _)
              (by simp [exec, Cache.incrByFloat, hd, Cell.val, abs_store]))
    · have hd : v.abs.data k = none := by rw [abs_data, hy]; rfl
      exact post_ret (t := v.now) (Int.le_refl _) (Int.le_refl _) (by simp [exec, Cache.incrByFloat, hd, abs_store])
  | del j =>
    cases hk
    have hw : may D (.del k) k := .inl (by simp [Call.writes])
    refine safe_getP hf ht hr (fun t htt => ?_)
    refine safe_delData hf hw ?_
    refine safe_delExp hf hw ?_
    refine post_ret htt (Int.le_refl t) ?_
    show _ = (({ ({ v.loaded t k with data := upd (v.loaded t k).data k none } : Mem).abs with
      exp := upd (v.loaded t k).exp k none } : Cache), _)
    rw [abs_delData]
    simp only [exec, Cache.del, load_abs, Option.isSome_map]
    rfl
  | type j =>
    cases hk
    refine safe_getP hf ht hr (fun t htt => ?_)
    cases hd : (v.load t k).2 with
    | none => exact post_ret htt (Int.le_refl t) (by simp only [exec, Cache.type, load_none hd])
    | some x => exact post_ret htt (Int.le_refl t) (by simp only [exec, Cache.type, load_some hd])
  | list j => exact post_ret (t := v.now) (Int.le_refl _) (Int.le_refl _) rfl
  | _ => exact hnh.elim

theorem does_weaken {K W : Bytes → Prop} {α β : Type} {k : Bytes} {body : Nat → MP α} {B : HashEntry → HashEntry × α}
    {f : α → β} (h : Does K W D k body B) :
    Does K W D k (fun p => body p >>= fun a => .ret (f a)) (fun e => ((B e).1, f (B e).2)) := by
  intro p x hx hd
  refine safe_bind (h p x hx hd) ?_
  rintro a y ⟨rfl, hy⟩
  exact ⟨rfl, hy⟩

theorem does_set {K W : Bytes → Prop} {k f s : Bytes} (hk : K k) (hw : W k) :
    Does K W D k (fun p => setP p f s) (fun e => e.set f s) := fun _ _ _ hd => safe_setP hk hd hw

theorem safe_hash (op : Call) (hv : v.WF) (hD : ∀ k, D k → v.exp k = none) {k : Bytes}
    (hk : op.keys = some [k]) (hnh : match op with
      | .hSet .. | .hSetNX .. | .hExists .. | .hDel .. | .hLen .. | .hStrLen .. | .hGet .. | .hIncrBy .. | .hIncrByFloat ..
      | .hMSet .. | .hMGet .. | .hKeys .. | .hVals .. | .hGetAll .. => True
      | _ => False) :
    Safe (touches op) (may D op) D (Post v.abs v.now op) (prog op) v := by
  have ht := touches_one hk
  have hr := may_read (D := D) (op := op) ht hD
  cases op with
  | hSet j f s =>
    cases hk
    have hw : may D (.hSet k f s) k := .inl (by simp [Call.writes])
    exact ans_post (g := Out.int) (safe_fetchP (B := fun e => ((e.set f s).1, .ok (e.set f s).2))
      (does_weaken (f := fun n => (.ok n : Res Int)) (does_set ht hw)) hv ht hw) (fun t => rfl)
  | hSetNX j f s =>
    cases hk
    have hw : may D (.hSetNX k f s) k := .inl (by simp [Call.writes])
    let B : HashEntry → HashEntry × Res Int := fun h =>
      match hfind h.fields f with
      | some _ => (h, .ok 0)
      | none => ({ fields := hput h.fields f (.str s), length := h.length + 1 }, .ok 1)
    refine ans_post (g := Out.int) (F := fun t => v.abs.withHash t k B) (safe_fetchP (B := B) ?_ hv ht hw) (fun t => rfl)
    intro p x hx hd
    refine safe_entry (is_firm _ _) ht hd (.inl hw) (fun _ h => distinct_loadOrStore h _ _) ?_
    cases hf : hfind (x.heap p).fields f with
    | some y => simp only [B, hf, Option.isSome_some, if_true, put_self]; exact safe_is rfl
    | none =>
      simp only [B, hf, Option.isSome_none, Bool.false_eq_true, if_false]
      refine safe_bind (safe_lenAdd ht (by simpa using hd) hw) ?_
      rintro _ y ⟨_, hy⟩
      exact ⟨rfl, by simpa using hy⟩
  | hExists j f =>
    cases hk
    have hw : may D (.hExists k f) k := .inl (by simp [Call.writes])
    refine ans_post (g := Out.int) (F := fun t => v.abs.hExists t k f) (safe_updP (r0 := .ok 0) (B := fun h =>
      ({ h with length := h.length - if (h.get f).isSome then 1 else 0 }, .ok (if (h.get f).isSome then 1 else 0)))
      rfl ?_ hv ht hw) (fun t => rfl)
    intro p x hx hd
    refine safe_entry (is_firm _ _) ht hd (.inr fun _ => rfl) (fun _ h => h) ?_
    simp only [id, put_self]
    refine safe_bind (safe_lenAdd ht hd hw) ?_
    rintro _ y ⟨_, hy⟩
    refine ⟨by simp [HashEntry.get], ?_⟩
    simpa [HashEntry.get, Int.sub_eq_add_neg] using hy
  | hDel j fs =>
    cases hk
    have hw : may D (.hDel k fs) k := .inl (by simp [Call.writes])
    refine ans_post (g := Out.int) (F := fun t => v.abs.hDel t k fs) (safe_updP (r0 := .ok 0) (B := fun h =>
      (hDelEntry h fs 0, .ok (Cache.hDelLoop fs h.fields 0).2)) rfl ?_ hv ht hw) (fun t => rfl)
    intro p x hx hd
    exact safe_hDelP ht hw fs 0 hd
  | hLen j =>
    cases hk
    refine ans_post (g := Out.int) (F := fun t => v.abs.hLen t k) (safe_readP (fun x => safe_is rfl) ?_ hv ht hr) (fun t => rfl)
    intro p x hx hd
    refine safe_entry (is_firm _ _) ht hd (.inr fun _ => rfl) (fun _ h => h) ?_
    simp only [id, put_self]
    exact safe_is rfl
  | hStrLen j f =>
    cases hk
    refine ans_post (g := Out.int) (F := fun t => v.abs.hStrLen t k f) (safe_readP (fun x => safe_is rfl) ?_ hv ht hr) (fun t => rfl)
    intro p x hx hd
    refine safe_entry (is_firm _ _) ht hd (.inr fun _ => rfl) (fun _ h => h) ?_
    simp only [id, put_self, HashEntry.get]
    cases hfind (x.heap p).fields f <;> exact safe_is rfl
  | hGet j f =>
    cases hk
    refine ans_post (g := Out.str) (F := fun t => v.abs.hGet t k f) (safe_readP (fun x => safe_is rfl) ?_ hv ht hr) (fun t => rfl)
    intro p x hx hd
    refine safe_entry (is_firm _ _) ht hd (.inr fun _ => rfl) (fun _ h => h) ?_
    simp only [id, put_self, HashEntry.get]
    cases hfind (x.heap p).fields f <;> exact safe_is rfl
  | hIncrBy j f n =>
    cases hk
    have hw : may D (.hIncrBy k f n) k := .inl (by simp [Call.writes])
    refine ans_post (g := fun r => Out.int (r.map Int64.toInt)) (F := fun t => v.abs.hIncrBy t k f n)
      (safe_fetchP (B := fun h =>
        match hfind h.fields f with
        | none => ((h.set f (itoa n)).1, .ok n)
        | some v =>
          match Cache.hIncrScalar n v with
          | .ok m => ((h.set f (itoa n)).1, .ok m)
          | r => (h, r)) ?_ hv ht hw) (fun t => rfl)
    intro p x hx hd
    refine safe_entry (is_firm _ _) ht hd (.inr fun _ => rfl) (fun _ h => h) ?_
    simp only [id, put_self]
    cases hf : hfind (x.heap p).fields f with
    | none =>
      refine safe_bind (safe_setP ht hd hw) ?_
      rintro _ y ⟨_, hy⟩
      exact ⟨rfl, hy⟩
    | some s =>
      simp only
      cases hs : Cache.hIncrScalar n s with
      | ok m =>
        refine safe_bind (safe_setP ht hd hw) ?_
        rintro _ y ⟨_, hy⟩
        exact ⟨rfl, hy⟩
      | err e => simp only [put_self]; exact safe_is rfl
      | panic => simp only [put_self]; exact safe_is rfl
  | hIncrByFloat j f n =>
    cases hk
    have hw : may D (.hIncrByFloat k f n) k := .inl (by simp [Call.writes])
    refine ans_post (g := Out.float) (F := fun t => v.abs.hIncrByFloat t k f n)
      (safe_fetchP (B := fun h =>
        match hfind h.fields f with
        | none => ((h.set f (formatFloat n)).1, .ok n)
        | some v =>
          match Cache.hIncrFloatScalar n v with
          | .ok m => ((h.set f (formatFloat n)).1, .ok m)
          | r => (h, r)) ?_ hv ht hw) (fun t => rfl)
    intro p x hx hd
    refine safe_entry (is_firm _ _) ht hd (.inr fun _ => rfl) (fun _ h => h) ?_
    simp only [id, put_self]
    cases hf : hfind (x.heap p).fields f with
    | none =>
      refine safe_bind (safe_setP ht hd hw) ?_
      rintro _ y ⟨_, hy⟩
      exact ⟨rfl, hy⟩
    | some s =>
      simp only
      cases hs : Cache.hIncrFloatScalar n s with
      | ok m =>
        refine safe_bind (safe_setP ht hd hw) ?_
        rintro _ y ⟨_, hy⟩
        exact ⟨rfl, hy⟩
      | err e => simp only [put_self]; exact safe_is rfl
      | panic => simp only [put_self]; exact safe_is rfl
  | hMSet j fv =>
    cases hk
    have hw : may D (.hMSet k fv) k := .inl (by simp [Call.writes])
    exact ans_post (g := Out.int) (F := fun t => v.abs.hMSet t k fv) (safe_fetchP (B := fun h =>
      ((Cache.hMSetLoop fv h 0).1, .ok (Cache.hMSetLoop fv h 0).2)) (fun p x hx hd => safe_hMSetP ht hw fv 0 hd) hv ht hw)
      (fun t => rfl)
  | hMGet j fs =>
    cases hk
    refine ans_post (g := Out.slots) (F := fun t => v.abs.hMGet t k fs) (safe_readP (fun x => ?_) ?_ hv ht hr) (fun t => rfl)
    · refine safe_bind (safe_hMGetP_nil fs) ?_
      rintro rs y ⟨rfl, hy⟩
      exact ⟨rfl, hy⟩
    · intro p x hx hd
      refine safe_bind (safe_hMGetP ht fs hd) ?_
      rintro rs y ⟨rfl, hy⟩
      exact ⟨rfl, hy⟩
  | hKeys j =>
    cases hk
    refine ans_post (g := Out.strs) (F := fun t => v.abs.hKeys t k) (safe_readP (fun x => safe_is rfl) ?_ hv ht hr) (fun t => rfl)
    intro p x hx hd
    refine safe_entry (is_firm _ _) ht hd (.inr fun _ => rfl) (fun _ h => h) ?_
    simp only [id, put_self]
    refine safe_bind (safe_hKeysP ht _ hd) ?_
    rintro rs y ⟨rfl, hy⟩
    refine ⟨?_, hy⟩
    rw [names_found]
  | hVals j =>
    cases hk
    refine ans_post (g := Out.strs) (F := fun t => v.abs.hVals t k) (safe_readP (fun x => safe_is rfl) ?_ hv ht hr) (fun t => rfl)
    intro p x hx hd
    refine safe_entry (is_firm _ _) ht hd (.inr fun _ => rfl) (fun _ h => h) ?_
    simp only [id, put_self]
    refine safe_bind (safe_hValsP ht _ hd) ?_
    rintro rs y ⟨rfl, hy⟩
    refine ⟨?_, hy⟩
    exact congrArg _ (vals_found (hx.names p))
  | hGetAll j =>
    cases hk
    refine ans_post (g := Out.pairs) (F := fun t => v.abs.hGetAll t k) (safe_readP (fun x => safe_is rfl) ?_ hv ht hr) (fun t => rfl)
    intro p x hx hd
    refine safe_entry (is_firm _ _) ht hd (.inr fun _ => rfl) (fun _ h => h) ?_
    simp only [id, put_self]
    exact (safe_hGetAllP ht _ hd).weaken (fun a y h => ⟨h.1.trans (getAll_empty _).symm, h.2⟩)
  | _ => exact hnh.elim

theorem cron_cell (w : Mem) (t : Int) (k : Bytes) :
    ((w.abs.cronTick t).data k, (w.abs.cronTick t).exp k) =
      ((cronCell t (w.data k) (w.exp k)).1.map (Cell.val w.heap), (cronCell t (w.data k) (w.exp k)).2) := by
  unfold Cache.cronTick
  simp only [abs_data]
  cases hd : w.data k with
  | none => rfl
  | some x =>
    cases x with
    | time s =>
      simp only [Option.map_some, Cell.val, Cache.cronEntry, cronCell]
      by_cases h : s < t
      · simp [h, upd]
      · simp [h, abs_data, hd, Cell.val]; rfl
    | scalar s =>
      simp only [Option.map_some, Cell.val, Cache.cronEntry, cronCell]
      by_cases h : Cache.zeroTime < t
      · simp [h, upd]
      · simp [h, abs_data, hd, Cell.val]
    | ref p =>
      simp only [Option.map_some, Cell.val, Cache.cronEntry, cronCell]
      by_cases h : Cache.zeroTime < t
      · simp [h, upd]
      · simp [h, abs_data, hd, Cell.val]

theorem cron_sub {t : Int} {d : Option Cell} {e : Option Int} {x : Cell} (h : (cronCell t d e).1 = some x) : d = some x := by
  cases d with
  | none => simp [cronCell] at h
  | some y =>
    cases y <;> simp only [cronCell] at h <;> split at h <;> simp_all

theorem cron_dead (t : Int) (d : Option Cell) : (cronCell t d none).2 = none := by
  cases d with
  | none => rfl
  | some y => cases y <;> simp only [cronCell] <;> split <;> rfl

/-- The memory after one sweep at time `t`. -/
def Mem.swept (w : Mem) (t : Int) : Mem :=
  { w with
    data := fun k => (cronCell t (w.data k) (w.exp k)).1
    exp := fun k => (cronCell t (w.data k) (w.exp k)).2 }

theorem swept_wf {w : Mem} (hw : w.WF) (t : Int) : (w.swept t).WF :=
  ⟨fun _ _ h => hw.alloc _ _ (cron_sub h), fun _ _ _ h h' => hw.inj _ _ _ (cron_sub h) (cron_sub h'), hw.names⟩

theorem swept_abs (w : Mem) (t : Int) : (w.swept t).abs = w.abs.cronTick t := by
  have h := cron_cell w t
  refine Cache.ext' (fun k => ?_) (fun k => ?_)
  · exact (congrArg Prod.fst (h k)).symm
  · exact (congrArg Prod.snd (h k)).symm

/-- **One call among others.**  Started on `v`, while others leave the touched keys alone, the body
of the call answers and leaves the touched keys like one sequential call on `v.abs`; it changes only
keys it may change. -/
theorem safe_prog (op : Call) (hv : v.WF) (hD : ∀ k, D k → v.exp k = none) (hp : Plain D op) :
    Safe (touches op) (may D op) D (Post v.abs v.now op) (prog op) v := by
  have hf := post_firm v.abs v.now op
  cases op with
  | mSet kv =>
    refine safe_bind (safe_mSetP kv (fun p hp => .inl ?_)) ?_
    · simp only [Call.writes, List.any_eq_true]
      exact ⟨p, hp, by simp⟩
    · rintro _ y ⟨_, hy⟩
      obtain ⟨h1, h2⟩ := storeAll_abs v kv
      refine ⟨v.now, Int.le_refl _, by rw [← h2]; exact hy.now, rfl, fun k hk => ?_⟩
      show SameAt (v.abs.mSet kv).1 _ k
      rw [← h1]
      exact hy.sameAt hk
  | mSetNX kv =>
    refine safe_bind (safe_mSetNXP kv 0 (fun p hp => ?_) (fun p hp => .inl ?_)) ?_
    · intro ks hks
      cases hks
      exact List.mem_map_of_mem hp
    · simp only [Call.writes, List.any_eq_true]
      exact ⟨p, hp, by simp⟩
    · rintro n y ⟨rfl, hy⟩
      obtain ⟨h1, h2, h3⟩ := storeNX_abs v kv 0
      refine ⟨v.now, Int.le_refl _, by rw [← h3]; exact hy.now, ?_, fun k hk => ?_⟩
      · rw [h2]; rfl
      · show SameAt (v.abs.mSetNXLoop kv 0).1 _ k
        rw [← h1]
        exact hy.sameAt hk
  | mGet ks =>
    have hall : ∀ k ∈ ks, touches (.mGet ks) k := fun k hk ks' h => by cases h; exact hk
    rcases hp with hp | hp
    · refine safe_bind (safe_mGetP ks hall (fun k hk => hD k (hp k hk))) ?_
      rintro rs y ⟨rfl, hy, hc⟩
      refine ⟨v.now, Int.le_refl _, hy.now, rfl, fun k hk => ?_⟩
      show SameAt (v.abs.mGet v.now ks).1 _ k
      rw [hc]
      exact hy.sameAt hk
    · match ks, hp with
      | [], _ => exact post_ret (t := v.now) (Int.le_refl _) (Int.le_refl _) rfl
      | [k], _ =>
        have ht := hall k (by simp)
        simp only [prog, mGetP]
        rw [Prog.assoc]
        refine safe_getP hf ht (may_read ht hD) (fun t htt => ?_)
        cases hd : (v.load t k).2 with
        | none => exact post_ret htt (Int.le_refl t) (by simp only [exec, Cache.mGet, Cache.get, load_none hd])
        | some x => exact post_ret htt (Int.le_refl t) (by simp only [exec, Cache.mGet, Cache.get, load_some hd, fmtCell_val])
  | exists_ ks =>
    refine safe_bind (safe_existsP ks 0 (fun k hk ks' h => by cases h; exact hk)) ?_
    rintro n y ⟨rfl, hy⟩
    exact ⟨v.now, Int.le_refl _, hy.now, rfl, fun k hk => hy.sameAt hk⟩
  | flush =>
    have hw : ∀ k, may D .flush k := fun k => .inl rfl
    refine safe_prim hf (fun w hwf hr => ⟨?_, ?_, { v with data := fun _ => none }, ?_, ?_⟩)
    · exact ⟨fun _ _ h => by simp at h, fun _ _ _ h => by simp at h, hwf.names⟩
    · exact ⟨fun k hk => absurd (hw k) hk, fun _ _ => rfl, fun _ _ _ _ => rfl, fun _ _ h => h, Nat.le_refl _, rfl⟩
    · exact ⟨fun _ _ => rfl, hr.exp, fun _ _ _ h => by simp at h, hr.next, hr.now⟩
    refine safe_prim hf (fun w hwf hr => ⟨?_, ?_, { v with data := fun _ => none, exp := fun _ => none }, ?_, ?_⟩)
    · exact ⟨hwf.alloc, hwf.inj, hwf.names⟩
    · exact ⟨fun _ _ => rfl, fun k hk => absurd (hw k) hk, fun _ _ _ _ => rfl, fun _ _ _ => rfl, Nat.le_refl _, rfl⟩
    · exact ⟨hr.data, fun _ _ => rfl, hr.heap, hr.next, hr.now⟩
    exact post_ret (t := v.now) (Int.le_refl _) (Int.le_refl _) rfl
  | cronTick =>
    have hw : ∀ k, may D .cronTick k := fun k => .inl rfl
    have ht : ∀ k, touches .cronTick k := touches_all rfl
    refine safe_prim hf (fun w hwf hr => ⟨swept_wf hwf w.now, ?_, { v.swept w.now with now := w.now }, ?_, ?_⟩)
    · refine ⟨fun k hk => absurd (hw k) hk, fun k hk => absurd (hw k) hk, fun _ _ _ _ => rfl, fun k hk h => ?_, Nat.le_refl _, rfl⟩
      show (cronCell _ _ (w.exp k)).2 = none
      rw [h]
      exact cron_dead _ _
    · refine ⟨fun k hk => ?_, fun k hk => ?_, fun k p hk h => hr.heap k p hk (cron_sub h), hr.next, Int.le_refl _⟩
      · show (cronCell _ (w.data k) (w.exp k)).1 = (cronCell _ (v.data k) (v.exp k)).1
        rw [hr.data k hk, hr.exp k hk]
      · show (cronCell _ (w.data k) (w.exp k)).2 = (cronCell _ (v.data k) (v.exp k)).2
        rw [hr.data k hk, hr.exp k hk]
    · refine post_ret (t := w.now) hr.now (Int.le_refl _) ?_
      show _ = ((v.swept w.now).abs, Out.unit)
      rw [swept_abs]
      rfl
  | set k _ | setNX k _ | setEX k _ _ | pSetEX k _ _ | get k | getSet k _ | strLen k | append k _ | setRange k _ _
  | getRange k _ _ | incr k | incrBy k _ | decr k | decrBy k _ | incrByFloat k _ | del k | type k | list k =>
    exact safe_string _ hD hp (k := k) rfl trivial
  | hSet k _ _ | hSetNX k _ _ | hExists k _ | hDel k _ | hLen k | hStrLen k _ | hGet k _ | hIncrBy k _ _ | hIncrByFloat k _ _
  | hMSet k _ | hMGet k _ | hKeys k | hVals k | hGetAll k =>
    exact safe_hash _ hv hD (k := k) rfl trivial

end

end Verif.Conc.Full

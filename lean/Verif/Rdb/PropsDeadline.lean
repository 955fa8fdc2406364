import Verif.Rdb.PropsLoad
/-!
# C66, at the server: which deadlines the keys of a snapshot get

The deadline in a snapshot is a point in time, the command that is sent takes a duration.
-/
namespace Verif.Rdb
open Verif.Resp

/-- `pExpire` at time `now`. -/
theorem exec_pexpire (now : Int) (d : SDb) (k : Bytes) (v : SVal) (hk : d.val k = some v) (t : Nat) (ht : t < 2 ^ 63) :
    (exec now d [b!"pExpire", k, natText t]).deadline = upd d.deadline k (some (now + t)) := by
  obtain ⟨x, h1, h2⟩ := atoi_natText ht
  have hl : lower b!"pExpire" = b!"pexpire" := by decide
  simp only [exec, hl, h1, hk]
  rw [if_neg (by decide), if_neg (by decide), if_neg (by decide), if_neg (by decide), if_neg (by decide), if_neg (by decide), if_pos trivial]
  simp [h2]

/-- Creating a value sets no deadline. -/
theorem exec_recreate_deadline (now : Int) (d : SDb) (key : Bytes) (hk : d.val key = none) (hd : d.deadline key = none) (x : Data)
    (hne : x.NonEmpty) (hz : ∀ vs, x ≠ .zset vs) : (exec now d (recreate key x)).deadline = d.deadline := by
  cases x with
  | str s =>
    have hl : lower b!"set" = b!"set" := by decide
    simp only [recreate, exec, hl, if_true]
    funext k
    simp only [upd]
    split
    · rename_i e; rw [e, hd]
    · rfl
  | list vs =>
    have hl : lower b!"rPush" = b!"rpush" := by decide
    cases vs with
    | nil => exact absurd rfl hne
    | cons v vs =>
      simp only [recreate, exec, hl]
      rw [if_neg (by decide), if_pos trivial]
      simp only [hk]
  | set vs =>
    have hl : lower b!"sAdd" = b!"sadd" := by decide
    cases vs with
    | nil => exact absurd rfl hne
    | cons v vs =>
      simp only [recreate, exec, hl]
      rw [if_neg (by decide), if_neg (by decide), if_neg (by decide), if_pos trivial]
      simp only [hk]
  | zset vs => exact absurd rfl (hz vs)
  | hash vs =>
    have hl : lower b!"hmSet" = b!"hmset" := by decide
    cases vs with
    | nil => exact absurd rfl hne
    | cons v vs =>
      have he := flat_even (v :: vs)
      simp only [List.flatMap_cons, List.cons_append, List.nil_append] at he
      simp only [recreate, exec, hl, List.flatMap_cons, List.cons_append, List.nil_append]
      rw [if_neg (by decide), if_neg (by decide), if_neg (by decide), if_neg (by decide), if_pos trivial, if_pos he]
      simp only [hk]

theorem replay_deadlines (now : Int) (db : Nat) (hdb : db < 2 ^ 63) (recs : List KeyRec)
    (hd : recs.Pairwise fun a b => a.db ≠ b.db ∨ a.key ≠ b.key) (hne : ∀ k ∈ recs, k.data.NonEmpty ∧ (∀ vs, k.data ≠ .zset vs) ∧ k.db < 2 ^ 63)
    (ht : ∀ k ∈ recs, ∀ t, k.deadline = some t → t < 2 ^ 63)
    (d : SDb) (hk : ∀ k ∈ recs, k.db = db → d.val k.key = none ∧ d.deadline k.key = none) (key : Bytes) :
    (replay now db d (recs.flatMap keyCmds)).deadline key =
      match recs.find? (fun k => k.db = db ∧ k.key = key) with
      | some k => k.deadline.map fun t : Nat => now + (t : Int)
      | none => d.deadline key := by
  induction recs generalizing d with
  | nil => rfl
  | cons k recs ih =>
    obtain ⟨hd1, hd2⟩ := List.pairwise_cons.mp hd
    obtain ⟨n1, n2, n3⟩ := hne k (by simp)
    have hne' := fun k h => hne k (List.mem_cons_of_mem _ h)
    have ht' := fun k h => ht k (List.mem_cons_of_mem _ h)
    have split : replay now db d ((k :: recs).flatMap keyCmds) = replay now db (replay now db d (keyCmds k)) (recs.flatMap keyCmds) := by
      simp [replay, List.filter_append, List.foldl_append]
    rw [split]
    by_cases hkd : k.db = db
    · obtain ⟨a1, a2⟩ := hk k (by simp) hkd
      have h1 := exec_recreate now d k.key a1 k.data n1 n2
      have h2 := exec_recreate_deadline now d k.key a1 a2 k.data n1 n2
      have hval : (replay now db d (keyCmds k)).val = upd d.val k.key (some k.data.live) := by
        unfold keyCmds
        cases k.deadline with
        | none => simp [replay, hkd, h1]
        | some t => simp [replay, hkd, exec_pexpire_val, h1]
      have hdl : (replay now db d (keyCmds k)).deadline = upd d.deadline k.key (k.deadline.map fun t : Nat => now + (t : Int)) := by
        unfold keyCmds
        cases hkt : k.deadline with
        | none =>
          rw [show (replay now db d [(Int64.ofNat k.db, recreate k.key k.data)]) = exec now d (recreate k.key k.data) by simp [replay, hkd], h2]
          funext x
          simp only [upd]
          split
          · rename_i e; rw [e, a2]; rfl
          · rfl
        | some t =>
          rw [show (replay now db d [(Int64.ofNat k.db, recreate k.key k.data), (Int64.ofNat k.db, [b!"pExpire", k.key, natText t])]) =
              exec now (exec now d (recreate k.key k.data)) [b!"pExpire", k.key, natText t] by simp [replay, hkd]]
          rw [exec_pexpire now _ k.key k.data.live (by rw [h1]; simp [upd]) t (ht k (by simp) t hkt), h2]
          rfl
      have hk' : ∀ x ∈ recs, x.db = db →
          (replay now db d (keyCmds k)).val x.key = none ∧ (replay now db d (keyCmds k)).deadline x.key = none := by
        intro x hx hxd
        rw [hval, hdl]
        have : x.key ≠ k.key := by
          rcases hd1 x hx with h | h
          · exact absurd (hkd.trans hxd.symm) h
          · exact fun e => h e.symm
        simp only [upd, this, if_false]
        exact hk x (by simp [hx]) hxd
      rw [ih hd2 hne' ht' _ hk', hdl, List.find?_cons]
      by_cases hkk : k.key = key
      · subst hkk
        have hno : recs.find? (fun x => x.db = db ∧ x.key = k.key) = none := by
          rw [List.find?_eq_none]
          intro x hx
          rcases hd1 x hx with h | h
          · simp only [decide_eq_true_eq, not_and]; intro e; exact absurd (hkd.trans e.symm) h
          · simp only [decide_eq_true_eq, not_and]; intro _ e; exact h e.symm
        rw [hno]; simp [hkd]
      · have hkk' : key ≠ k.key := fun e => hkk e.symm
        simp [hkk, hkk', upd]
    · have hval : replay now db d (keyCmds k) = d := by
        have : ¬ Int64.ofNat k.db = Int64.ofNat db := fun e => hkd ((ofNat_inj n3 hdb).mp e)
        unfold keyCmds
        cases k.deadline with
        | none => simp [replay, this]
        | some t => simp [replay, this]
      rw [hval, ih hd2 hne' ht' d (fun x hx => hk x (by simp [hx])), List.find?_cons]
      simp [hkd]

theorem meaning_deadlines {items : List Item} (hs : ∀ i ∈ items, i.Supported) (hv : ∀ i ∈ items, i.Valid) (e : Option Nat) (db : Nat)
    (he : ∀ t, e = some t → t < 2 ^ 63) : ∀ k ∈ meaning e db items, ∀ t, k.deadline = some t → t < 2 ^ 63 := by
  induction items generalizing e db with
  | nil => simp [meaning]
  | cons it items ih =>
    have hs' := fun i h => hs i (List.mem_cons_of_mem _ h)
    have hv' := fun i h => hv i (List.mem_cons_of_mem _ h)
    have hs1 := hs it (by simp)
    have hv1 := hv it (by simp)
    cases it with
    | expireS t =>
      have hs1 : 1000 * t < 2 ^ 32 := hs1
      exact ih hs' hv' _ _ (by intro u hu; simp only [Option.some.injEq] at hu; omega)
    | expireMs t =>
      have hv1 : 0 < t ∧ t < 2 ^ 63 := hv1
      exact ih hs' hv' _ _ (by intro u hu; simp only [Option.some.injEq] at hu; omega)
    | entry k v =>
      intro x hx
      rcases List.mem_cons.mp hx with rfl | hx
      · exact he
      · exact ih hs' hv' none _ (by simp) x hx
    | _ => exact ih hs' hv' _ _ he

/-- C66 at the server: a file of supported records with no key twice is loaded at time `now`; a server that starts empty and executes the
commands gives every key the deadline of the file, shifted by the time of loading, and no deadline to a key that has none. -/
theorem C66_replayed_partial (ord : MapOrd) (hord : ∀ n l, (ord n l).Perm l) (hdr : Bytes) (hh : Header hdr) (items : List Item)
    (hs : ∀ i ∈ items, i.Supported) (hv : ∀ i ∈ items, i.Valid)
    (hd : (meaning none 0 items).Pairwise fun a b => a.db ≠ b.db ∨ a.key ≠ b.key) (rest : Bytes) (r : Rd)
    (h : Holds (filePieces hdr items) rest r) (now : Int) (db : Nat) (hdb : db < 2 ^ 63) :
    ∃ s', load ord .init r = (.ok (), s') ∧ ∀ key, (replay now db .empty s'.out).deadline key =
      ((meaning none 0 items).find? (fun k => k.db = db ∧ k.key = key)).bind fun k => k.deadline.map fun t : Nat => now + (t : Int) := by
  obtain ⟨s', h1, h2⟩ := load_at hord hh hs hv h (s := .init) (db := 0) rfl
  refine ⟨s', h1, fun key => ?_⟩
  rw [h2, show LState.init.out = [] from rfl, List.nil_append, replay_deadlines now db hdb _ hd (meaning_recs hs hv none 0 (by decide))
    (meaning_deadlines hs hv none 0 (by simp)) .empty (fun _ _ _ => ⟨rfl, rfl⟩)]
  cases (meaning none 0 items).find? (fun k => k.db = db ∧ k.key = key) <;> rfl

/-- C66, another way it fails: of the keys of such a file exactly those without a deadline end up right, unless the file is loaded at time 0. -/
theorem C66_violated_relative (ord : MapOrd) (hord : ∀ n l, (ord n l).Perm l) (hdr : Bytes) (hh : Header hdr) (items : List Item)
    (hs : ∀ i ∈ items, i.Supported) (hv : ∀ i ∈ items, i.Valid)
    (hd : (meaning none 0 items).Pairwise fun a b => a.db ≠ b.db ∨ a.key ≠ b.key) (rest : Bytes) (r : Rd)
    (h : Holds (filePieces hdr items) rest r) (now : Int) (hnow : now ≠ 0) :
    ∃ s', load ord .init r = (.ok (), s') ∧ ∀ k ∈ meaning none 0 items,
      ((replay now k.db .empty s'.out).deadline k.key = k.deadline.map (fun t : Nat => (t : Int)) ↔ k.deadline = none) := by
  obtain ⟨s', h1, h2⟩ := load_at hord hh hs hv h (s := .init) (db := 0) rfl
  refine ⟨s', h1, fun k hk => ?_⟩
  have hdb := (meaning_recs hs hv none 0 (by decide) k hk).2.2
  obtain ⟨s'', g1, g2⟩ := C66_replayed_partial ord hord hdr hh items hs hv hd rest r h now k.db hdb
  obtain rfl : s'' = s' := (Prod.mk.inj (g1.symm.trans h1)).2
  rw [g2]
  have hf : (meaning none 0 items).find? (fun x => x.db = k.db ∧ x.key = k.key) = some k := by
    clear g2 h2 g1 h1 h hs hv
    generalize meaning none 0 items = l at hd hk
    induction l with
    | nil => simp at hk
    | cons x l ih =>
      obtain ⟨d1, d2⟩ := List.pairwise_cons.mp hd
      rw [List.find?_cons]
      rcases List.mem_cons.mp hk with rfl | hk'
      · simp
      · have : ¬ (x.db = k.db ∧ x.key = k.key) := by
          rintro ⟨a, b⟩
          rcases d1 k hk' with e | e
          · exact e a
          · exact e b
        simp only [this, decide_false]
        exact ih d2 hk'
  rw [hf]
  simp only [Option.bind_some]
  cases k.deadline with
  | none => simp
  | some t =>
    simp only [Option.map_some, Option.some.injEq, reduceCtorEq, iff_false]
    intro e
    have e : now + (t : Int) = (t : Int) := e
    omega

example : ∃ s', load idOrd .init (file (bytes (filePieces b!"REDIS0009" sampleItems) ++ [])) = (.ok (), s') ∧
    ∀ k ∈ meaning none 0 sampleItems,
      ((replay 1700000000000 k.db .empty s'.out).deadline k.key = k.deadline.map (fun t : Nat => (t : Int)) ↔ k.deadline = none) :=
  C66_violated_relative idOrd idOrd_perm b!"REDIS0009" rfl sampleItems sampleItems_ok.1 sampleItems_ok.2
    (by simp [sampleItems, meaning, StrEnc.value]) [] _ (holds_small _ _ (by decide +kernel)) _ (by decide)

end Verif.Rdb

import Verif.Cache.Rename
import Verif.Cache.Origin
import Verif.Cache.PropsSet
import Verif.Cache.PropsHash
import Verif.Cache.PropsDb
/-!
# C97–C100: names, clock, origin of values, independent calls
-/
namespace Verif
open Cache

/-! ## C97: names are opaque -/

/-- C97: replacing the key names and the field names of a history through injective maps changes
nothing but the names in the answers. -/
theorem C97_names (ρ φ : Bytes → Bytes) (hρ : ∀ a b, ρ a = ρ b → a = b) (hφ : ∀ a b, φ a = φ b → a = b)
    (h : History) :
    outs Cache.new (h.map fun p => (p.1, (Renaming.mk ρ φ 0 hρ hφ).call p.2)) =
      (Renaming.mk ρ φ 0 hρ hφ).answers h (outs Cache.new h) := by
  have := Renaming.Sim.outs (R := Renaming.mk ρ φ 0 hρ hφ) (c := Cache.new) (d := Cache.new)
    ⟨fun _ => rfl, fun _ => rfl⟩ h (fun p _ => by simp)
  simpa [Renaming.hist] using this

theorem answers_id (ρ : Bytes → Bytes) (δ : Int) (hρ : ∀ a b, ρ a = ρ b → a = b) (hi) (c : Cache) (h : History) :
    (Renaming.mk ρ id δ hρ hi).answers h (outs c h) = outs c h := by
  induction h generalizing c with
  | nil => rfl
  | cons p h ih =>
    obtain ⟨t, op⟩ := p
    simp only [outs, Renaming.answers, ih]
    congr 1
    generalize (exec c t op).2 = o
    cases op <;> cases o <;> simp [Renaming.out] <;> rename_i r <;> cases r <;>
      simp [GoRes.map, GoRes.bind]

/-- C97 for keys: an application that maps its key names injectively (for example by a prefix of
its own) gets exactly the same answers. -/
theorem C97_key_names (ρ : Bytes → Bytes) (hρ : ∀ a b, ρ a = ρ b → a = b) (h : History) :
    outs Cache.new (h.map fun p => (p.1, (Renaming.mk ρ id 0 hρ (fun _ _ h => h)).call p.2)) =
      outs Cache.new h := by
  rw [C97_names, answers_id]

example : (∀ a b : Bytes, b!"tenant:" ++ a = b!"tenant:" ++ b → a = b) ∧
    (Renaming.mk (b!"tenant:" ++ ·) id 0 (by simp) (fun _ _ h => h)).call (.mSet [(b!"a", b!"1"), (b!"b", b!"2")]) =
      .mSet [(b!"tenant:a", b!"1"), (b!"tenant:b", b!"2")] := by
  constructor
  · intro a b h; exact List.append_cancel_left h
  · rfl

/-- Without injectivity it fails: two keys under one name. -/
example : outs Cache.new [(0, .set b!"a" b!"1"), (0, .get b!"b")] ≠
    outs Cache.new [(0, .set b!"x" b!"1"), (0, .get b!"x")] := by decide +kernel

/-! ## C98: only elapsed time counts -/

/-- C98: moving every clock reading by the same amount changes no answer (clock readings after
the year 1, where Go's zero time is). -/
theorem C98_time_shift (δ : Int) (h : History)
    (ht : ∀ p ∈ h, yearOne < p.1 ∧ yearOne < p.1 + δ) :
    outs Cache.new (h.map fun p => (p.1 + δ, p.2)) = outs Cache.new h := by
  rw [← zeroTime_eq] at ht
  have := Renaming.Sim.outs (R := Renaming.mk id id δ (fun _ _ h => h) (fun _ _ h => h)) (c := Cache.new)
    (d := Cache.new) ⟨fun _ => rfl, fun _ => rfl⟩ h (fun p hp => ⟨fun _ => (ht p hp).2, fun _ => (ht p hp).1⟩)
  rw [answers_id] at this
  rw [← this]
  congr 1
  simp only [Renaming.hist]
  congr 1
  funext p
  obtain ⟨t, op⟩ := p
  cases op <;> simp [Renaming.call]

example : ∀ p ∈ ([(0, .pSetEX b!"k" b!"a" 5), (4000000, .get b!"k"), (6000000, .get b!"k"), (7000000, .cronTick)] : History),
    yearOne < p.1 ∧ yearOne < p.1 + 1700000000000000000 := by decide

/-! ## C99: nothing out of thin air -/

/-- The call can bring the key `k` into being. -/
def Creates (op : Call) (k : Bytes) : Prop := (∃ w, Gives op k w) ∨ Edits op k ∨ MakesHash op k

theorem present_origin {c : Cache} {k : Bytes} (hc : c.data k = none) (h : History) {v : Val}
    (hv : (run c h).data k = some v) : ∃ p ∈ h, Creates p.2 k := by
  induction h generalizing c with
  | nil => simp [run, hc] at hv
  | cons p h ih =>
    obtain ⟨t, op⟩ := p
    cases hd : (exec c t op).1.data k with
    | none =>
      obtain ⟨q, hq, hx⟩ := ih hd hv
      exact ⟨q, by simp [hq], hx⟩
    | some w =>
      refine ⟨(t, op), by simp, ?_⟩
      cases exec_puts c t op k w hd with
      | old _ h => rw [hc] at h; cases h
      | assign w h => exact .inl ⟨w, h⟩
      | edit s h => exact .inr (.inl h)
      | hash e e' h _ => rw [hc] at h; cases h
      | newHash e' h _ => exact .inr (.inr h)

/-- The value a scalar can have at `k` after `h` when no call computed one. -/
theorem scalar_origin {c : Cache} {k : Bytes} (h : History) (hn : ∀ p ∈ h, ¬ Edits p.2 k) {s : Scalar}
    (hv : (run c h).data k = some (.scalar s)) :
    c.data k = some (.scalar s) ∨ ∃ p ∈ h, ∃ w, Gives p.2 k w ∧ s = tryInt64 w := by
  induction h generalizing c with
  | nil => exact .inl hv
  | cons p h ih =>
    obtain ⟨t, op⟩ := p
    rcases ih (fun p hp => hn p (by simp [hp])) hv with h1 | ⟨q, hq, hx⟩
    · generalize hv' : Val.scalar s = v at h1
      cases exec_puts c t op k v h1 with
      | old _ h => subst hv'; exact .inl h
      | assign w h => cases hv'; exact .inr ⟨(t, op), by simp, w, h, rfl⟩
      | edit s h => exact absurd h (hn (t, op) (by simp))
      | hash e e' h _ => cases hv'
      | newHash e' h _ => cases hv'
    · exact .inr ⟨q, by simp [hq], hx⟩

/-- The value a field can have at `k` after `h`. -/
theorem field_origin {c : Cache} {k f : Bytes} (h : History) {e : HashEntry} {s : Scalar}
    (hv : (run c h).data k = some (.hash e)) (hs : (f, s) ∈ e.fields) :
    (∃ e0, c.data k = some (.hash e0) ∧ (f, s) ∈ e0.fields) ∨
      ∃ p ∈ h, ∃ w, GivesField p.2 k f w ∧ (s = tryInt64 w ∨ s = .str w) := by
  induction h generalizing c with
  | nil => exact .inl ⟨e, hv, hs⟩
  | cons p h ih =>
    obtain ⟨t, op⟩ := p
    rcases ih hv with ⟨e0, h1, h2⟩ | ⟨q, hq, hx⟩
    · generalize hv' : Val.hash e0 = v at h1
      cases exec_puts c t op k v h1 with
      | old _ h => subst hv'; exact .inl ⟨e0, h, h2⟩
      | assign w h => cases hv'
      | edit s h => cases hv'
      | hash e1 e' h hf =>
        cases hv'
        rcases hf _ h2 with h3 | ⟨w, h3, h4⟩
        · exact .inl ⟨e1, h, h3⟩
        · exact .inr ⟨(t, op), by simp, w, h3, h4⟩
      | newHash e' h hf =>
        cases hv'
        rcases hf _ h2 with h3 | ⟨w, h3, h4⟩
        · simp [HashEntry.empty] at h3
        · exact .inr ⟨(t, op), by simp, w, h3, h4⟩
    · exact .inr ⟨q, by simp [hq], hx⟩

/-- Where a history starts afresh for `k`: a new cache, or right after Del or Flush. -/
inductive Fresh (k : Bytes) : Cache → Prop
  | new : Fresh k Cache.new
  | del (c t) : Fresh k (exec c t (.del k)).1
  | flush (c t) : Fresh k (exec c t .flush).1

theorem Fresh.data {k : Bytes} {c : Cache} (h : Fresh k c) : c.data k = none := by
  cases h with
  | new => rfl
  | del c t => simp [exec, Cache.del]
  | flush c t => rfl

/-- C99, existence: a key that Exists counts was created by some call of the history since the
cache was new, the key was deleted or the cache flushed. -/
theorem C99_key_origin (c : Cache) (k : Bytes) (hc : Fresh k c) (h : History) (t : Int)
    (hv : (exec (run c h) t (.exists_ [k])).2 = .int (.ok 1)) : ∃ p ∈ h, Creates p.2 k := by
  cases hd : (run c h).data k with
  | none => simp [exec, Cache.exists, hd] at hv
  | some v => exact present_origin hc.data h hd

/-- C99, values: if no call of the history computed a value for the key, the text Get shows is the
text of a value some call of the history gave for that very key. -/
theorem C99_value_origin (c : Cache) (k : Bytes) (hc : Fresh k c) (h : History)
    (hn : ∀ p ∈ h, ¬ Edits p.2 k) (t : Int) (v : Bytes)
    (hv : (exec (run c h) t (.get k)).2 = .str (.ok v)) :
    ∃ p ∈ h, ∃ w, Gives p.2 k w ∧ v = canon w := by
  have hv' : showVal (liveVal (run c h) t k) = .ok v := by
    simpa [exec, get_snd] using hv
  cases hl : liveVal (run c h) t k with
  | none => rw [hl] at hv'; simp [showVal] at hv'
  | some w =>
    rw [hl] at hv'
    have hd := liveVal_data hl
    cases w with
    | scalar s =>
      rcases scalar_origin h hn hd with h1 | ⟨p, hp, w, h1, h2⟩
      · rw [hc.data] at h1; cases h1
      · refine ⟨p, hp, w, h1, ?_⟩
        simp [showVal, fmtString] at hv'
        rw [← hv', h2, fmtScalar_tryInt64]
    | hash e => simp [showVal, fmtString] at hv'
    | time e => simp [showVal, fmtString] at hv'

/-- C99, fields: the text HGet shows is (the canonical text of) a text some call of the history
gave for that very field of that very hash. -/
theorem C99_field_origin (c : Cache) (k f : Bytes) (hc : Fresh k c) (h : History) (t : Int) (v : Bytes)
    (hv : (exec (run c h) t (.hGet k f)).2 = .str (.ok v)) :
    ∃ p ∈ h, ∃ w, GivesField p.2 k f w ∧ (v = canon w ∨ v = w) := by
  simp only [exec, hGet, readHash_snd] at hv
  cases ha : asHash (liveVal (run c h) t k) with
  | err e => simp [ha, GoRes.bind] at hv
  | panic => simp [ha, GoRes.bind] at hv
  | ok o =>
    cases o with
    | none => simp [ha, GoRes.bind] at hv
    | some e =>
      simp only [ha, GoRes.bind, HashEntry.get] at hv
      cases hf : hfind e.fields f with
      | none => simp [hf] at hv
      | some s =>
        simp [hf] at hv
        rcases field_origin h (asHash_some ha) (hfind_mem hf) with ⟨e0, h1, _⟩ | ⟨p, hp, w, h1, h2⟩
        · rw [hc.data] at h1; cases h1
        · refine ⟨p, hp, w, h1, ?_⟩
          rcases h2 with rfl | rfl
          · left; rw [← hv, fmtScalar_tryInt64]
          · right; exact hv.symm

/-- A history that meets the hypotheses and where the value comes from the second of three calls. -/
example : Fresh b!"k" Cache.new ∧
    (∀ p ∈ ([(1, .set b!"k" b!"x"), (2, .mSet [(b!"a", b!"y"), (b!"k", b!"0x")]), (3, .setNX b!"k" b!"z")] : History),
      ¬ Edits p.2 b!"k") ∧
    (exec (run Cache.new [(1, .set b!"k" b!"x"), (2, .mSet [(b!"a", b!"y"), (b!"k", b!"0x")]), (3, .setNX b!"k" b!"z")])
      4 (.get b!"k")).2 = .str (.ok b!"0x") := by
  refine ⟨.new, ?_, by decide +kernel⟩
  intro p hp
  simp at hp
  rcases hp with rfl | rfl | rfl <;> (intro h; cases h)

example : (exec (run Cache.new [(1, .hSet b!"k" b!"f" b!"x"), (2, .hMSet b!"k" [(b!"f", b!"007")])]) 4
    (.hGet b!"k" b!"f")).2 = .str (.ok b!"7") := by decide +kernel

/-! ## C100: independent calls commute -/

/-- `h` interleaves `h1` and `h2` (each keeps its own order). -/
inductive Merge : History → History → History → Prop
  | nil : Merge [] [] []
  | left (p h1 h2 h) : Merge h1 h2 h → Merge (p :: h1) h2 (p :: h)
  | right (p h1 h2 h) : Merge h1 h2 h → Merge h1 (p :: h2) (p :: h)

/-- Every call of the history names its keys and all of them satisfy `P`. -/
def Names (P : Bytes → Prop) (h : History) : Prop :=
  ∀ p ∈ h, ∃ ks, p.2.keys = some ks ∧ ∀ k ∈ ks, P k

theorem Merge.symm {a b h : History} (m : Merge a b h) : Merge b a h := by
  induction m with
  | nil => exact .nil
  | left p _ _ _ _ ih => exact .right p _ _ _ ih
  | right p _ _ _ _ ih => exact .left p _ _ _ ih

theorem Merge.append (a b : History) : Merge a b (a ++ b) := by
  induction a with
  | nil =>
    induction b with
    | nil => exact .nil
    | cons p b ih => exact .right p _ _ _ ih
  | cons p a ih => exact .left p _ _ _ ih

theorem Merge.run_same {P : Bytes → Prop} {a b h : History} (m : Merge a b h)
    (ha : Names P a) (hb : Names (fun k => ¬ P k) b) {c d : Cache} (hcd : ∀ k, P k → SameAt c d k) :
    ∀ k, P k → SameAt (run c h) (run d a) k := by
  induction m generalizing c d with
  | nil => exact hcd
  | left p a b h m ih =>
    obtain ⟨t, op⟩ := p
    refine ih (fun p hp => ha p (by simp [hp])) hb (exec_congr hcd t op ?_).2
    intro ks hk
    obtain ⟨ks', hk', hp⟩ := ha (t, op) (by simp)
    simp only at hk'
    rw [hk] at hk'; cases hk'; exact hp
  | right p a b h m ih =>
    obtain ⟨t, op⟩ := p
    obtain ⟨ks, hk, hp⟩ := hb (t, op) (by simp)
    exact ih ha (fun p hp => hb p (by simp [hp]))
      (fun k hk' => (exec_frame c t op ks k hk (fun hm => hp k hm hk')).trans (hcd k hk'))

/-- C100: two callers that use disjoint sets of keys: whatever way their calls interleave, the
cache ends in the state where one caller went first and the other followed. -/
theorem C100_any_interleaving (P : Bytes → Prop) (c : Cache) (a b h : History) (m : Merge a b h)
    (ha : Names P a) (hb : Names (fun k => ¬ P k) b) : run c h = run (run c a) b := by
  have ha' : Names (fun k => ¬ ¬ P k) a := fun p hp => by
    obtain ⟨ks, h1, h2⟩ := ha p hp
    exact ⟨ks, h1, fun k hk hn => hn (h2 k hk)⟩
  have key : ∀ k, SameAt (run c h) (run (run c a) b) k := by
    intro k
    rw [← run_append]
    rcases Classical.em (P k) with hk | hk
    · exact (m.run_same ha hb (c := c) (d := c) (fun _ _ => .rfl') k hk).trans
        ((Merge.append a b).run_same ha hb (c := c) (d := c) (fun _ _ => .rfl') k hk).symm
    · exact (m.symm.run_same hb ha' (c := c) (d := c) (fun _ _ => .rfl') k hk).trans
        ((Merge.append a b).symm.run_same hb ha' (c := c) (d := c) (fun _ _ => .rfl') k hk).symm
  exact Cache.ext' (fun k => (key k).1) (fun k => (key k).2)

/-- C100 for two calls: same state and same answers in either order. -/
theorem C100_commute (c : Cache) (s t : Int) (x y : Call) (xs ys : List Bytes)
    (hx : x.keys = some xs) (hy : y.keys = some ys) (hd : ∀ k ∈ xs, k ∉ ys) :
    (exec (exec c s x).1 t y).1 = (exec (exec c t y).1 s x).1 ∧
    (exec (exec c s x).1 t y).2 = (exec c t y).2 ∧ (exec (exec c t y).1 s x).2 = (exec c s x).2 := by
  have nx : Names (· ∈ xs) [(s, x)] := by
    intro p hp; simp at hp; subst hp; exact ⟨xs, hx, fun k h => h⟩
  have ny : Names (fun k => ¬ k ∈ xs) [(t, y)] := by
    intro p hp; simp at hp; subst hp; exact ⟨ys, hy, fun k h hk => hd k hk h⟩
  refine ⟨?_, ?_, ?_⟩
  · exact (C100_any_interleaving (· ∈ xs) c [(s, x)] [(t, y)] [(t, y), (s, x)]
      (.right _ _ _ _ (.left _ _ _ _ .nil)) nx ny).symm
  · exact (exec_congr (P := (· ∈ ys)) (fun k hk => exec_frame c s x xs k hx (fun h => hd k h hk)) t y
      (fun ks h => by rw [hy] at h; cases h; exact fun k h => h)).1
  · exact (exec_congr (P := (· ∈ xs)) (fun k hk => exec_frame c t y ys k hy (hd k hk)) s x
      (fun ks h => by rw [hx] at h; cases h; exact fun k h => h)).1

example : Merge [(1, .set b!"a" b!"1"), (4, .incr b!"a")] [(2, .hSet b!"h" b!"f" b!"v"), (3, .append b!"b" b!"x")]
      [(1, .set b!"a" b!"1"), (2, .hSet b!"h" b!"f" b!"v"), (3, .append b!"b" b!"x"), (4, .incr b!"a")] ∧
    Names (· = b!"a") [(1, .set b!"a" b!"1"), (4, .incr b!"a")] ∧
    Names (fun k => ¬ k = b!"a") [(2, .hSet b!"h" b!"f" b!"v"), (3, .append b!"b" b!"x")] := by
  refine ⟨.left _ _ _ _ (.right _ _ _ _ (.right _ _ _ _ (.left _ _ _ _ .nil))), ?_, ?_⟩
  · intro p hp; simp at hp; rcases hp with rfl | rfl <;> exact ⟨_, rfl, by simp⟩
  · intro p hp; simp at hp; rcases hp with rfl | rfl <;> exact ⟨_, rfl, by simp⟩

end Verif

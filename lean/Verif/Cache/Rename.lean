import Verif.Cache.Inv
/-!
# Renaming keys and fields, and moving the clock

A simulation used for C97 and C98: if every key and field name of a history is replaced through
an injective map and every clock reading is moved by the same amount, the cache goes through the
correspondingly renamed states.
-/
namespace Verif
open Cache

/-- Replace key names by `ρ`, field names by `φ`, and move the clock by `δ`. -/
structure Renaming where
  ρ : Bytes → Bytes
  φ : Bytes → Bytes
  δ : Int
  ρ_inj : ∀ a b, ρ a = ρ b → a = b
  φ_inj : ∀ a b, φ a = φ b → a = b

namespace Renaming
variable (R : Renaming)

/-- The same call with the names replaced. -/
def call : Call → Call
  | .set k v => .set (R.ρ k) v
  | .setNX k v => .setNX (R.ρ k) v
  | .setEX k v s => .setEX (R.ρ k) v s
  | .pSetEX k v s => .pSetEX (R.ρ k) v s
  | .get k => .get (R.ρ k)
  | .getSet k v => .getSet (R.ρ k) v
  | .strLen k => .strLen (R.ρ k)
  | .append k v => .append (R.ρ k) v
  | .setRange k p r => .setRange (R.ρ k) p r
  | .getRange k a b => .getRange (R.ρ k) a b
  | .incr k => .incr (R.ρ k)
  | .incrBy k n => .incrBy (R.ρ k) n
  | .incrByFloat k x => .incrByFloat (R.ρ k) x
  | .decr k => .decr (R.ρ k)
  | .decrBy k n => .decrBy (R.ρ k) n
  | .mSet kv => .mSet (kv.map fun p => (R.ρ p.1, p.2))
  | .mSetNX kv => .mSetNX (kv.map fun p => (R.ρ p.1, p.2))
  | .mGet ks => .mGet (ks.map R.ρ)
  | .del k => .del (R.ρ k)
  | .flush => .flush
  | .exists_ ks => .exists_ (ks.map R.ρ)
  | .type k => .type (R.ρ k)
  | .hSet k f v => .hSet (R.ρ k) (R.φ f) v
  | .hSetNX k f v => .hSetNX (R.ρ k) (R.φ f) v
  | .hExists k f => .hExists (R.ρ k) (R.φ f)
  | .hDel k fs => .hDel (R.ρ k) (fs.map R.φ)
  | .hLen k => .hLen (R.ρ k)
  | .hStrLen k f => .hStrLen (R.ρ k) (R.φ f)
  | .hGet k f => .hGet (R.ρ k) (R.φ f)
  | .hIncrBy k f n => .hIncrBy (R.ρ k) (R.φ f) n
  | .hIncrByFloat k f x => .hIncrByFloat (R.ρ k) (R.φ f) x
  | .hMSet k fv => .hMSet (R.ρ k) (fv.map fun p => (R.φ p.1, p.2))
  | .hMGet k fs => .hMGet (R.ρ k) (fs.map R.φ)
  | .hKeys k => .hKeys (R.ρ k)
  | .hVals k => .hVals (R.ρ k)
  | .hGetAll k => .hGetAll (R.ρ k)
  | .list k => .list (R.ρ k)
  | .cronTick => .cronTick

/-- The same answer with the names replaced: only `HKeys` and `HGetAll` return names. -/
def out : Call → Out → Out
  | .hKeys _, .strs r => .strs (r.map (List.map R.φ))
  | .hGetAll _, .pairs r => .pairs (r.map (List.map fun p => (R.φ p.1, p.2)))
  | _, o => o

/-- The same history with the names replaced and the clock moved. -/
def hist (h : History) : History := h.map fun p => (p.1 + R.δ, R.call p.2)

/-- The answers of `h`, with the names replaced. -/
def answers : History → List Out → List Out
  | (_, op) :: h, o :: os => R.out op o :: answers h os
  | _, _ => []

def entry (h : HashEntry) : HashEntry :=
  { fields := h.fields.map fun p => (R.φ p.1, p.2), length := h.length }

def val : Val → Val
  | .scalar v => .scalar v
  | .hash h => .hash (R.entry h)
  | .time t => .time (t + R.δ)

/-- `d` is `c` with the names replaced and the deadlines moved. -/
structure Sim (c d : Cache) : Prop where
  data : ∀ k, d.data (R.ρ k) = (c.data k).map R.val
  exp : ∀ k, d.exp (R.ρ k) = (c.exp k).map (· + R.δ)

variable {R} {c d : Cache} {t : Int} {k : Bytes}

theorem ρ_iff {a b : Bytes} : R.ρ a = R.ρ b ↔ a = b := ⟨R.ρ_inj a b, fun h => h ▸ rfl⟩
theorem φ_iff {a b : Bytes} : R.φ a = R.φ b ↔ a = b := ⟨R.φ_inj a b, fun h => h ▸ rfl⟩

theorem upd_ρ {α β : Type} {f : Bytes → Option α} {g : Bytes → Option β} {m : α → β}
    (h : ∀ j, g (R.ρ j) = (f j).map m) (k : Bytes) (o : Option α) (j : Bytes) :
    upd g (R.ρ k) (o.map m) (R.ρ j) = (upd f k o j).map m := by
  simp only [upd, ρ_iff]
  split
  · rfl
  · exact h j

theorem Sim.store (h : R.Sim c d) (k : Bytes) (v : Val) : R.Sim (c.store k v) (d.store (R.ρ k) (R.val v)) :=
  ⟨fun j => upd_ρ h.data k (some v) j, h.exp⟩

theorem Sim.erase (h : R.Sim c d) (k : Bytes) :
    R.Sim { data := upd c.data k none, exp := upd c.exp k none }
      { data := upd d.data (R.ρ k) none, exp := upd d.exp (R.ρ k) none } :=
  ⟨fun j => upd_ρ h.data k none j, fun j => upd_ρ h.exp k none j⟩

theorem Sim.expires (h : R.Sim c d) (t : Int) (k : Bytes) (n : Int64) :
    R.Sim (c.expires t k n) (d.expires (t + R.δ) (R.ρ k) n) := by
  unfold Cache.expires
  split
  · exact ⟨h.data, fun j => upd_ρ h.exp k none j⟩
  · refine ⟨h.data, fun j => ?_⟩
    have := upd_ρ h.exp k (some (t + n.toInt)) j
    simp only [Option.map_some] at this
    have e : t + R.δ + n.toInt = t + n.toInt + R.δ := by omega
    rw [e]
    exact this

theorem Sim.load (h : R.Sim c d) (t : Int) (k : Bytes) :
    (d.load (t + R.δ) (R.ρ k)).2 = ((c.load t k).2).map R.val ∧
      R.Sim (c.load t k).1 (d.load (t + R.δ) (R.ρ k)).1 := by
  have hd := h.data k
  have he := h.exp k
  cases h1 : c.data k with
  | none => rw [h1] at hd; simp [Cache.load, h1, hd]; exact h
  | some v =>
    rw [h1] at hd
    cases h2 : c.exp k with
    | none => rw [h2] at he; simp [Cache.load, Cache.expired, h1, hd, h2, he]; exact h
    | some e =>
      rw [h2] at he
      by_cases hl : e < t
      · have : e + R.δ < t + R.δ := by omega
        simp [Cache.load, Cache.expired, h1, hd, h2, he, hl]
        exact h.erase k
      · have : ¬ e + R.δ < t + R.δ := by omega
        simp [Cache.load, Cache.expired, h1, hd, h2, he, hl]
        exact h

theorem fmtString_val (v : Val) : fmtString (R.val v) = fmtString v := by cases v <;> rfl

theorem hfind_entry (fs : List (Bytes × Scalar)) (f : Bytes) :
    hfind (fs.map fun p => (R.φ p.1, p.2)) (R.φ f) = hfind fs f := by
  induction fs with
  | nil => rfl
  | cons p fs ih => obtain ⟨g, w⟩ := p; simp only [List.map_cons, hfind, φ_iff, ih]

theorem hput_entry (fs : List (Bytes × Scalar)) (f : Bytes) (v : Scalar) :
    hput (fs.map fun p => (R.φ p.1, p.2)) (R.φ f) v = (hput fs f v).map fun p => (R.φ p.1, p.2) := by
  induction fs with
  | nil => rfl
  | cons p fs ih =>
    obtain ⟨g, w⟩ := p
    simp only [List.map_cons, hput, φ_iff, ih]
    split <;> rfl

theorem hdelete_entry (fs : List (Bytes × Scalar)) (f : Bytes) :
    hdelete (fs.map fun p => (R.φ p.1, p.2)) (R.φ f) = (hdelete fs f).map fun p => (R.φ p.1, p.2) := by
  induction fs with
  | nil => rfl
  | cons p fs ih =>
    obtain ⟨g, w⟩ := p
    simp only [List.map_cons, hdelete, φ_iff, ih]
    split <;> rfl

theorem hDelLoop_entry (ks : List Bytes) (fs : List (Bytes × Scalar)) (n : Int) :
    hDelLoop (ks.map R.φ) (fs.map fun p => (R.φ p.1, p.2)) n =
      (((hDelLoop ks fs n).1).map fun p => (R.φ p.1, p.2), (hDelLoop ks fs n).2) := by
  induction ks generalizing fs n with
  | nil => rfl
  | cons f ks ih =>
    simp only [List.map_cons, hDelLoop, hfind_entry]
    cases hfind fs f with
    | none => exact ih fs n
    | some v => simp only [hdelete_entry]; exact ih _ _

theorem get_entry (h : HashEntry) (f : Bytes) : (R.entry h).get (R.φ f) = h.get f := by
  simp [HashEntry.get, entry, hfind_entry]

theorem set_entry (h : HashEntry) (f v : Bytes) :
    (R.entry h).set (R.φ f) v = (R.entry (h.set f v).1, (h.set f v).2) := by
  simp [HashEntry.set, entry, hfind_entry, hput_entry]

theorem entry_empty : R.entry HashEntry.empty = HashEntry.empty := rfl

theorem hMSetLoop_entry (fv : List (Bytes × Bytes)) (h : HashEntry) (n : Int) :
    hMSetLoop (fv.map fun p => (R.φ p.1, p.2)) (R.entry h) n =
      (R.entry (hMSetLoop fv h n).1, (hMSetLoop fv h n).2) := by
  induction fv generalizing h n with
  | nil => rfl
  | cons p fv ih =>
    obtain ⟨f, v⟩ := p
    simp only [List.map_cons, hMSetLoop, set_entry]
    exact ih _ _

theorem Sim.getHash (h : R.Sim c d) (t : Int) (k : Bytes) :
    (d.getHash (t + R.δ) (R.ρ k)).2 = ((c.getHash t k).2).map (Option.map R.entry) ∧
      R.Sim (c.getHash t k).1 (d.getHash (t + R.δ) (R.ρ k)).1 := by
  have hl := h.load t k
  unfold Cache.getHash
  revert hl
  generalize c.load t k = p; generalize d.load (t + R.δ) (R.ρ k) = q
  obtain ⟨c', o⟩ := p; obtain ⟨d', o'⟩ := q
  rintro ⟨h1, h2⟩
  simp only at h1 h2
  subst h1
  cases o with
  | none => exact ⟨rfl, h2⟩
  | some v => cases v <;> exact ⟨rfl, h2⟩

theorem Sim.withHash {α : Type} (h : R.Sim c d) (t : Int) (k : Bytes)
    {f g : HashEntry → HashEntry × Res α} (hf : ∀ e, g (R.entry e) = (R.entry (f e).1, (f e).2)) :
    (d.withHash (t + R.δ) (R.ρ k) g).2 = (c.withHash t k f).2 ∧
      R.Sim (c.withHash t k f).1 (d.withHash (t + R.δ) (R.ρ k) g).1 := by
  have hl := h.getHash t k
  unfold Cache.withHash
  revert hl
  generalize c.getHash t k = p; generalize d.getHash (t + R.δ) (R.ρ k) = q
  obtain ⟨c', o⟩ := p; obtain ⟨d', o'⟩ := q
  rintro ⟨h1, h2⟩
  simp only at h1 h2
  subst h1
  cases o with
  | ok o =>
    cases o with
    | none =>
      have := hf HashEntry.empty
      rw [entry_empty] at this
      simp only [GoRes.map, GoRes.bind, Option.map_none, Option.getD_none, this]
      exact ⟨trivial, h2.store k (.hash _)⟩
    | some e =>
      simp only [GoRes.map, GoRes.bind, Option.map_some, Option.getD_some, hf]
      exact ⟨trivial, h2.store k (.hash _)⟩
  | err e => exact ⟨rfl, h2⟩
  | panic => exact ⟨rfl, h2⟩

theorem Sim.readHash {α β : Type} (h : R.Sim c d) (t : Int) (k : Bytes) (m : α → β)
    {f : Option HashEntry → Res α} {g : Option HashEntry → Res β}
    (hf : ∀ o, g (o.map R.entry) = (f o).map m) :
    (d.readHash (t + R.δ) (R.ρ k) g).2 = ((c.readHash t k f).2).map m ∧
      R.Sim (c.readHash t k f).1 (d.readHash (t + R.δ) (R.ρ k) g).1 := by
  have hl := h.getHash t k
  unfold Cache.readHash
  revert hl
  generalize c.getHash t k = p; generalize d.getHash (t + R.δ) (R.ρ k) = q
  obtain ⟨c', o⟩ := p; obtain ⟨d', o'⟩ := q
  rintro ⟨h1, h2⟩
  simp only at h1 h2
  subst h1
  cases o with
  | ok o => exact ⟨hf o, h2⟩
  | err e => exact ⟨rfl, h2⟩
  | panic => exact ⟨rfl, h2⟩

theorem res_map_id {α : Type} (r : Res α) : r.map (fun a => a) = r := by cases r <;> rfl

theorem Sim.readHash' {α : Type} (h : R.Sim c d) (t : Int) (k : Bytes)
    {f g : Option HashEntry → Res α} (hf : ∀ o, g (o.map R.entry) = f o) :
    (d.readHash (t + R.δ) (R.ρ k) g).2 = (c.readHash t k f).2 ∧
      R.Sim (c.readHash t k f).1 (d.readHash (t + R.δ) (R.ρ k) g).1 := by
  have := h.readHash t k (fun a => a) (f := f) (g := g) (fun o => by rw [hf, res_map_id])
  rw [res_map_id] at this
  exact this

theorem Sim.incrBy (h : R.Sim c d) (k : Bytes) (n : Int64) :
    (d.incrBy (R.ρ k) n).2 = (c.incrBy k n).2 ∧ R.Sim (c.incrBy k n).1 (d.incrBy (R.ρ k) n).1 := by
  unfold Cache.incrBy
  rw [h.data]
  cases c.data k with
  | none => exact ⟨rfl, h.store k _⟩
  | some v =>
    cases v with
    | scalar s =>
      simp only [Option.map_some, val]
      cases incrScalar n s with
      | none => exact ⟨rfl, h⟩
      | some p => exact ⟨rfl, h.store k _⟩
    | _ => exact ⟨rfl, h⟩

theorem Sim.incrByFloat (h : R.Sim c d) (k : Bytes) (x : F64) :
    (d.incrByFloat (R.ρ k) x).2 = (c.incrByFloat k x).2 ∧
      R.Sim (c.incrByFloat k x).1 (d.incrByFloat (R.ρ k) x).1 := by
  unfold Cache.incrByFloat
  rw [h.data]
  cases c.data k with
  | none => exact ⟨rfl, h.store k _⟩
  | some v =>
    cases v with
    | scalar s =>
      cases s with
      | float f => exact ⟨rfl, h.store k _⟩
      | int n => exact ⟨rfl, h.store k _⟩
      | _ => exact ⟨rfl, h⟩
    | _ => exact ⟨rfl, h⟩

theorem Sim.mSetFold (h : R.Sim c d) (kv : List (Bytes × Bytes)) :
    R.Sim (kv.foldl (fun c p => c.store p.1 (.scalar (tryInt64 p.2))) c)
      ((kv.map fun p => (R.ρ p.1, p.2)).foldl (fun c p => c.store p.1 (.scalar (tryInt64 p.2))) d) := by
  induction kv generalizing c d with
  | nil => exact h
  | cons p kv ih => exact ih (h.store p.1 _)

theorem Sim.mSetNXLoop (h : R.Sim c d) (kv : List (Bytes × Bytes)) (n : Int) :
    (Cache.mSetNXLoop d (kv.map fun p => (R.ρ p.1, p.2)) n).2 = (Cache.mSetNXLoop c kv n).2 ∧
      R.Sim (Cache.mSetNXLoop c kv n).1 (Cache.mSetNXLoop d (kv.map fun p => (R.ρ p.1, p.2)) n).1 := by
  induction kv generalizing c d n with
  | nil => exact ⟨rfl, h⟩
  | cons p kv ih =>
    obtain ⟨k, v⟩ := p
    simp only [List.map_cons, Cache.mSetNXLoop, h.data]
    cases c.data k with
    | none => exact ih (h.store k (.scalar (tryInt64 v))) (n + 1)
    | some w => exact ih h _

theorem Sim.get (h : R.Sim c d) (t : Int) (k : Bytes) :
    (d.get (t + R.δ) (R.ρ k)).2 = (c.get t k).2 ∧ R.Sim (c.get t k).1 (d.get (t + R.δ) (R.ρ k)).1 := by
  have hl := h.load t k
  unfold Cache.get
  revert hl
  generalize c.load t k = p; generalize d.load (t + R.δ) (R.ρ k) = q
  obtain ⟨c', o⟩ := p; obtain ⟨d', o'⟩ := q
  rintro ⟨h1, h2⟩
  simp only at h1 h2
  subst h1
  cases o with
  | none => exact ⟨rfl, h2⟩
  | some v => exact ⟨fmtString_val v, h2⟩

theorem Sim.mGet (h : R.Sim c d) (t : Int) (ks : List Bytes) :
    (d.mGet (t + R.δ) (ks.map R.ρ)).2 = (c.mGet t ks).2 ∧
      R.Sim (c.mGet t ks).1 (d.mGet (t + R.δ) (ks.map R.ρ)).1 := by
  induction ks generalizing c d with
  | nil => exact ⟨rfl, h⟩
  | cons k ks ih =>
    have h1 := h.get t k
    have h2 := ih h1.2
    simp only [List.map_cons, Cache.mGet]
    exact ⟨by rw [h1.1, h2.1], h2.2⟩

theorem exists_fold (h : R.Sim c d) (ks : List Bytes) (n : Int) :
    (ks.map R.ρ).foldl (fun n k => if (d.data k).isSome then n + 1 else n) n =
      ks.foldl (fun n k => if (c.data k).isSome then n + 1 else n) n := by
  induction ks generalizing n with
  | nil => rfl
  | cons k ks ih => simp only [List.map_cons, List.foldl_cons, h.data, Option.isSome_map, ih]

theorem Sim.cronTick (h : R.Sim c d) (t : Int) (h01 : zeroTime < t ↔ zeroTime < t + R.δ) :
    R.Sim (c.cronTick t) (d.cronTick (t + R.δ)) := by
  have key : ∀ k v, c.data k = some v →
      (cronEntry (t + R.δ) d (R.ρ k) (R.val v)).data (R.ρ k) = ((cronEntry t c k v).data k).map R.val ∧
      (cronEntry (t + R.δ) d (R.ρ k) (R.val v)).exp (R.ρ k) = ((cronEntry t c k v).exp k).map (· + R.δ) := by
    intro k v hv
    have hd := h.data k
    have he := h.exp k
    cases v with
    | time e =>
      simp only [cronEntry, val]
      by_cases hl : e < t
      · have : e + R.δ < t + R.δ := by omega
        simp [hl]
      · have : ¬ e + R.δ < t + R.δ := by omega
        simp [hl]
        exact ⟨hd, he⟩
    | scalar s =>
      by_cases h0 : zeroTime < t
      · simp [cronEntry, val, h0, h01.1 h0]
      · have h1 : ¬ zeroTime < t + R.δ := fun h1 => h0 (h01.2 h1)
        simp [cronEntry, val, h0, h1]; simpa [hv, val] using hd
    | hash s =>
      by_cases h0 : zeroTime < t
      · simp [cronEntry, val, h0, h01.1 h0]
      · have h1 : ¬ zeroTime < t + R.δ := fun h1 => h0 (h01.2 h1)
        simp [cronEntry, val, h0, h1]; simpa [hv, val] using hd
  constructor
  · intro k
    simp only [Cache.cronTick, h.data]
    cases hk : c.data k with
    | none => rfl
    | some v => exact (key k v hk).1
  · intro k
    simp only [Cache.cronTick, h.data]
    cases hk : c.data k with
    | none => exact h.exp k
    | some v => exact (key k v hk).2

theorem Sim.exec (h : R.Sim c d) (t : Int) (op : Call) (h01 : zeroTime < t ↔ zeroTime < t + R.δ) :
    (exec d (t + R.δ) (R.call op)).2 = R.out op (exec c t op).2 ∧
      R.Sim (exec c t op).1 (exec d (t + R.δ) (R.call op)).1 := by
  cases op with
  | set k v => exact ⟨rfl, h.store k _⟩
  | setNX k v =>
    simp only [call, Verif.exec, Cache.setNX, h.data]
    cases c.data k with
    | none => exact ⟨rfl, h.store k _⟩
    | some w => exact ⟨rfl, h⟩
  | setEX k v s => exact ⟨rfl, (h.store k _).expires t k _⟩
  | pSetEX k v s => exact ⟨rfl, (h.store k _).expires t k _⟩
  | get k =>
    have := h.get t k
    simp only [call, Verif.exec, out, this.1]
    exact ⟨trivial, this.2⟩
  | getSet k v =>
    have hl := h.load t k
    simp only [call, Verif.exec, out, Cache.getSet]
    revert hl
    generalize c.load t k = p; generalize d.load (t + R.δ) (R.ρ k) = q
    obtain ⟨c', o⟩ := p; obtain ⟨d', o'⟩ := q
    rintro ⟨h1, h2⟩
    simp only at h1 h2
    subst h1
    cases o with
    | none => exact ⟨rfl, h2.store k _⟩
    | some w => exact ⟨congrArg _ (fmtString_val w), h2.store k _⟩
  | strLen k =>
    have hl := h.load t k
    simp only [call, Verif.exec, out, Cache.strLen, Cache.loadLive]
    revert hl
    generalize c.load t k = p; generalize d.load (t + R.δ) (R.ρ k) = q
    obtain ⟨c', o⟩ := p; obtain ⟨d', o'⟩ := q
    rintro ⟨h1, h2⟩
    simp only at h1 h2
    subst h1
    cases o with
    | none => exact ⟨rfl, h2⟩
    | some w => simp only [Option.map_some, fmtString_val]; exact ⟨trivial, h2⟩
  | append k v =>
    have hl := h.load t k
    simp only [call, Verif.exec, out, Cache.append, Cache.loadLive]
    revert hl
    generalize c.load t k = p; generalize d.load (t + R.δ) (R.ρ k) = q
    obtain ⟨c', o⟩ := p; obtain ⟨d', o'⟩ := q
    rintro ⟨h1, h2⟩
    simp only at h1 h2
    subst h1
    cases o with
    | none => exact ⟨rfl, h2.store k _⟩
    | some w =>
      simp only [Option.map_some, fmtString_val]
      cases fmtString w with
      | ok s => exact ⟨rfl, h2.store k _⟩
      | err e => exact ⟨rfl, h2⟩
      | panic => exact ⟨rfl, h2⟩
  | setRange k p r =>
    have hl := h.load t k
    simp only [call, Verif.exec, out, Cache.setRange, Cache.loadLive]
    split
    · exact ⟨rfl, h⟩
    · revert hl
      generalize c.load t k = a; generalize d.load (t + R.δ) (R.ρ k) = q
      obtain ⟨c', o⟩ := a; obtain ⟨d', o'⟩ := q
      rintro ⟨h1, h2⟩
      simp only at h1 h2
      subst h1
      by_cases hm : maxAlloc < p.toInt <;> simp only [hm, if_true, if_false]
      · cases o with
        | none => exact ⟨rfl, h2⟩
        | some w => simp only [Option.map_some, fmtString_val]; cases fmtString w <;> exact ⟨rfl, h2⟩
      cases o with
      | none => exact ⟨rfl, h2.store k _⟩
      | some w =>
        simp only [Option.map_some, fmtString_val]
        cases fmtString w with
        | ok s => exact ⟨rfl, h2.store k _⟩
        | err e => exact ⟨rfl, h2⟩
        | panic => exact ⟨rfl, h2⟩
  | getRange k a b =>
    have hl := h.load t k
    simp only [call, Verif.exec, out, Cache.getRange, Cache.loadLive]
    revert hl
    generalize c.load t k = p; generalize d.load (t + R.δ) (R.ρ k) = q
    obtain ⟨c', o⟩ := p; obtain ⟨d', o'⟩ := q
    rintro ⟨h1, h2⟩
    simp only at h1 h2
    subst h1
    cases o with
    | none => exact ⟨rfl, h2⟩
    | some w => simp only [Option.map_some, fmtString_val]; exact ⟨trivial, h2⟩
  | incr k =>
    have := h.incrBy k 1
    simp only [call, Verif.exec, out, Cache.incr, this.1]
    exact ⟨trivial, this.2⟩
  | incrBy k n =>
    have := h.incrBy k n
    simp only [call, Verif.exec, out, this.1]
    exact ⟨trivial, this.2⟩
  | decr k =>
    have := h.incrBy k (-1)
    simp only [call, Verif.exec, out, Cache.decr, this.1]
    exact ⟨trivial, this.2⟩
  | decrBy k n =>
    have := h.incrBy k (-n)
    simp only [call, Verif.exec, out, Cache.decrBy, this.1]
    exact ⟨trivial, this.2⟩
  | incrByFloat k x =>
    have := h.incrByFloat k x
    simp only [call, Verif.exec, out, this.1]
    exact ⟨trivial, this.2⟩
  | mSet kv => exact ⟨rfl, h.mSetFold kv⟩
  | mSetNX kv =>
    have := h.mSetNXLoop kv 0
    simp only [call, Verif.exec, out, Cache.mSetNX, this.1]
    exact ⟨trivial, this.2⟩
  | mGet ks =>
    have := h.mGet t ks
    simp only [call, Verif.exec, out, this.1]
    exact ⟨trivial, this.2⟩
  | del k =>
    have := h.load t k
    simp only [call, Verif.exec, out, Cache.del, this.1, Option.isSome_map]
    exact ⟨trivial, this.2.erase k⟩
  | flush => exact ⟨rfl, ⟨fun _ => rfl, fun _ => rfl⟩⟩
  | exists_ ks =>
    simp only [call, Verif.exec, out, Cache.exists]
    exact ⟨by rw [exists_fold h], h⟩
  | type k =>
    have hl := h.load t k
    simp only [call, Verif.exec, out, Cache.type]
    revert hl
    generalize c.load t k = p; generalize d.load (t + R.δ) (R.ρ k) = q
    obtain ⟨c', o⟩ := p; obtain ⟨d', o'⟩ := q
    rintro ⟨h1, h2⟩
    simp only at h1 h2
    subst h1
    cases o <;> exact ⟨rfl, h2⟩
  | hSet k f v =>
    have := h.withHash t k (f := fun h => let (h', n) := h.set f v; (h', (.ok n : Res Int)))
      (g := fun h => let (h', n) := h.set (R.φ f) v; (h', .ok n)) (fun e => by simp [set_entry])
    simp only [call, Verif.exec, out, Cache.hSet, this.1]
    exact ⟨trivial, this.2⟩
  | hSetNX k f v =>
    have := h.withHash t k
      (f := fun h => match hfind h.fields f with
        | some _ => (h, (.ok 0 : Res Int))
        | none => ({ fields := hput h.fields f (.str v), length := h.length + 1 }, .ok 1))
      (g := fun h => match hfind h.fields (R.φ f) with
        | some _ => (h, (.ok 0 : Res Int))
        | none => ({ fields := hput h.fields (R.φ f) (.str v), length := h.length + 1 }, .ok 1))
      (fun e => by
        simp only [entry, hfind_entry]
        cases hfind e.fields f with
        | none => simp [hput_entry]
        | some w => rfl)
    exact ⟨congrArg Out.int this.1, this.2⟩
  | hExists k f =>
    have hl := h.getHash t k
    simp only [call, Verif.exec, out, Cache.hExists]
    revert hl
    generalize c.getHash t k = p; generalize d.getHash (t + R.δ) (R.ρ k) = q
    obtain ⟨c', o⟩ := p; obtain ⟨d', o'⟩ := q
    rintro ⟨h1, h2⟩
    simp only at h1 h2
    subst h1
    cases o with
    | ok o =>
      cases o with
      | none => exact ⟨rfl, h2⟩
      | some e =>
        simp only [GoRes.map, GoRes.bind, Option.map_some, get_entry]
        exact ⟨trivial, h2.store k (.hash { e with length := e.length - if (e.get f).isSome = true then 1 else 0 })⟩
    | err e => exact ⟨rfl, h2⟩
    | panic => exact ⟨rfl, h2⟩
  | hDel k fs =>
    have hl := h.getHash t k
    simp only [call, Verif.exec, out, Cache.hDel]
    revert hl
    generalize c.getHash t k = p; generalize d.getHash (t + R.δ) (R.ρ k) = q
    obtain ⟨c', o⟩ := p; obtain ⟨d', o'⟩ := q
    rintro ⟨h1, h2⟩
    simp only at h1 h2
    subst h1
    cases o with
    | ok o =>
      cases o with
      | none => exact ⟨rfl, h2⟩
      | some e =>
        simp only [GoRes.map, GoRes.bind, Option.map_some]
        have hx : hDelLoop (fs.map R.φ) (R.entry e).fields 0 =
          (((hDelLoop fs e.fields 0).1).map fun p => (R.φ p.1, p.2), (hDelLoop fs e.fields 0).2) :=
          hDelLoop_entry fs e.fields 0
        rw [hx]
        exact ⟨rfl, h2.store k (.hash _)⟩
    | err e => exact ⟨rfl, h2⟩
    | panic => exact ⟨rfl, h2⟩
  | hLen k =>
    have := h.readHash' t k (f := fun | none => (.ok 0 : Res Int) | some h => .ok h.length)
      (g := fun | none => (.ok 0 : Res Int) | some h => .ok h.length) (fun o => by cases o <;> rfl)
    exact ⟨congrArg Out.int this.1, this.2⟩
  | hStrLen k f =>
    have := h.readHash' t k
      (f := fun | none => (.ok 0 : Res Int) | some h => match h.get f with
        | some s => .ok s.length | none => .ok 0)
      (g := fun | none => (.ok 0 : Res Int) | some h => match h.get (R.φ f) with
        | some s => .ok s.length | none => .ok 0)
      (fun o => by cases o <;> simp [get_entry])
    exact ⟨congrArg Out.int this.1, this.2⟩
  | hGet k f =>
    have := h.readHash' t k
      (f := fun | none => (.err .keyNil : Res Bytes) | some h => match h.get f with
        | some s => .ok s | none => .err .keyNil)
      (g := fun | none => (.err .keyNil : Res Bytes) | some h => match h.get (R.φ f) with
        | some s => .ok s | none => .err .keyNil)
      (fun o => by cases o <;> simp [get_entry])
    exact ⟨congrArg Out.str this.1, this.2⟩
  | hIncrBy k f n =>
    have := h.withHash t k
      (f := fun h => match hfind h.fields f with
        | none => ((h.set f (itoa n)).1, (.ok n : Res Int64))
        | some v => match hIncrScalar n v with
          | .ok m => ((h.set f (itoa n)).1, .ok m)
          | r => (h, r))
      (g := fun h => match hfind h.fields (R.φ f) with
        | none => ((h.set (R.φ f) (itoa n)).1, (.ok n : Res Int64))
        | some v => match hIncrScalar n v with
          | .ok m => ((h.set (R.φ f) (itoa n)).1, .ok m)
          | r => (h, r))
      (fun e => by
        have hx : hfind (R.entry e).fields (R.φ f) = hfind e.fields f := hfind_entry _ _
        simp only [hx, set_entry]
        cases hfind e.fields f with
        | none => rfl
        | some v => simp only; cases hIncrScalar n v <;> rfl)
    exact ⟨congrArg (fun r : Res Int64 => Out.int (r.map Int64.toInt)) this.1, this.2⟩
  | hIncrByFloat k f x =>
    have := h.withHash t k
      (f := fun h => match hfind h.fields f with
        | none => ((h.set f (formatFloat x)).1, (.ok x : Res F64))
        | some v => match hIncrFloatScalar x v with
          | .ok m => ((h.set f (formatFloat x)).1, .ok m)
          | r => (h, r))
      (g := fun h => match hfind h.fields (R.φ f) with
        | none => ((h.set (R.φ f) (formatFloat x)).1, (.ok x : Res F64))
        | some v => match hIncrFloatScalar x v with
          | .ok m => ((h.set (R.φ f) (formatFloat x)).1, .ok m)
          | r => (h, r))
      (fun e => by
        have hx : hfind (R.entry e).fields (R.φ f) = hfind e.fields f := hfind_entry _ _
        simp only [hx, set_entry]
        cases hfind e.fields f with
        | none => rfl
        | some v => simp only; cases hIncrFloatScalar x v <;> rfl)
    exact ⟨congrArg Out.float this.1, this.2⟩
  | hMSet k fv =>
    have := h.withHash t k (f := fun h => let (h', n) := hMSetLoop fv h 0; (h', (.ok n : Res Int)))
      (g := fun h => let (h', n) := hMSetLoop (fv.map fun p => (R.φ p.1, p.2)) h 0; (h', .ok n))
      (fun e => by simp only [hMSetLoop_entry])
    exact ⟨congrArg Out.int this.1, this.2⟩
  | hMGet k fs =>
    have := h.readHash' t k
      (f := fun o => (.ok (fs.map fun f => match o with
        | none => .err .keyNil
        | some h => match h.get f with
          | some s => .ok s
          | none => .err .keyNil) : Res (List (Res Bytes))))
      (g := fun o => (.ok ((fs.map R.φ).map fun f => match o with
        | none => .err .keyNil
        | some h => match h.get f with
          | some s => .ok s
          | none => .err .keyNil) : Res (List (Res Bytes))))
      (fun o => by cases o <;> simp [get_entry])
    exact ⟨congrArg Out.slots this.1, this.2⟩
  | hKeys k =>
    have := h.readHash t k (List.map R.φ)
      (f := fun | none => (.panic : Res (List Bytes)) | some h => .ok (h.fields.map (·.1)))
      (g := fun | none => (.panic : Res (List Bytes)) | some h => .ok (h.fields.map (·.1)))
      (fun o => by
        cases o with
        | none => rfl
        | some e => simp [entry, GoRes.map, GoRes.bind, Function.comp_def])
    exact ⟨congrArg Out.strs this.1, this.2⟩
  | hVals k =>
    have := h.readHash' t k
      (f := fun | none => (.panic : Res (List Bytes)) | some h => .ok (h.fields.filterMap fun p => match p.2 with
        | .str s => some s | _ => none))
      (g := fun | none => (.panic : Res (List Bytes)) | some h => .ok (h.fields.filterMap fun p => match p.2 with
        | .str s => some s | _ => none))
      (fun o => by
        cases o with
        | none => rfl
        | some e => simp [entry, List.filterMap_map, Function.comp_def])
    exact ⟨congrArg Out.strs this.1, this.2⟩
  | hGetAll k =>
    have := h.readHash t k (List.map fun p => (R.φ p.1, p.2))
      (f := fun
        | none => (.panic : Res (List (Bytes × Bytes)))
        | some h => if h.fields.any (fun p => match fmtString (.scalar p.2) with | .ok _ => false | _ => true) then .panic else .ok [])
      (g := fun
        | none => (.panic : Res (List (Bytes × Bytes)))
        | some h => if h.fields.any (fun p => match fmtString (.scalar p.2) with | .ok _ => false | _ => true) then .panic else .ok [])
      (fun o => by
        cases o with
        | none => rfl
        | some e =>
          simp only [Option.map_some, entry, List.any_map, Function.comp_def]
          split <;> rfl)
    exact ⟨congrArg Out.pairs this.1, this.2⟩
  | list k => exact ⟨rfl, h⟩
  | cronTick => exact ⟨rfl, h.cronTick t h01⟩

theorem Sim.outs (h : R.Sim c d) (hist : History)
    (ht : ∀ p ∈ hist, zeroTime < p.1 ↔ zeroTime < p.1 + R.δ) :
    outs d (R.hist hist) = R.answers hist (outs c hist) := by
  induction hist generalizing c d with
  | nil => rfl
  | cons p hist ih =>
    obtain ⟨t, op⟩ := p
    have hp := ht (t, op) (by simp)
    have := h.exec t op hp
    simp only [Renaming.hist, List.map_cons, Verif.outs, answers, this.1]
    congr 1
    exact ih this.2 (fun p hp => ht p (by simp [hp]))

end Renaming
end Verif

import Verif.Conc.Source
/-!
# C105: nothing comes out of thin air, even when goroutines race
-/
namespace Verif.Conc.Full
open Verif Verif.Conc

/-- Some call of the goroutines gives the value `w` for the key `k`. -/
def Given (calls : Nat → List Call) (k w : Bytes) : Prop := ∃ i, ∃ op ∈ calls i, Gives op k w

/-- Some call of the goroutines computes a value for the key `k`. -/
def Computed (calls : Nat → List Call) (k : Bytes) : Prop := ∃ i, ∃ op ∈ calls i, Edits op k

/-- Some call of the goroutines gives the text `w` for the field `f` of `k`. -/
def GivenField (calls : Nat → List Call) (k f w : Bytes) : Prop := ∃ i, ∃ op ∈ calls i, GivesField op k f w

/-- What may stand under a key. -/
def StrFrom (calls : Nat → List Call) (k : Bytes) (s : Scalar) : Prop := Computed calls k ∨ ∃ w, Given calls k w ∧ s = tryInt64 w

/-- What may stand in a field. -/
def FieldFrom (calls : Nat → List Call) (k f : Bytes) (s : Scalar) : Prop := ∃ w, GivenField calls k f w ∧ (s = tryInt64 w ∨ s = .str w)

/-- Every answer of every run from an empty cache comes from the calls of the run. -/
theorem sourced_run (t : Int) (calls : Nat → List Call) {g : Cfg} (hs : Steps spec true (initial (Mem.empty t) calls) g) :
    ∀ e ∈ g.log, Shows (StrFrom calls) (FieldFrom calls) e.2.1 e.2.2 := by
  refine (traced_sound (o := fun _ => []) ⟨by simp [Mem.empty], by simp [Mem.empty], by simp [Mem.empty]⟩ (fun i op ho => ⟨fun k w h => ?_,
    fun k h s => ?_, fun k f w h => ?_⟩) hs).elim (fun _ h => h.2.1)
  · exact .inr ⟨w, ⟨i, op, ho, h⟩, rfl⟩
  · exact .inl ⟨i, op, ho, h⟩
  · exact ⟨⟨w, ⟨i, op, ho, h⟩, .inl rfl⟩, ⟨w, ⟨i, op, ho, h⟩, .inr rfl⟩⟩

theorem each_get {β : Type} {R : β → Res Bytes → Prop} {bs : List β} {rs : List (Res Bytes)} (h : Each R bs rs) :
    rs.length = bs.length ∧ ∀ (n : Nat) b r, bs[n]? = some b → rs[n]? = some r → R b r := by
  induction bs generalizing rs with
  | nil =>
    cases rs with
    | nil => exact ⟨rfl, by simp⟩
    | cons r rs => exact h.elim
  | cons b bs ih =>
    cases rs with
    | nil => exact h.elim
    | cons r rs =>
      obtain ⟨h1, h2⟩ := h
      obtain ⟨h3, h4⟩ := ih h2
      refine ⟨by simp [h3], fun n b' r' hb hr => ?_⟩
      cases n with
      | zero => simp at hb hr; subst hb hr; exact h1
      | succ n => exact h4 n b' r' (by simpa using hb) (by simpa using hr)

theorem shownS_given {calls : Nat → List Call} {k : Bytes} (hk : ¬ Computed calls k) {r : Res Bytes} (h : ShownS (StrFrom calls) k r)
    {v : Bytes} (hv : r = .ok v) : ∃ w, Given calls k w ∧ v = canon w := by
  obtain ⟨s, hs, rfl⟩ := h v hv
  rcases hs with h | ⟨w, hw, rfl⟩
  · exact absurd h hk
  · exact ⟨w, hw, fmtScalar_tryInt64 w⟩

theorem shownF_given {calls : Nat → List Call} {k f : Bytes} {r : Res Bytes} (h : ShownF (FieldFrom calls) k f r)
    {v : Bytes} (hv : r = .ok v) : ∃ w, GivenField calls k f w ∧ (v = canon w ∨ v = w) := by
  obtain ⟨s, ⟨w, hw, hs⟩, rfl⟩ := h v hv
  rcases hs with rfl | rfl
  · exact ⟨w, hw, .inl (fmtScalar_tryInt64 w)⟩
  · exact ⟨w, hw, .inr rfl⟩

/-- C105, strings: goroutines start on an empty cache and race in any way.  If no call computes a
value for the key, what Get and GetSet show is the text of one value some call gave for that key. -/
theorem C105_get (t : Int) (calls : Nat → List Call) (g : Cfg) (hs : Steps spec true (initial (Mem.empty t) calls) g)
    (k : Bytes) (hk : ¬ Computed calls k) (i : Nat) (op : Call) (hop : op = .get k ∨ ∃ x, op = .getSet k x) (v : Bytes)
    (he : (i, op, .str (.ok v)) ∈ g.log) : ∃ w, Given calls k w ∧ v = canon w := by
  have := sourced_run t calls hs _ he
  rcases hop with rfl | ⟨x, rfl⟩ <;> exact shownS_given hk this rfl

/-- C105, several keys: each slot of MGet shows a value given for its own key; there is one slot per
key. -/
theorem C105_mGet (t : Int) (calls : Nat → List Call) (g : Cfg) (hs : Steps spec true (initial (Mem.empty t) calls) g)
    (ks : List Bytes) (i : Nat) (rs : List (Res Bytes)) (he : (i, .mGet ks, .slots (.ok rs)) ∈ g.log) :
    rs.length = ks.length ∧ ∀ (n : Nat) k v, ¬ Computed calls k → ks[n]? = some k → rs[n]? = some (GoRes.ok v) → ∃ w, Given calls k w ∧ v = canon w := by
  have h := each_get (sourced_run t calls hs _ he)
  exact ⟨h.1, fun n k v hk h1 h2 => shownS_given hk (h.2 n k _ h1 h2) rfl⟩

/-- C105, fields: what HGet shows is the text of one value some call gave for that field of that hash. -/
theorem C105_hGet (t : Int) (calls : Nat → List Call) (g : Cfg) (hs : Steps spec true (initial (Mem.empty t) calls) g)
    (k f : Bytes) (i : Nat) (v : Bytes) (he : (i, .hGet k f, .str (.ok v)) ∈ g.log) :
    ∃ w, GivenField calls k f w ∧ (v = canon w ∨ v = w) :=
  shownF_given (sourced_run t calls hs _ he) rfl

/-- C105, several fields. -/
theorem C105_hMGet (t : Int) (calls : Nat → List Call) (g : Cfg) (hs : Steps spec true (initial (Mem.empty t) calls) g)
    (k : Bytes) (fs : List Bytes) (i : Nat) (rs : List (Res Bytes)) (he : (i, .hMGet k fs, .slots (.ok rs)) ∈ g.log) :
    rs.length = fs.length ∧ ∀ (n : Nat) f v, fs[n]? = some f → rs[n]? = some (GoRes.ok v) → ∃ w, GivenField calls k f w ∧ (v = canon w ∨ v = w) := by
  have h := each_get (sourced_run t calls hs _ he)
  exact ⟨h.1, fun n k v h1 h2 => shownF_given (h.2 n k _ h1 h2) rfl⟩

/-- C105, listings: HKeys lists fields some call gave a value for in that hash, HVals values some call
gave for a field of that hash. -/
theorem C105_listing (t : Int) (calls : Nat → List Call) (g : Cfg) (hs : Steps spec true (initial (Mem.empty t) calls) g)
    (k : Bytes) (i : Nat) (rs : List Bytes) :
    ((i, .hKeys k, .strs (.ok rs)) ∈ g.log → ∀ f ∈ rs, ∃ w, GivenField calls k f w) ∧
    ((i, .hVals k, .strs (.ok rs)) ∈ g.log → ∀ v ∈ rs, ∃ f, GivenField calls k f v) := by
  constructor <;> intro he
  · intro f hf
    obtain ⟨s, w, hw, _⟩ := (sourced_run t calls hs _ he : ∀ f ∈ rs, ∃ s, FieldFrom calls k f s) f hf
    exact ⟨w, hw⟩
  · intro v hv
    obtain ⟨f, w, hw, h⟩ := (sourced_run t calls hs _ he : ∀ v ∈ rs, ∃ f, FieldFrom calls k f (.str v)) v hv
    refine ⟨f, ?_⟩
    rcases h with h | h
    · have : v = w := by
        simp only [tryInt64] at h
        split at h
        · cases h
        · split at h
          · cases h
          · cases h; rfl
      exact this ▸ hw
    · cases h; exact hw

/-- Two goroutines write one key while a third reads it twice. -/
def sourceDemo : Nat → List Call
  | 0 => [.mSet [(b!"k", b!"one"), (b!"j", b!"x")]]
  | 1 => [.mSet [(b!"j", b!"y"), (b!"k", b!"two")]]
  | 2 => [.mGet [b!"k", b!"j"]]
  | 3 => [.hSet b!"h" b!"f" b!"1", .del b!"h"]
  | 4 => [.hSet b!"h" b!"g" b!"x", .hGet b!"h" b!"f", .hKeys b!"h"]
  | _ => []

example : ¬ Computed sourceDemo b!"k" := by
  rintro ⟨i, op, ho, he⟩
  match i, ho with
  | 0, ho | 1, ho | 2, ho => simp [sourceDemo] at ho; subst ho; cases he
  | 3, ho => simp [sourceDemo] at ho; rcases ho with rfl | rfl <;> cases he
  | 4, ho => simp [sourceDemo] at ho; rcases ho with rfl | rfl | rfl <;> cases he
  | _ + 5, ho => simp [sourceDemo] at ho

/-- A run where the reader sees one key of each writer and goroutines 3 and 4 race to create the hash. -/
def sourceSched : List (Ev Mem) :=
  [.start 0, .start 1, .start 2, .act 0, .act 1, .act 2, .act 2, .act 2, .act 2, .fin 2,
   .start 3, .start 4, .act 3, .act 4, .act 3, .act 4, .act 3, .act 3, .act 3, .fin 3, .act 4, .act 4, .act 4, .fin 4,
   .start 4, .act 4, .act 4, .act 4, .fin 4]

example : (sched spec (initial (Mem.empty 0) sourceDemo) sourceSched).map (fun g => g.log.map (fun e => (e.1, e.2.2))) =
    some [(2, .slots (.ok [.ok b!"one", .ok b!"y"])), (3, .int (.ok 1)), (4, .int (.ok 1)), (4, .str (.err .keyNil))] := by
  decide +kernel

end Verif.Conc.Full

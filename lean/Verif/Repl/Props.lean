import Verif.Repl.Spec
import Verif.Cache.PropsSet
/-!
# C74, C75, C78: handling messages one after the other, and the new client
-/
namespace Verif.Repl

open Verif.Resp

theorem lower_setName {s : Bytes} (h : SetName s) : lower s = b!"set" := by
  obtain ⟨a, b, c, rfl, ha, hb, hc⟩ := h
  rcases ha with rfl | rfl <;> rcases hb with rfl | rfl <;> rcases hc with rfl | rfl <;> decide

theorem setIn_some (c : Cache) (k v : Bytes) : setIn (some c) k v = (.ok (), some (c.set k v).1) := rfl

theorem handle_set {m : Msg} {k v : Bytes} (h : IsSet m k v) (c : Cache) :
    handle (some c) (some m) = (.ok (), some (c.set k v).1) := by
  obtain ⟨name, extra, hn, rfl⟩ := h
  simp [handle, command, str, lower_setName hn, setIn_some]

/-! ## C74 -/

/-- C74, full statement refuted: this message makes the handler panic. -/
theorem C74_violated : ¬ ∀ (c : Cache) (m : Msg), (handle (some c) (some m)).1 ≠ .panic := by
  intro h
  exact h Cache.new (command [b!"set", b!"k"]) (by decide)

/-- C74, another way it fails: whatever is in the cache, the command for a list, which snapshots
contain, makes the handler panic. -/
theorem C74_violated_rpush (c : Cache) (k : Bytes) (vs : List Bytes) :
    (handle (some c) (some (command (b!"rPush" :: k :: vs)))).1 = .panic := by
  have h2 : lower b!"rPush" = b!"rpush" := by decide
  simp [handle, command, str, h2]

/-- C74, another way it fails: the command for a hash is accepted, and nothing is stored. -/
theorem C74_violated_hmset (c : Cache) (k : Bytes) (vs : List Bytes) :
    handle (some c) (some (command (b!"hmSet" :: k :: vs))) = (.ok (), some c) := by
  have h3 : lower b!"hmSet" = b!"hmset" := by decide
  simp [handle, command, str, h3]

/-- C74, first part: a replicated assignment has exactly the effect of `Set`, at any time `t`, and
no error.  Arguments behind the value are ignored. -/
theorem C74_set_partial (c : Cache) (m : Msg) (k v : Bytes) (h : IsSet m k v) (t : Int) :
    handle (some c) (some m) = (.ok (), some (Verif.exec c t (.set k v)).1) := handle_set h c

example : IsSet (command [b!"SeT", b!"k", b!"v", b!"EX", b!"10"]) b!"k" b!"v" :=
  ⟨b!"SeT", [b!"EX", b!"10"], ⟨83, 101, 84, rfl, by simp⟩, rfl⟩

/-- C74, second part, as far as it holds: a message that is no array, or an empty one, or whose
first element is none of the three known names, is reported and changes nothing, whatever the
cache - even one that is not usable. -/
theorem C74_unsupported_partial (c : Local) (m : Option Msg)
    (h : ∀ a ms, m = some (.array (a :: ms)) → lower (str a) ∉ [b!"set", b!"rpush", b!"hmset"]) :
    ∃ e, handle c m = (.err e, c) := by
  cases m with
  | none => exact ⟨_, rfl⟩
  | some m =>
    cases m with
    | array ms =>
      cases ms with
      | nil => exact ⟨_, rfl⟩
      | cons a ms =>
        have := h a ms rfl
        simp only [List.mem_cons, List.not_mem_nil, not_or] at this
        obtain ⟨h1, h2, h3, _⟩ := this
        refine ⟨.unknown (ser (.array (a :: ms))), ?_⟩
        simp only [handle, if_neg h1, if_neg h2, if_neg h3]
    | nil => exact ⟨_, rfl⟩
    | bulk s => exact ⟨_, rfl⟩
    | error s => exact ⟨_, rfl⟩
    | int n => exact ⟨_, rfl⟩
    | simple s => exact ⟨_, rfl⟩

example : ∃ e, handle none (some (command [b!"pExpire", b!"k", b!"5"])) = (.err e, none) :=
  C74_unsupported_partial none _ (by
    intro a ms h
    simp only [command, List.map_cons, Option.some.injEq, Msg.array.injEq, List.cons.injEq] at h
    rw [← h.1]; decide)

/-- C74, third part: whenever an error is reported nothing has changed. -/
theorem C74_error_no_change_partial (c : Cache) (m : Option Msg) (e : HErr) (h : (handle (some c) m).1 = .err e) :
    (handle (some c) m).2 = some c := by
  cases m with
  | none => rfl
  | some m =>
    cases m with
    | array ms =>
      cases ms with
      | nil => rfl
      | cons a ms =>
        revert h
        simp only [handle]
        split
        · cases ms with
          | nil => simp
          | cons k ms =>
            cases ms with
            | nil => simp
            | cons v ms => simp [setIn_some]
        · split
          · split <;> simp
          · split
            · split <;> simp
            · simp
    | nil => rfl
    | bulk s => rfl
    | error s => rfl
    | int n => rfl
    | simple s => rfl

/-- The premise is met. -/
example : (handle (some Cache.new) (some (command [b!"hmset"]))).1 = .err .hmsetArgs := by decide

/-- C74, last part: the panics are exactly those two - a SET with fewer than two arguments, and the
command for a list with a key. -/
theorem C74_panics_partial (c : Cache) (m : Option Msg) :
    (handle (some c) m).1 = .panic ↔
      ∃ a ms, m = some (.array (a :: ms)) ∧
        (lower (str a) = b!"set" ∧ ms.length < 2 ∨ lower (str a) = b!"rpush" ∧ ms ≠ []) := by
  cases m with
  | none => simp [handle]
  | some m =>
    cases m with
    | array ms =>
      cases ms with
      | nil => simp [handle]
      | cons a ms =>
        simp only [handle]
        constructor
        · intro h
          refine ⟨a, ms, rfl, ?_⟩
          split at h
          · rename_i h1
            cases ms with
            | nil => exact .inl ⟨h1, by simp⟩
            | cons k ms =>
              cases ms with
              | nil => exact .inl ⟨h1, by simp⟩
              | cons v ms => simp [setIn_some] at h
          · split at h
            · rename_i h2
              refine .inr ⟨h2, ?_⟩
              intro he; rw [if_pos he] at h; cases h
            · split at h
              · split at h <;> cases h
              · cases h
        · rintro ⟨a', ms', he, h⟩
          simp only [Option.some.injEq, Msg.array.injEq, List.cons.injEq] at he
          obtain ⟨rfl, rfl⟩ := he
          rcases h with ⟨h1, h2⟩ | ⟨h1, h2⟩
          · rw [if_pos h1]
            match ms, h2 with
            | [], _ => rfl
            | [_], _ => rfl
          · rw [if_neg (by rw [h1]; decide), if_pos h1, if_neg h2]
    | nil => simp [handle]
    | bulk s => simp [handle]
    | error s => simp [handle]
    | int n => simp [handle]
    | simple s => simp [handle]

/-! ## C75 -/

/-- The calls that a stream of assignments amounts to. -/
theorem handleAll_sets {ms : List Msg} {kvs : List (Bytes × Bytes)} (h : AreSets ms kvs) (c : Cache) :
    handleAll (some c) ms = (.ok (), some (run c (kvs.map fun p => (0, .set p.1 p.2)))) := by
  induction h generalizing c with
  | nil => rfl
  | cons hm _ ih =>
    simp only [handleAll, handle_set hm, ih, List.map_cons, run, Verif.exec]

theorem run_sets_exp (c : Cache) (kvs : List (Bytes × Bytes)) :
    (run c (kvs.map fun p => (0, .set p.1 p.2))).exp = c.exp := by
  induction kvs generalizing c with
  | nil => rfl
  | cons p kvs ih => simp only [List.map_cons, run, ih, Verif.exec]; rfl

theorem run_sets_data (c : Cache) (kvs : List (Bytes × Bytes)) (k : Bytes) :
    (run c (kvs.map fun p => (0, .set p.1 p.2))).data k =
      match lastVal k kvs with
      | some v => some (.scalar (tryInt64 v))
      | none => c.data k := by
  induction kvs generalizing c with
  | nil => rfl
  | cons p kvs ih =>
    obtain ⟨j, v⟩ := p
    simp only [List.map_cons, run, ih, Verif.exec, lastVal]
    cases hl : lastVal k kvs with
    | some w => rfl
    | none =>
      simp only
      by_cases hj : j = k
      · subst hj; simp [Cache.set, Cache.store]
      · rw [if_neg hj]; simp only [Cache.set, Cache.store]; rw [upd_other]; exact fun h => hj h.symm

/-- What a cache shows after a stream of assignments. -/
theorem get_after_sets (c : Cache) (kvs : List (Bytes × Bytes)) (k : Bytes) (t : Int) (hd : NotPassed c t k) :
    (Cache.get (run c (kvs.map fun p => (0, .set p.1 p.2))) t k).2 =
      match lastVal k kvs with
      | some v => .ok (canon v)
      | none => (c.get t k).2 := by
  have hx := run_sets_exp c kvs
  have hn : NotPassed (run c (kvs.map fun p => (0, .set p.1 p.2))) t k := by rw [NotPassed, hx]; exact hd
  rw [get_snd, get_snd, liveVal_of_notPassed hn, liveVal_of_notPassed hd, run_sets_data]
  cases lastVal k kvs with
  | none => rfl
  | some v => simp [showVal, fmtString, fmtScalar_tryInt64]

/-- C75, full statement refuted: numeric text is shown in another way. -/
theorem C75_violated : ¬ ∀ (ms : List Msg) (kvs : List (Bytes × Bytes)), AreSets ms kvs →
    ∃ c, handleAll (some Cache.new) ms = (.ok (), some c) ∧ ∀ k v, lastVal k kvs = some v → ∀ t, (c.get t k).2 = .ok v := by
  intro h
  obtain ⟨c, h1, h2⟩ := h [command [b!"set", b!"k", b!"007"]] [(b!"k", b!"007")]
    (.cons ⟨b!"set", [], ⟨115, 101, 116, rfl, by simp⟩, rfl⟩ .nil)
  have h3 := h2 b!"k" b!"007" rfl 0
  have : (handleAll (some Cache.new) [command [b!"set", b!"k", b!"007"]]).2 = some c := by rw [h1]
  have e : some c = some (Cache.new.set b!"k" b!"007").1 := by rw [← this]; rfl
  cases e
  revert h3
  decide +kernel

/-- C75 up to the rewriting of numbers (C02): every stream of assignments is handled without error;
then every key that was assigned shows the last value, in its canonical text, and every other key
what it showed before.  Missing: numbers that are not written canonically, keys with a deadline. -/
theorem C75_canonical_partial (c : Cache) (ms : List Msg) (kvs : List (Bytes × Bytes)) (h : AreSets ms kvs) :
    ∃ c', handleAll (some c) ms = (.ok (), some c') ∧ ∀ k t, NotPassed c t k →
      (c'.get t k).2 =
        match lastVal k kvs with
        | some v => .ok (canon v)
        | none => (c.get t k).2 :=
  ⟨_, handleAll_sets h c, fun k t hd => get_after_sets c kvs k t hd⟩

/-- C75 for a new cache and values that the cache keeps verbatim. -/
theorem C75_verbatim_partial (ms : List Msg) (kvs : List (Bytes × Bytes)) (h : AreSets ms kvs) (hv : ∀ p ∈ kvs, Verbatim p.2) :
    ∃ c', handleAll (some Cache.new) ms = (.ok (), some c') ∧ ∀ k t,
      (c'.get t k).2 =
        match lastVal k kvs with
        | some v => .ok v
        | none => .err .keyNil := by
  obtain ⟨c', h1, h2⟩ := C75_canonical_partial Cache.new ms kvs h
  refine ⟨c', h1, fun k t => ?_⟩
  rw [h2 k t (by intro d hd; cases hd)]
  have hm : ∀ v, lastVal k kvs = some v → Verbatim v := by
    clear h h1 h2
    induction kvs with
    | nil => intro v hl; cases hl
    | cons p kvs ih =>
      obtain ⟨j, w⟩ := p
      intro v hl
      simp only [lastVal] at hl
      cases hk : lastVal k kvs with
      | some x =>
        rw [hk] at hl
        exact ih (fun p hp => hv p (List.mem_cons_of_mem _ hp)) v (by rw [hk]; exact hl)
      | none =>
        rw [hk] at hl
        simp only at hl
        split at hl
        · cases hl; exact hv _ (List.mem_cons_self)
        · cases hl
  cases hl : lastVal k kvs with
  | none => rfl
  | some v => simp only [canon_of_verbatim (hm v hl)]

/-- A stream that assigns a key twice. -/
example : ∃ c', handleAll (some Cache.new)
      [command [b!"SET", b!"a", b!"x"], command [b!"set", b!"b", b!"-5"], command [b!"set", b!"a", b!"y z"]] = (.ok (), some c') ∧
    ∀ t, (c'.get t b!"a").2 = .ok b!"y z" := by
  obtain ⟨c', h1, h2⟩ := C75_verbatim_partial
    [command [b!"SET", b!"a", b!"x"], command [b!"set", b!"b", b!"-5"], command [b!"set", b!"a", b!"y z"]]
    [(b!"a", b!"x"), (b!"b", b!"-5"), (b!"a", b!"y z")]
    (.cons ⟨b!"SET", [], ⟨83, 69, 84, rfl, by simp⟩, rfl⟩
      (.cons ⟨b!"set", [], ⟨115, 101, 116, rfl, by simp⟩, rfl⟩ (.cons ⟨b!"set", [], ⟨115, 101, 116, rfl, by simp⟩, rfl⟩ .nil)))
    (by
      intro p hp
      simp only [List.mem_cons, List.not_mem_nil, or_false] at hp
      rcases hp with rfl | rfl | rfl
      · exact .inl (by constructor <;> decide +kernel)
      · exact .inr ⟨-5, by decide +kernel⟩
      · exact .inl (by constructor <;> decide +kernel))
  exact ⟨c', h1, fun t => by rw [h2]; rfl⟩

/-! ## C78 -/

/-- C78 is false, for every option and every master: whenever `New` returns without error, `Get`
panics for every key. -/
theorem C78_violated (ord : Rdb.MapOrd) (w : World) (o : Opts) (client : Client) (snap : List Tagged) (r : Rd)
    (h : new ord w o = (.ok (), client, snap, r)) (now : Int) (k : Bytes) : client.get now k = .panic := by
  have : client.cache = none := by
    simp only [new] at h
    split at h
    · cases h
    · cases h
    · split at h
      · cases h
      · split at h
        · cases h; rfl
        · cases h
        · cases h
  simp [Client.get, this]

/-- A master that answers the ping and sends a snapshot with one key. -/
def sampleWorld : World :=
  ⟨true, true, true, true, true, ⟨[], [b!"+PONG\r\n", b!"$15\r\n" ++ (b!"REDIS0009" ++ [0, 1, 97, 1, 98, 255])]⟩⟩

/-- `New` does return without error. -/
theorem sampleWorld_new : ∃ client r, new (fun _ l => l) sampleWorld ⟨[], [], 0⟩ =
    (.ok (), client, [(0, command [b!"set", b!"a", b!"b"])], r) := by
  have e1 : (new (fun _ l => l) sampleWorld ⟨[], [], 0⟩).1 = .ok () := by decide +kernel
  have e3 : (new (fun _ l => l) sampleWorld ⟨[], [], 0⟩).2.2.1 = [(0, command [b!"set", b!"a", b!"b"])] := by decide +kernel
  exact ⟨_, _, Prod.ext e1 (Prod.ext rfl (Prod.ext e3 rfl))⟩

example : ∃ client : Client, client.get 0 b!"a" = .panic := by
  obtain ⟨client, r, h⟩ := sampleWorld_new
  exact ⟨client, C78_violated _ _ _ _ _ _ h 0 b!"a"⟩

end Verif.Repl

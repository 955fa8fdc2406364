import Verif.Repl.PropsMachine
/-!
# Exactly what the handler does with one message, a stream of assignments, and another database
(C74, C75, C76)
-/
namespace Verif.Repl
open Verif.Resp

theorem setName_of_lower {s : Bytes} (h : lower s = b!"set") : SetName s := by
  have l1 := fun x => lowerLetter_is x 115 83 (by decide) (by decide)
  have l2 := fun x => lowerLetter_is x 101 69 (by decide) (by decide)
  have l3 := fun x => lowerLetter_is x 116 84 (by decide) (by decide)
  have e : b!"set" = [115, 101, 116] := rfl
  rw [e] at h
  match s, h with
  | [], h => simp [lower] at h
  | [_], h => simp [lower] at h
  | [_, _], h => simp [lower] at h
  | _ :: _ :: _ :: _ :: _, h => simp [lower] at h
  | [a, b, c], h =>
    simp only [lower, List.map_cons, List.map_nil, List.cons.injEq, and_true] at h
    exact ⟨a, b, c, rfl, (l1 a).mp h.1, (l2 b).mp h.2.1, (l3 c).mp h.2.2⟩

/-- What the handler accepts: an assignment - the name, a key, a value, and any further arguments, each
of any kind, taken by its text. -/
def AssignsTo (m : Option Msg) (k v : Bytes) : Prop :=
  ∃ a x y ms, m = some (.array (a :: x :: y :: ms)) ∧ SetName (str a) ∧ str x = k ∧ str y = v

/-- The command for a hash, with at least one argument. -/
def HashCommand (m : Option Msg) : Prop :=
  ∃ a x ms, m = some (.array (a :: x :: ms)) ∧ lower (str a) = b!"hmset"

/-- C74, exactly: a message is accepted if and only if it is an assignment or the command for a hash.  The
former does what `Set` does; the latter does nothing; and what is not accepted changes nothing either. -/
theorem C74_exact (c : Cache) (m : Option Msg) :
    ((handle (some c) m).1 = .ok () ↔ (∃ k v, AssignsTo m k v) ∨ HashCommand m) ∧
    (∀ k v, AssignsTo m k v → ∀ t, (handle (some c) m).2 = some (Verif.exec c t (.set k v)).1) ∧
    ((∀ k v, ¬ AssignsTo m k v) → (handle (some c) m).2 = some c) := by
  have hset : ∀ k v, AssignsTo m k v → handle (some c) m = (.ok (), some (c.set k v).1) := by
    rintro k v ⟨a, x, y, ms, rfl, ha, rfl, rfl⟩
    simp only [handle, lower_setName ha, if_true, setIn_some]
  have hno : (∀ k v, ¬ AssignsTo m k v) → (handle (some c) m).2 = some c ∧ ((handle (some c) m).1 = .ok () ↔ HashCommand m) := by
    intro hn
    match m, hn with
    | none, _ => exact ⟨rfl, by simp [handle, HashCommand]⟩
    | some .nil, _ => exact ⟨rfl, by simp [handle, HashCommand]⟩
    | some (.simple _), _ => exact ⟨rfl, by simp [handle, HashCommand]⟩
    | some (.error _), _ => exact ⟨rfl, by simp [handle, HashCommand]⟩
    | some (.int _), _ => exact ⟨rfl, by simp [handle, HashCommand]⟩
    | some (.bulk _), _ => exact ⟨rfl, by simp [handle, HashCommand]⟩
    | some (.array []), _ => exact ⟨rfl, by simp [handle, HashCommand]⟩
    | some (.array (a :: ms)), hn =>
      by_cases h1 : lower (str a) = b!"set"
      · have hh : ¬ HashCommand (some (.array (a :: ms))) := by
          rintro ⟨a', x, ms', he, h⟩
          simp only [Option.some.injEq, Msg.array.injEq, List.cons.injEq] at he
          rw [← he.1, h1] at h
          exact absurd h (by decide)
        match ms, hn, hh with
        | x :: y :: ms, hn, _ => exact absurd ⟨a, x, y, ms, rfl, setName_of_lower h1, rfl, rfl⟩ (hn _ _)
        | [], _, hh => simp [handle, h1, hh]
        | [x], _, hh => simp [handle, h1, hh]
      · by_cases h2 : lower (str a) = b!"rpush"
        · have hh : ¬ HashCommand (some (.array (a :: ms))) := by
            rintro ⟨a', x, ms', he, h⟩
            simp only [Option.some.injEq, Msg.array.injEq, List.cons.injEq] at he
            rw [← he.1, h2] at h
            exact absurd h (by decide)
          simp only [handle, if_neg h1, if_pos h2, hh, iff_false]
          split <;> simp
        · by_cases h3 : lower (str a) = b!"hmset"
          · simp only [handle, if_neg h1, if_neg h2, if_pos h3]
            match ms with
            | [] => simp [HashCommand]
            | x :: ms => simp only [reduceCtorEq, if_false, true_and, true_iff]; exact ⟨a, x, ms, rfl, h3⟩
          · have hh : ¬ HashCommand (some (.array (a :: ms))) := by
              rintro ⟨a', x, ms', he, h⟩
              simp only [Option.some.injEq, Msg.array.injEq, List.cons.injEq] at he
              rw [← he.1] at h
              exact h3 h
            simp [handle, h1, h2, h3, hh]
  refine ⟨⟨fun h => ?_, ?_⟩, fun k v h t => by rw [hset k v h]; rfl, fun h => (hno h).1⟩
  · by_cases hk : ∃ k v, AssignsTo m k v
    · exact .inl hk
    · exact .inr ((hno fun k v hc => hk ⟨k, v, hc⟩).2.mp h)
  · rintro (⟨k, v, h⟩ | h)
    · rw [hset k v h]
    · refine (hno ?_).2.mpr h
      rintro k v ⟨a, x, y, ms, rfl, ha, _, _⟩
      obtain ⟨a', x', ms', he, h⟩ := h
      simp only [Option.some.injEq, Msg.array.injEq, List.cons.injEq] at he
      rw [← he.1, lower_setName ha] at h
      exact absurd h (by decide)

/-- An assignment whose value is an integer and whose name is a simple string. -/
example : AssignsTo (some (.array [.simple b!"SET", .bulk b!"k", .int 7])) b!"k" b!"7" :=
  ⟨_, _, _, _, rfl, ⟨83, 69, 84, rfl, by simp⟩, rfl, by decide +kernel⟩

/-- C75, exactly: after a stream of assignments into a new cache, a key shows the last value it was given if and
only if that value is its own canonical text; and the whole cache shows what the master has if and only if that
is so for every key. -/
theorem C75_exact (ms : List Msg) (kvs : List (Bytes × Bytes)) (h : AreSets ms kvs) :
    ∃ c, handleAll (some Cache.new) ms = (.ok (), some c) ∧
      (∀ k v t, lastVal k kvs = some v → ((c.get t k).2 = .ok v ↔ canon v = v)) ∧
      (∀ k t, lastVal k kvs = none → (c.get t k).2 = .err .keyNil) := by
  obtain ⟨c, h1, h2⟩ := C75_canonical_partial Cache.new ms kvs h
  have hn : ∀ k t, NotPassed Cache.new t k := fun k t d hd => by cases hd
  refine ⟨c, h1, fun k v t hl => ?_, fun k t hl => ?_⟩
  · rw [h2 k t (hn k t), hl]
    simp
  · rw [h2 k t (hn k t), hl]
    rfl

/-- `007` is not its own canonical text, `7` is. -/
example : canon b!"007" ≠ b!"007" ∧ canon b!"7" = b!"7" := by decide +kernel

theorem filter_forwarded (db : Int64) (stream : List Msg) :
    (forwarded stream).filter (fun x => decide (x.1 = db)) = if db = 0 then forwarded stream else [] := by
  by_cases h : db = 0
  · subst h
    rw [if_pos rfl, List.filter_eq_self]
    intro x hx
    simp only [forwarded, List.mem_map] at hx
    obtain ⟨m, _, rfl⟩ := hx
    simp
  · rw [if_neg h, List.filter_eq_nil_iff]
    intro x hx
    simp only [forwarded, List.mem_map] at hx
    obtain ⟨m, _, rfl⟩ := hx
    simpa using fun e : (0 : Int64) = db => h e.symm

/-- C76, another way it fails: a client that is configured for any database but the first never stores anything
of what the master sends after the snapshot, whatever database it belongs to: in every schedule the cache is what
the beginning of the snapshot makes of it. -/
theorem C76_violated_other (cf : Conf) (hdb : cf.db ≠ 0) (c0 : Local) (snap : List Tagged) (good : Bool) (stream : List Msg) (s : State)
    (h : Steps cf (.init c0 snap good stream) s) :
    ∃ n, s.cache = (((snap.take n).filter fun x => decide (x.1 = cf.db)).map Prod.snd).foldl (fun c m => (handle c (some m)).2) c0 := by
  obtain ⟨⟨rest, h1⟩, h2⟩ := C76_tagged_partial cf c0 snap good stream s h
  refine ⟨s.taken.length, ?_⟩
  have : s.taken = (snap ++ forwarded stream).take s.taken.length := by rw [← h1]; simp
  rw [h2]
  congr 2
  rw [this, List.length_take, ← h1, List.length_append, Nat.min_eq_left (by omega), h1, List.take_append, List.filter_append]
  have hf : ((forwarded stream).take (s.taken.length - snap.length)).filter (fun x => decide (x.1 = cf.db)) = [] := by
    have := filter_forwarded cf.db stream
    rw [if_neg hdb, List.filter_eq_nil_iff] at this
    rw [List.filter_eq_nil_iff]
    exact fun x hx => this x (List.mem_of_mem_take hx)
  rw [hf, List.append_nil]

/-- C76, exactly which messages of the stream are applied: for the first database all those taken that are no
heartbeats, for any other database none. -/
theorem C76_exact (cf : Conf) (c0 : Local) (good : Bool) (stream : List Msg) (s : State)
    (h : Steps cf (.init c0 [] good stream) s) :
    ∃ n, s.taken = (forwarded stream).take n ∧
      s.cache = if cf.db = 0 then
          ((stream.filter fun m => !isPing m).take n).foldl (fun c m => (handle c (some m)).2) c0
        else c0 := by
  obtain ⟨⟨rest, h1⟩, h2⟩ := C76_tagged_partial cf c0 [] good stream s h
  rw [List.nil_append] at h1
  have ht : s.taken = (forwarded stream).take s.taken.length := by rw [← h1]; simp
  refine ⟨s.taken.length, ht, ?_⟩
  generalize s.taken.length = n at ht
  have hf := filter_forwarded cf.db ((stream.filter fun m => !isPing m).take n)
  have e : forwarded ((stream.filter fun m => !isPing m).take n) = (forwarded stream).take n := by
    rw [forwarded, forwarded, ← List.map_take]
    congr 1
    rw [List.filter_eq_self]
    intro m hm
    have := List.mem_of_mem_take hm
    exact (List.mem_filter.mp this).2
  rw [h2, ht, ← e, hf]
  by_cases hdb : cf.db = 0
  · rw [if_pos hdb, if_pos hdb, e, forwarded, ← List.map_take, List.map_map]
    congr 1
    simp [Function.comp_def]
  · rw [if_neg hdb, if_neg hdb]; rfl

/-- A client for database 3: the assignment is taken and not stored. -/
example : ∃ s, Steps (conf 3) (.init (some Cache.new) [] true [command [b!"SELECT", b!"3"], command [b!"set", b!"k", b!"v"]]) s ∧
    s.taken.length = 2 :=
  ⟨_, ((((Steps.refl.tail (.loaded rfl rfl rfl)).tail (.recvSend rfl rfl (by decide) (by decide))).tail
    (.recvSend rfl rfl (by decide) (by decide))).tail (.skip rfl rfl rfl (by decide))).tail (.skip rfl rfl rfl (by decide)), rfl⟩

end Verif.Repl

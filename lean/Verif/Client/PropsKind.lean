import Verif.Client.PropsCmdExact

/-!
# C120: a reply of a kind the command does not have

A caller relies on hearing about a reply that cannot be an answer to the command.  Only the methods that expect `+OK`
look; for the others such a reply passes for an answer.
-/

namespace Verif.Client
open Verif.Resp

/-- The kinds of replies the Redis documentation lists for the commands, errors and nil included. -/
inductive Proper : Req → Msg → Prop
  | error {q s} : Proper q (.error s)
  | nil {q} : Proper q .nil
  | set {k v} : Proper (.set k v) (.simple b!"OK")
  | select {n} : Proper (.select n) (.simple b!"OK")
  | setEX {k v n} : Proper (.setEX k v n) (.simple b!"OK")
  | pSetEX {k v n} : Proper (.pSetEX k v n) (.simple b!"OK")
  | mSet {kv} : Proper (.mSet kv) (.simple b!"OK")
  | setNX {k v n} : Proper (.setNX k v) (.int n)
  | get {k s} : Proper (.get k) (.bulk s)
  | getSet {k v s} : Proper (.getSet k v) (.bulk s)
  | getRange {k a b s} : Proper (.getRange k a b) (.bulk s)
  | strLen {k n} : Proper (.strLen k) (.int n)
  | append {k v n} : Proper (.append k v) (.int n)
  | setRange {k o v n} : Proper (.setRange k o v) (.int n)
  | incr {k n} : Proper (.incr k) (.int n)
  | incrBy {k i n} : Proper (.incrBy k i) (.int n)
  | decr {k n} : Proper (.decr k) (.int n)
  | decrBy {k i n} : Proper (.decrBy k i) (.int n)
  | mSetNX {kv n} : Proper (.mSetNX kv) (.int n)
  | incrByFloat {k x s} : (parseFloat s).isSome → Proper (.incrByFloat k x) (.bulk s)
  | mGet {ks ms} : Proper (.mGet ks) (.array ms)

/-- Every documented success reply is of a listed kind. -/
theorem proper_of_success {q : Req} {m : Msg} {v : Val} (h : Success q m v) : Proper q m := by
  cases h <;> constructor
  rename_i h
  simp [h]

/-- The methods whose documented answer is `+OK`, or that the code treats so. -/
def Status (q : Req) : Prop :=
  (∃ k v, q = .set k v) ∨ (∃ n, q = .select n) ∨ (∃ k v, q = .setNX k v) ∨ (∃ k v n, q = .setEX k v n) ∨
    (∃ k v n, q = .pSetEX k v n) ∨ ∃ kv, q = .mSet kv

/-- C120 is false of the code: `Incr` takes a status, a text or a list for 0, `Get` takes a list for a text, `MGet` takes
a number for an empty list, `IncrByFloat` takes a text that is no number, all without an error. -/
theorem C120_violated (bad : Bytes → F64) :
    (¬ Proper (.incr b!"k") (.bulk b!"7") ∧ result bad (.incr b!"k") (.ok (.bulk b!"7")) = some ⟨.int 0, none⟩) ∧
    (¬ Proper (.get b!"k") (.array [.bulk b!"7"]) ∧ ∃ s, result bad (.get b!"k") (.ok (.array [.bulk b!"7"])) = some ⟨.text s, none⟩) ∧
    (¬ Proper (.mGet [b!"k"]) (.int 7) ∧ result bad (.mGet [b!"k"]) (.ok (.int 7)) = some ⟨.list [], none⟩) ∧
    (¬ Proper (.incrByFloat b!"k" F64.zero) (.bulk b!"x") ∧
      ∃ x, result bad (.incrByFloat b!"k" F64.zero) (.ok (.bulk b!"x")) = some ⟨.float x, none⟩) := by
  refine ⟨⟨?_, rfl⟩, ⟨?_, _, rfl⟩, ⟨?_, rfl⟩, ⟨?_, bad b!"x", ?_⟩⟩
  · intro h; cases h
  · intro h; cases h
  · intro h; cases h
  · intro h
    cases h with
    | incrByFloat h => exact absurd h (by decide +kernel)
  · have : parseFloat b!"x" = none := by decide +kernel
    simp [result, exec, parseFloatReply, str, this]

/-- C120, exactly: a reply that is not of a kind the command has is reported if and only if the method is one that the code
treats as answered by `+OK`, and the reply is not `+OK` (which `SetNX` does not have).  What is
missing from the full statement is every other method: nothing is reported there. -/
theorem C120_exact (bad : Bytes → F64) (q : Req) (m : Msg) (h : ¬ Proper q m) :
    (∃ v e, result bad q (.ok m) = some ⟨v, some e⟩) ↔ Status q ∧ m ≠ .simple b!"OK" := by
  have hok : (∃ v e, (exec [] parseOK (.ok m)).map (fun o => (⟨.text o.val, o.err⟩ : Out Val)) = some ⟨v, some e⟩) ↔
      m ≠ .simple b!"OK" := by
    cases m with
    | simple s =>
      by_cases hs : s = b!"OK"
      · subst hs; simp [exec, parseOK]
      · simp [exec, parseOK, hs]
    | nil => exact absurd .nil h
    | error s => exact absurd .error h
    | array ms => simp [exec, parseOK]
    | bulk s => simp [exec, parseOK]
    | int n => simp [exec, parseOK]
  have other : ∀ {α : Type} (zero : α) (parse : Msg → Out α) (f : α → Val), (∀ m, (parse m).err = none) →
      ¬ ∃ v e, (exec zero parse (.ok m)).map (fun o => (⟨f o.val, o.err⟩ : Out Val)) = some ⟨v, some e⟩ := by
    intro α zero parse f hp
    cases m with
    | nil => exact absurd .nil h
    | error s => exact absurd .error h
    | _ => simp [exec, hp]
  have pI : ∀ m, (parseInt m).err = none := by intro m; cases m <;> rfl
  have pA : ∀ m, (parseArray m).err = none := by intro m; cases m <;> rfl
  have pF : ∀ m, (parseFloatReply bad m).err = none := by intro m; unfold parseFloatReply; split <;> rfl
  cases q with
  | set | select | setNX | setEX | pSetEX | mSet =>
    refine hok.trans ⟨fun h => ⟨?_, h⟩, fun h => h.2⟩
    simp [Status]
  | get | getSet | getRange => exact ⟨fun h => absurd h (other [] parseString .text (fun _ => rfl)), fun h => absurd h.1 (by simp [Status])⟩
  | strLen | append | setRange | incr | incrBy | decr | decrBy | mSetNX =>
    exact ⟨fun h => absurd h (other 0 parseInt .int pI), fun h => absurd h.1 (by simp [Status])⟩
  | incrByFloat => exact ⟨fun h => absurd h (other F64.zero (parseFloatReply bad) .float pF), fun h => absurd h.1 (by simp [Status])⟩
  | mGet => exact ⟨fun h => absurd h (other [] parseArray .list pA), fun h => absurd h.1 (by simp [Status])⟩

/-- C120 where it holds: a method that is answered by `+OK` reports every other reply. -/
theorem C120_status_partial (bad : Bytes → F64) (q : Req) (m : Msg) (hq : Status q) (hn : ∀ k v, q ≠ .setNX k v) (h : ¬ Proper q m) :
    ∃ v e, result bad q (.ok m) = some ⟨v, some e⟩ := by
  refine (C120_exact bad q m h).2 ⟨hq, ?_⟩
  rintro rfl
  rcases hq with ⟨k, v, rfl⟩ | ⟨n, rfl⟩ | ⟨k, v, rfl⟩ | ⟨k, v, n, rfl⟩ | ⟨k, v, n, rfl⟩ | ⟨kv, rfl⟩
  · exact h .set
  · exact h .select
  · exact hn k v rfl
  · exact h .setEX
  · exact h .pSetEX
  · exact h .mSet

/-- C120, how it fails: the caller of an integer method cannot tell such a reply from the answer 0, the caller of a text
method cannot tell it from a text, and the caller of `MGet` not from an empty list.  The result is the same. -/
theorem C120_violated_same (bad : Bytes → F64) (q : Req) (m : Msg) (h : ¬ Proper q m) :
    ((∃ k, q = .strLen k ∨ q = .incr k ∨ q = .decr k) ∨ (∃ k v, q = .append k v) ∨ (∃ k o v, q = .setRange k o v) ∨
        (∃ k n, q = .incrBy k n ∨ q = .decrBy k n) ∨ (∃ kv, q = .mSetNX kv) →
      result bad q (.ok m) = result bad q (.ok (.int 0)) ∧ result bad q (.ok m) = some ⟨.int 0, none⟩) ∧
    ((∃ k, q = .get k) ∨ (∃ k v, q = .getSet k v) ∨ (∃ k a b, q = .getRange k a b) →
      ∃ s, result bad q (.ok m) = result bad q (.ok (.bulk s))) ∧
    ((∃ ks, q = .mGet ks) → result bad q (.ok m) = result bad q (.ok (.array []))) := by
  have int : (∀ n, m ≠ .int n) → (exec 0 parseInt (.ok m)) = some ⟨0, none⟩ := by
    intro hi
    cases m with
    | nil => exact absurd .nil h
    | error s => exact absurd .error h
    | int n => exact absurd rfl (hi n)
    | _ => rfl
  refine ⟨?_, ?_, ?_⟩
  · intro hq
    rcases hq with ⟨k, rfl | rfl | rfl⟩ | ⟨k, v, rfl⟩ | ⟨k, o, v, rfl⟩ | ⟨k, n, rfl | rfl⟩ | ⟨kv, rfl⟩ <;>
    · have hi := int (by rintro n rfl; exact h (by constructor))
      simp only [result, hi]
      exact ⟨rfl, rfl⟩
  · intro hq
    refine ⟨str m, ?_⟩
    rcases hq with ⟨k, rfl⟩ | ⟨k, v, rfl⟩ | ⟨k, a, b, rfl⟩ <;>
    · cases m with
      | nil => exact absurd .nil h
      | error s => exact absurd .error h
      | _ => rfl
  · rintro ⟨ks, rfl⟩
    cases m with
    | nil => exact absurd .nil h
    | error s => exact absurd .error h
    | array ms => exact absurd .mGet h
    | _ => rfl

/-- `IncrByFloat` never reports such a reply either. -/
theorem C120_violated_float (bad : Bytes → F64) (k : Bytes) (x : F64) (m : Msg) (h : ¬ Proper (.incrByFloat k x) m) :
    result bad (.incrByFloat k x) (.ok m) = some ⟨.float (if (parseFloat (str m)).isSome then F64.zero else bad (str m)), none⟩ := by
  cases m with
  | nil => exact absurd .nil h
  | error s => exact absurd .error h
  | _ => simp only [result, exec, parseFloatReply, Option.map_some]; split <;> simp [*]

/-- Replies that meet the hypotheses. -/
example : ¬ Proper (.set b!"k" b!"v") (.int 1) ∧ ¬ Proper (.setNX b!"k" b!"v") (.simple b!"OK") ∧ ¬ Proper (.incr b!"k") (.simple b!"OK") ∧
    ¬ Proper (.get b!"k") (.simple b!"OK") ∧ ¬ Proper (.mGet [b!"k"]) (.bulk b!"v") ∧ ¬ Proper (.incrByFloat b!"k" F64.zero) (.int 3) := by
  refine ⟨?_, ?_, ?_, ?_, ?_, ?_⟩ <;> intro h <;> cases h

end Verif.Client

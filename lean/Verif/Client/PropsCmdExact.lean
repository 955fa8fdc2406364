import Verif.Client.PropsCmd
/-!
# Exactly which remote calls deliver their value, and which methods send their command (C51, C52)
-/
namespace Verif.Client
open Verif.Resp

/-- C51, second half, exactly: given a documented success reply, the value it stands for reaches the caller
(without an error) if and only if the method is one that returns text, an integer or a list - or it is
`IncrByFloat` and the new number happens to be 0. -/
theorem C51_exact (bad : Bytes → F64) (q : Req) (m : Msg) (v : Val) (h : Success q m v) :
    result bad q (.ok m) = some ⟨v, none⟩ ↔ Delivers q ∨ ((∃ k x, q = .incrByFloat k x) ∧ v = .float F64.zero) := by
  constructor
  · intro hr
    cases h with
    | incrByFloat hp =>
      refine .inr ⟨⟨_, _, rfl⟩, ?_⟩
      simp only [result, exec, parseFloatReply, str, hp, Option.map_some, Option.some.injEq, Out.mk.injEq, and_true] at hr
      exact hr.symm
    | set | select | setEX | pSetEX | mSet | setNX => simp [result, exec, parseOK] at hr
    | _ => exact .inl trivial
  · rintro (hd | ⟨⟨k, x, rfl⟩, rfl⟩)
    · exact C51_success_partial bad q m v hd h
    · cases h with
      | incrByFloat hp => simp [result, exec, parseFloatReply, str, hp]

/-- Both sides hold for a reply of 0, and neither for a reply of 3.5. -/
example : Success (.incrByFloat b!"k" F64.zero) (.bulk b!"0") (.float F64.zero) := .incrByFloat (by decide +kernel)

/-- C52, exactly: the server receives the documented command of the method if and only if the method is none of
`SetEX`, `PSetEX` and `IncrBy`, whatever the arguments. -/
theorem C52_exact (q : Req) :
    (∃ l, received q = some l ∧ Documented q l) ↔ ∀ k v n i, q ≠ .setEX k v n ∧ q ≠ .pSetEX k v n ∧ q ≠ .incrBy k i := by
  refine ⟨?_, C52_commands_partial q⟩
  rintro ⟨l, hl, hd⟩ k v n i
  refine ⟨?_, ?_, ?_⟩ <;> rintro rfl
  · rw [received_eq _ _ _ rfl] at hl
    cases hd
    simp only [Option.some.injEq, List.cons.injEq] at hl
    exact absurd hl.1 (by decide)
  · rw [received_eq _ _ _ rfl] at hl
    cases hd
    simp only [Option.some.injEq, List.cons.injEq] at hl
    exact absurd hl.1 (by decide)
  · rw [received_eq _ _ _ rfl] at hl
    cases hd
    simp only [Option.some.injEq, List.cons.injEq] at hl
    exact absurd hl.1 (by decide)

example : ¬ ∃ l, received (.incrBy b!"k" 5) = some l ∧ Documented (.incrBy b!"k" 5) l :=
  fun h => ((C52_exact _).mp h b!"k" [] 0 5).2.2 rfl

end Verif.Client

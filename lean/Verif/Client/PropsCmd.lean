import Verif.PropsFloat
import Verif.Resp.Props
import Verif.Client.Cmd
/-!
# Properties C51, C52: remote commands
-/
namespace Verif.Client
open Verif.Resp

/-! ## C51: which reply gives which result

Specification: the replies the Redis documentation lists for each command, and the value a caller
should get. -/

/-- Documented success replies and the value they stand for. -/
inductive Success : Req → Msg → Val → Prop
  | set {k v} : Success (.set k v) (.simple b!"OK") (.text b!"OK")
  | select {n} : Success (.select n) (.simple b!"OK") (.text b!"OK")
  | setEX {k v n} : Success (.setEX k v n) (.simple b!"OK") (.text b!"OK")
  | pSetEX {k v n} : Success (.pSetEX k v n) (.simple b!"OK") (.text b!"OK")
  | mSet {kv} : Success (.mSet kv) (.simple b!"OK") (.text b!"OK")
  | setNX {k v} : Success (.setNX k v) (.int 1) (.text b!"OK")
  | get {k s} : Success (.get k) (.bulk s) (.text s)
  | getSet {k v s} : Success (.getSet k v) (.bulk s) (.text s)
  | getRange {k a b s} : Success (.getRange k a b) (.bulk s) (.text s)
  | strLen {k n} : Success (.strLen k) (.int n) (.int n)
  | append {k v n} : Success (.append k v) (.int n) (.int n)
  | setRange {k o v n} : Success (.setRange k o v) (.int n) (.int n)
  | incr {k n} : Success (.incr k) (.int n) (.int n)
  | incrBy {k i n} : Success (.incrBy k i) (.int n) (.int n)
  | decr {k n} : Success (.decr k) (.int n) (.int n)
  | decrBy {k i n} : Success (.decrBy k i) (.int n) (.int n)
  | mSetNX {kv n} : Success (.mSetNX kv) (.int n) (.int n)
  | incrByFloat {k x s y} : parseFloat s = some y → Success (.incrByFloat k x) (.bulk s) (.float y)
  | mGet {ks} {ms : List Msg} {l : List Item} : ms.length = ks.length → l.length = ms.length →
      (∀ (i : Nat) s, ms[i]? = some (.bulk s) → l[i]? = some (.text s)) →
      (∀ (i : Nat), ms[i]? = some .nil → l[i]? = some (.error b!"Nil")) →
      (∀ m ∈ ms, m = .nil ∨ ∃ s, m = .bulk s) → Success (.mGet ks) (.array ms) (.list l)

/-- C51, first half: for every method, an error reply, a nil reply and a broken connection each
yield an error, which carries the server's text. -/
theorem C51_failures (bad : Bytes → F64) (q : Req) :
    (∀ s, ∃ v, result bad q (.ok (.error s)) = some ⟨v, some (.reply s)⟩) ∧
    (∃ v s, result bad q (.ok .nil) = some ⟨v, some (.reply s)⟩) ∧
    (∀ e, ∃ v, result bad q (.err e) = some ⟨v, some (.conn e)⟩) := by
  refine ⟨fun s => ?_, ?_, fun e => ?_⟩
  · cases q <;> exact ⟨_, rfl⟩
  · cases q <;> exact ⟨_, _, rfl⟩
  · cases q <;> exact ⟨_, rfl⟩

/-- No key position of the list shows `k`. -/
def NoKey (ms : List Msg) (k : Bytes) : Prop := ∀ i, i % 2 = 0 → (ms[i]?).map str ≠ some k

/-- The last key position that shows `k` is followed by `v`. -/
def LastIs (ms : List Msg) (k v : Bytes) : Prop :=
  ∃ pre a b post, ms = pre ++ a :: b :: post ∧ pre.length % 2 = 0 ∧ str a = k ∧ str b = v ∧ NoKey post k

theorem noKey_cons (a b : Msg) (ms : List Msg) (k : Bytes) : NoKey (a :: b :: ms) k ↔ str a ≠ k ∧ NoKey ms k := by
  constructor
  · intro h
    exact ⟨fun e => h 0 rfl (by simp [e]), fun i hi => by have := h (i + 2) (by omega); simpa using this⟩
  · rintro ⟨h1, h2⟩ i hi
    match i, hi with
    | 0, _ => simpa using h1
    | i + 2, hi => simpa using h2 i (by omega)

theorem lastIs_cons (a b : Msg) (ms : List Msg) (k v : Bytes) :
    LastIs (a :: b :: ms) k v ↔ (str a = k ∧ str b = v ∧ NoKey ms k) ∨ LastIs ms k v := by
  constructor
  · rintro ⟨pre, x, y, post, h, hp, hx, hy, hn⟩
    match pre, h, hp with
    | [], h, _ =>
      simp only [List.nil_append, List.cons.injEq] at h
      obtain ⟨rfl, rfl, rfl⟩ := h
      exact .inl ⟨hx, hy, hn⟩
    | [_], _, hp => simp at hp
    | _ :: _ :: pre, h, hp =>
      simp only [List.cons_append, List.cons.injEq] at h
      obtain ⟨_, _, rfl⟩ := h
      exact .inr ⟨pre, x, y, post, rfl, by simp at hp; omega, hx, hy, hn⟩
  · rintro (⟨hx, hy, hn⟩ | ⟨pre, x, y, post, rfl, hp, h⟩)
    · exact ⟨[], a, b, ms, rfl, rfl, hx, hy, hn⟩
    · exact ⟨a :: b :: pre, x, y, post, rfl, by simp; omega, h⟩

theorem mem_put (kv : List (Bytes × Bytes)) (k' v' k v : Bytes) :
    (k, v) ∈ put kv k' v' ↔ (k' = k ∧ v' = v) ∨ (k' ≠ k ∧ (k, v) ∈ kv) := by
  simp only [put, List.mem_cons, Prod.mk.injEq, List.mem_filter, decide_eq_true_eq]
  constructor
  · rintro (⟨rfl, rfl⟩ | ⟨h1, h2⟩)
    · exact .inl ⟨rfl, rfl⟩
    · exact .inr ⟨Ne.symm h2, h1⟩
  · rintro (⟨rfl, rfl⟩ | ⟨h1, h2⟩)
    · exact .inl ⟨rfl, rfl⟩
    · exact .inr ⟨h2, Ne.symm h1⟩

theorem mem_pairUp (k v : Bytes) : ∀ (ms : List Msg) (kv : List (Bytes × Bytes)), ms.length % 2 = 0 →
    ((k, v) ∈ pairUp ms kv ↔ LastIs ms k v ∨ (NoKey ms k ∧ (k, v) ∈ kv))
  | [], kv, _ => by
    simp only [pairUp]
    constructor
    · intro h; exact .inr ⟨fun i _ => by simp, h⟩
    · rintro (⟨pre, a, b, post, h, _⟩ | h)
      · simp at h
      · exact h.2
  | [_], _, h => by simp at h
  | a :: b :: ms, kv, h => by
    rw [pairUp, mem_pairUp k v ms _ (by simp at h; omega), lastIs_cons, noKey_cons, mem_put]
    constructor
    · rintro (h | ⟨h1, ⟨h2, h3⟩ | ⟨h2, h3⟩⟩)
      · exact .inl (.inr h)
      · exact .inl (.inl ⟨h2, h3, h1⟩)
      · exact .inr ⟨⟨h2, h1⟩, h3⟩
    · rintro ((⟨h1, h2, h3⟩ | h) | ⟨⟨h1, h2⟩, h3⟩)
      · exact .inr ⟨h3, .inl ⟨h1, h2⟩⟩
      · exact .inl h
      · exact .inr ⟨h2, .inr ⟨h1, h3⟩⟩

/-- C51 for replies read as a map (`StringStringCommand`): exactly an array of even length is taken, and
each key has the value after its last occurrence in a key position. -/
theorem C51_pairs (m : Msg) :
    ((parsePairs m).err = none ↔ ∃ ms, m = .array ms ∧ ms.length % 2 = 0) ∧
    (∀ e, (parsePairs m).err = some e → e = .reply b!"failed to parse response" ∧ (parsePairs m).val = []) ∧
    ∀ ms : List Msg, m = .array ms → ms.length % 2 = 0 → ∀ k v : Bytes, (k, v) ∈ (parsePairs m).val ↔ LastIs ms k v := by
  refine ⟨?_, ?_, ?_⟩
  · cases m <;> simp [parsePairs]
    split <;> simp_all
  · intro e h
    cases m with
    | array ms =>
      simp only [parsePairs] at h ⊢
      split at h
      · rw [if_pos ‹_›]; cases h; exact ⟨rfl, rfl⟩
      · cases h
    | _ => cases h; exact ⟨rfl, rfl⟩
  · rintro ms rfl he k v
    simp only [parsePairs, he, ne_eq, not_true, if_false]
    rw [mem_pairUp k v ms [] he]
    simp

example : (parsePairs (.array [.bulk b!"a", .bulk b!"1", .bulk b!"b", .int 2, .bulk b!"a", .bulk b!"3"])).val = [(b!"a", b!"3"), (b!"b", b!"2")] := by
  decide +kernel

/-- C51, second half, is false of the code: after `+OK` `Set` returns an empty string, `IncrByFloat`
returns 0 for a reply of 3.5, and a successful `SetNX` is reported as an error. -/
theorem C51_violated (bad : Bytes → F64) :
    Success (.set b!"k" b!"v") (.simple b!"OK") (.text b!"OK") ∧
    result bad (.set b!"k" b!"v") (.ok (.simple b!"OK")) = some ⟨.text [], none⟩ ∧
    (∃ y, y ≠ F64.zero ∧ Success (.incrByFloat b!"k" F64.zero) (.bulk b!"3.5") (.float y)) ∧
    result bad (.incrByFloat b!"k" F64.zero) (.ok (.bulk b!"3.5")) = some ⟨.float F64.zero, none⟩ ∧
    Success (.setNX b!"k" b!"v") (.int 1) (.text b!"OK") ∧
    result bad (.setNX b!"k" b!"v") (.ok (.int 1)) = some ⟨.text [], some (.reply [])⟩ := by
  obtain ⟨y, hy, h0⟩ : ∃ y, parseFloat b!"3.5" = some y ∧ y ≠ F64.zero :=
    ⟨(parseFloat b!"3.5").get (by decide +kernel), by decide +kernel, by decide +kernel⟩
  refine ⟨.set, rfl, ?_, ?_, .setNX, rfl⟩
  rotate_left
  · simp only [result, exec, parseFloatReply, str, hy, Option.map_some]
  exact ⟨y, h0, .incrByFloat hy⟩

/-- C51: the methods that return text show an integer reply as its decimal text, sign included. -/
theorem C51_integer_text (bad : Bytes → F64) (k : Bytes) (n : Int64) :
    ∃ t, result bad (.get k) (.ok (.int n)) = some ⟨.text t, none⟩ ∧ atoi t = some n ∧ (n < 0 → ∃ t', t = b!"-" ++ t') := by
  refine ⟨itoa n, rfl, atoi_itoa n, fun h => ⟨natText n.toInt.natAbs, ?_⟩⟩
  have h' : n.toInt < 0 := Int64.lt_iff_toInt_lt.1 h
  simp [itoa, itoaInt, h']

example : result (fun _ => F64.zero) (.get b!"k") (.ok (.int (-12))) = some ⟨.text b!"-12", none⟩ := by decide +kernel

/-- The methods whose documented value does reach the caller. -/
def Delivers : Req → Prop
  | .get _ | .getSet _ _ | .getRange _ _ _ | .strLen _ | .append _ _ | .setRange _ _ _ | .incr _ | .incrBy _ _
  | .decr _ | .decrBy _ _ | .mSetNX _ | .mGet _ => True
  | _ => False

/-- C51, second half, as far as it holds: for string, integer and multi-value methods every
documented success reply yields its value and no error. -/
theorem C51_success_partial (bad : Bytes → F64) (q : Req) (m : Msg) (v : Val) (hq : Delivers q) (h : Success q m v) :
    result bad q (.ok m) = some ⟨v, none⟩ := by
  cases h <;> try first | rfl | exact False.elim hq
  rename_i ks ms l h1 h2 h3 h4 h5
  simp only [result, exec, parseArray, Option.map_some]
  congr 3
  apply List.ext_getElem?
  intro i
  rw [List.getElem?_map]
  cases hm : ms[i]? with
  | none =>
    rw [List.getElem?_eq_none_iff] at hm
    simp only [Option.map_none]
    exact (List.getElem?_eq_none_iff.mpr (by omega)).symm
  | some m =>
    rcases h5 m (List.mem_of_getElem? hm) with rfl | ⟨s, rfl⟩
    · rw [h4 i hm]; rfl
    · rw [h3 i s hm]; rfl

/-- A reply to `MGet` with a missing key meets the hypotheses. -/
example : Success (.mGet [b!"a", b!"b"]) (.array [.bulk b!"x", .nil]) (.list [.text b!"x", .error b!"Nil"]) := by
  refine .mGet rfl rfl ?_ ?_ ?_
  · intro i s h
    match i with
    | 0 => simpa using h
    | 1 => simp at h
    | i + 2 => simp at h
  · intro i h
    match i with
    | 0 => simp at h
    | 1 => rfl
    | i + 2 => simp at h
  · intro m hm
    simp only [List.mem_cons, List.not_mem_nil, or_false] at hm
    rcases hm with rfl | rfl
    · exact .inr ⟨_, rfl⟩
    · exact .inl rfl

/-- The status methods report success exactly on `+OK` (their value stays empty). -/
theorem C51_status_partial (bad : Bytes → F64) (q : Req) (m : Msg)
    (hq : ∃ k v n kv, q = .set k v ∨ q = .select n ∨ q = .mSet kv) :
    (∃ v, result bad q (.ok m) = some ⟨v, none⟩) ↔ m = .simple b!"OK" := by
  have key : (∃ v, (exec [] parseOK (.ok m)).map (fun o => (⟨.text o.val, o.err⟩ : Out Val)) = some ⟨v, none⟩) ↔
      m = .simple b!"OK" := by
    cases m with
    | simple s =>
      by_cases h : s = b!"OK"
      · subst h; exact ⟨fun _ => rfl, fun _ => ⟨_, rfl⟩⟩
      · simp [exec, parseOK, h]
    | nil => simp [exec]
    | error s => simp [exec]
    | array ms => simp [exec, parseOK]
    | bulk s => simp [exec, parseOK]
    | int n => simp [exec, parseOK]
  obtain ⟨k, v, n, kv, rfl | rfl | rfl⟩ := hq <;> exact key

/-! ## C52: which command a method sends

Specification: command name (compared without case, as Redis does) and arguments in the order the
Redis documentation gives. -/

/-- Decimal text of a number, any text that reads as the given float, entries of a map in any
order. -/
inductive Documented : Req → List Bytes → Prop
  | set {k v} : Documented (.set k v) [b!"set", k, v]
  | select {n t} : atoi t = some n → Documented (.select n) [b!"select", t]
  | setNX {k v} : Documented (.setNX k v) [b!"setnx", k, v]
  | setEX {k v} {n : UInt64} {t} : parseNat t = some n.toNat → Documented (.setEX k v n) [b!"setex", k, t, v]
  | pSetEX {k v} {n : UInt64} {t} : parseNat t = some n.toNat → Documented (.pSetEX k v n) [b!"psetex", k, t, v]
  | get {k} : Documented (.get k) [b!"get", k]
  | getSet {k v} : Documented (.getSet k v) [b!"getset", k, v]
  | strLen {k} : Documented (.strLen k) [b!"strlen", k]
  | append {k v} : Documented (.append k v) [b!"append", k, v]
  | setRange {k o v t} : atoi t = some o → Documented (.setRange k o v) [b!"setrange", k, t, v]
  | getRange {k a b t u} : atoi t = some a → atoi u = some b → Documented (.getRange k a b) [b!"getrange", k, t, u]
  | incr {k} : Documented (.incr k) [b!"incr", k]
  | incrBy {k n t} : atoi t = some n → Documented (.incrBy k n) [b!"incrby", k, t]
  | incrByFloat {k} {x : F64} {t} : (x.isNaN = false → parseFloat t = some x) → Documented (.incrByFloat k x) [b!"incrbyfloat", k, t]
  | decr {k} : Documented (.decr k) [b!"decr", k]
  | decrBy {k n t} : atoi t = some n → Documented (.decrBy k n) [b!"decrby", k, t]
  | mSet {kv l : List (Bytes × Bytes)} : l.Perm kv → Documented (.mSet kv) (b!"mset" :: l.flatMap fun p => [p.1, p.2])
  | mSetNX {kv l : List (Bytes × Bytes)} : l.Perm kv → Documented (.mSetNX kv) (b!"msetnx" :: l.flatMap fun p => [p.1, p.2])
  | mGet {ks} : Documented (.mGet ks) (b!"mget" :: ks)

/-- What arrives at the server: the arguments decoded from the bytes by the protocol's own rules,
with the command name in lower case. -/
def received (q : Req) : Option (List Bytes) :=
  match specCommand (sent q) with
  | some (name :: args, []) => some (name.map lowerLetter :: args)
  | _ => none

/-- C52 is false of the code for three methods: `SetEX` and `PSetEX` send `SETNX key value n`, `IncrBy`
sends `INCR key n` (which the server rejects for their number of arguments). -/
theorem C52_violated :
    (∀ l, received (.setEX b!"k" b!"v" 5) = some l → ¬ Documented (.setEX b!"k" b!"v" 5) l) ∧
    (∀ l, received (.pSetEX b!"k" b!"v" 5) = some l → ¬ Documented (.pSetEX b!"k" b!"v" 5) l) ∧
    (∀ l, received (.incrBy b!"k" 5) = some l → ¬ Documented (.incrBy b!"k" 5) l) := by
  refine ⟨fun l h hd => ?_, fun l h hd => ?_, fun l h hd => ?_⟩
  · have e : received (.setEX b!"k" b!"v" 5) = some [b!"setnx", b!"k", b!"v", b!"5"] := by decide +kernel
    rw [e] at h
    cases hd
    simp at h
  · have e : received (.pSetEX b!"k" b!"v" 5) = some [b!"setnx", b!"k", b!"v", b!"5"] := by decide +kernel
    rw [e] at h
    cases hd
    simp at h
  · have e : received (.incrBy b!"k" 5) = some [b!"incr", b!"k", b!"5"] := by decide +kernel
    rw [e] at h
    cases hd
    simp at h

theorem received_eq (q : Req) (name : Bytes) (rest : List Bytes) (h : args q = name :: rest) :
    received q = some (name.map lowerLetter :: rest) := by
  have := C47_binary_safe (args q) []
  rw [List.append_nil, h] at this
  simp only [received, sent, h, this]

/-- C52, as far as it holds: every other method sends its own command with its arguments in the
documented order, for all arguments. -/
theorem C52_commands_partial (q : Req)
    (hq : ∀ k v n i, q ≠ .setEX k v n ∧ q ≠ .pSetEX k v n ∧ q ≠ .incrBy k i) :
    ∃ l, received q = some l ∧ Documented q l := by
  cases q with
  | setEX k v n => exact absurd rfl (hq k v n 0).1
  | pSetEX k v n => exact absurd rfl (hq k v n 0).2.1
  | incrBy k n => exact absurd rfl (hq k [] 0 n).2.2
  | set k v => exact ⟨_, received_eq _ _ _ rfl, .set⟩
  | select n => exact ⟨_, received_eq _ _ _ rfl, .select (atoi_itoa n)⟩
  | setNX k v => exact ⟨_, received_eq _ _ _ rfl, .setNX⟩
  | get k => exact ⟨_, received_eq _ _ _ rfl, .get⟩
  | getSet k v => exact ⟨_, received_eq _ _ _ rfl, .getSet⟩
  | strLen k => exact ⟨_, received_eq _ _ _ rfl, .strLen⟩
  | append k v => exact ⟨_, received_eq _ _ _ rfl, .append⟩
  | setRange k o v => exact ⟨_, received_eq _ _ _ rfl, .setRange (atoi_itoa o)⟩
  | getRange k a b => exact ⟨_, received_eq _ _ _ rfl, .getRange (atoi_itoa a) (atoi_itoa b)⟩
  | incr k => exact ⟨_, received_eq _ _ _ rfl, .incr⟩
  | incrByFloat k x => exact ⟨_, received_eq _ _ _ rfl, .incrByFloat parseFloat_formatFloat⟩
  | decr k => exact ⟨_, received_eq _ _ _ rfl, .decr⟩
  | decrBy k n => exact ⟨_, received_eq _ _ _ rfl, .decrBy (atoi_itoa n)⟩
  | mSet kv => exact ⟨_, received_eq _ _ _ rfl, .mSet (List.Perm.refl _)⟩
  | mSetNX kv => exact ⟨_, received_eq _ _ _ rfl, .mSetNX (List.Perm.refl _)⟩
  | mGet ks => exact ⟨_, received_eq _ _ _ rfl, .mGet⟩

/-- `SetRange` with a negative offset and binary data is one of them. -/
example : ∀ k v n i, Req.setRange b!"k" (-3) [0, 10] ≠ .setEX k v n ∧
    Req.setRange b!"k" (-3) [0, 10] ≠ .pSetEX k v n ∧ Req.setRange b!"k" (-3) [0, 10] ≠ .incrBy k i := by
  intros; refine ⟨?_, ?_, ?_⟩ <;> intro h <;> cases h

/-- Two different requests of the same method never look the same to the server. -/
theorem C52_distinct (q q' : Req) (h : sent q = sent q') : args q = args q' :=
  (C47_injective (args q) (args q') [] [] (by rw [List.append_nil, List.append_nil]; exact h)).1

end Verif.Client

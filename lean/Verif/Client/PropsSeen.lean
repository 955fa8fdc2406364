import Verif.Client.PropsRemote
import Verif.PropsFloat
/-!
# C94, exactly: what a user of the remote client sees, for every method

`C94_remote_partial` is about the methods that work.  Here every method is covered: what it does to the databases of the
server and what its caller sees.
-/
namespace Verif.Client
open Verif.Resp

variable {bad : Bytes → F64}

/-- The databases of the server and the one the client is on. -/
structure View where
  dbs : Int → Ref.Store
  db : Int

/-- A documented call on the database the client is on. -/
def View.run (w : View) (t : Int) (op : Call) : View :=
  { w with dbs := fun d => if d = w.db then (Ref.exec (w.dbs w.db) t op).1 else w.dbs d }

/-- The documented answer. -/
def View.out (w : View) (t : Int) (op : Call) : Verif.Out := (Ref.exec (w.dbs w.db) t op).2

/-- What a method returns beside an error. -/
def zeroOf : Req → Val
  | .set .. | .select .. | .setNX .. | .setEX .. | .pSetEX .. | .mSet .. | .get .. | .getSet .. | .getRange .. => .text []
  | .strLen .. | .append .. | .setRange .. | .incr .. | .incrBy .. | .decr .. | .decrBy .. | .mSetNX .. => .int 0
  | .incrByFloat .. => .float F64.zero
  | .mGet .. => .list []

/-- The number the server reads from the text of `x`. -/
def resent (x : F64) : F64 := if x.isNaN then F64.nan else x

/-- What every method comes to.  The documented ones are carried out and answered.  `SetNX` is carried out and always reports
an error without text.  `IncrByFloat` is carried out and shows 0.  `Select` moves the client.  `SetEX`,
`PSetEX`, `IncrBy`, and `MSet`, `MSetNX`, `MGet` of nothing are refused. -/
def seen (w : View) (t : Int) (q : Req) : View × Out Val :=
  match asCall q with
  | some op => (w.run t op, shown op (w.out t op))
  | none => match q with
    | .setNX k v => (w.run t (.setNX k v), ⟨.text [], some (.reply [])⟩)
    | .incrByFloat k x => (w.run t (.incrByFloat k (resent x)), match w.out t (.incrByFloat k (resent x)) with
        | .float (.err e) => ⟨.float F64.zero, some (.reply (errText e))⟩
        | _ => ⟨.float F64.zero, none⟩)
    | .select n => if 0 ≤ n.toInt ∧ n.toInt < 16 then ({ w with db := n.toInt }, ⟨.text [], none⟩)
        else (w, ⟨.text [], some (.reply b!"ERR DB index is out of range")⟩)
    | q => (w, ⟨zeroOf q, some (.reply b!"ERR unknown command or wrong arguments")⟩)

/-- What the calls of a session come to. -/
def seenAll : View → List (Int × Req × Cut) → List Answer
  | _, [] => []
  | w, (t, q, _) :: h => .done (some (seen w t q).2) :: seenAll (seen w t q).1 h

theorem parse_resent (x : F64) : parseFloat (formatFloat x) = some (resent x) := by
  unfold resent
  cases h : x.isNaN with
  | false => simpa using (C81_parse_format x).1 h
  | true =>
    simp only [formatFloat, h, if_true]; decide

theorem text_ne_panic (st : Ref.Store) (t : Int) (k : Bytes) (a : Bytes) : Ref.text st t k (.ok a) ≠ .panic := by
  unfold Ref.text; split <;> simp

/-- Adding a float is answered by the new number or by an error. -/
theorem addFloat_out (st : Ref.Store) (t : Int) (k : Bytes) (x : F64) :
    (∃ z, (Ref.exec st t (.incrByFloat k x)).2 = .float (.ok z)) ∨ ∃ e, (Ref.exec st t (.incrByFloat k x)).2 = .float (.err e) := by
  simp only [Ref.exec, Ref.addFloat]
  split
  · split
    · exact .inr ⟨_, rfl⟩
    · exact .inl ⟨_, rfl⟩
  · exact .inr ⟨_, rfl⟩
  · rename_i h; exact absurd h (text_ne_panic _ _ _ _)

/-- One request at the server, and its result at the client. -/
theorem serve_seen (s : Server) (l : Login) (ha : s.password.isSome → l.authed = true) (t : Int) (q : Req) :
    ∃ s' l', serve s l t (args q) = (s', l', (serve s l t (args q)).2.2) ∧ s'.password = s.password ∧ l'.authed = l.authed ∧
      (⟨s'.dbs, l'.db⟩ : View) = (seen ⟨s.dbs, l.db⟩ t q).1 ∧
      result bad q (.ok (serve s l t (args q)).2.2) = some (seen ⟨s.dbs, l.db⟩ t q).2 := by
  have hn : ¬ (s.password.isSome = true ∧ l.authed = false) := by
    rintro ⟨x, y⟩; rw [ha x] at y; simp at y
  cases hop : asCall q with
  | some op =>
    rw [serve_args hop ha]
    refine ⟨_, _, rfl, rfl, rfl, ?_, ?_⟩
    · simp only [seen, hop, View.run]
    · rw [result_replyTo _ _ hop]
      simp only [seen, hop, View.out]
  | none =>
    have carried : ∀ (name : Bytes) (a : List Bytes) (op : Call), args q = name :: a → name.map lowerLetter ≠ b!"auth" →
        name.map lowerLetter ≠ b!"select" → callNamed (name.map lowerLetter) a = some op →
        serve s l t (args q) = ({ s with dbs := fun d => if d = l.db then (Ref.exec (s.dbs l.db) t op).1 else s.dbs d }, l,
          replyTo op (Ref.exec (s.dbs l.db) t op).2) := by
      intro name a op h1 h2 h3 h4
      rw [h1]
      simp only [serve, if_neg h2, if_neg h3, if_neg hn, h4]
    have refused : ∀ (name : Bytes) (a : List Bytes), args q = name :: a → name.map lowerLetter ≠ b!"auth" →
        name.map lowerLetter ≠ b!"select" → callNamed (name.map lowerLetter) a = none →
        serve s l t (args q) = (s, l, .error b!"ERR unknown command or wrong arguments") := by
      intro name a h1 h2 h3 h4
      rw [h1]
      simp only [serve, if_neg h2, if_neg h3, if_neg hn, h4]
    cases q with
    | set | get | getSet | strLen | append | incr | decr | setRange | getRange | decrBy => simp [asCall] at hop
    | setNX k v =>
      rw [carried b!"SetNX" [k, v] (.setNX k v) rfl (by decide) (by decide) rfl]
      refine ⟨_, _, rfl, rfl, rfl, rfl, ?_⟩
      simp only [seen, asCall, Ref.exec]
      split <;> rfl
    | setEX k v n =>
      rw [refused b!"SetNX" [k, v, natText n.toNat] rfl (by decide) (by decide) rfl]
      exact ⟨_, _, rfl, rfl, rfl, rfl, rfl⟩
    | pSetEX k v n =>
      rw [refused b!"SetNX" [k, v, natText n.toNat] rfl (by decide) (by decide) rfl]
      exact ⟨_, _, rfl, rfl, rfl, rfl, rfl⟩
    | incrBy k n =>
      rw [refused b!"Incr" [k, itoa n] rfl (by decide) (by decide) rfl]
      exact ⟨_, _, rfl, rfl, rfl, rfl, rfl⟩
    | incrByFloat k x =>
      have hc : callNamed ((b!"IncrByFloat").map lowerLetter) [k, formatFloat x] = some (.incrByFloat k (resent x)) := by
        rw [show (b!"IncrByFloat").map lowerLetter = b!"incrbyfloat" by decide]
        simp [callNamed, parse_resent]
      rw [carried b!"IncrByFloat" [k, formatFloat x] _ rfl (by decide) (by decide) hc]
      refine ⟨_, _, rfl, rfl, rfl, rfl, ?_⟩
      simp only [seen, asCall, View.out]
      rcases addFloat_out (s.dbs l.db) t k (resent x) with ⟨z, hz⟩ | ⟨e, he⟩
      · rw [hz]
        simp only [replyTo, result, exec, parseFloatReply, str, parse_resent, Option.map_some]
      · rw [he]; rfl
    | mSet kv =>
      cases kv with
      | cons p kv => simp [asCall] at hop
      | nil =>
        rw [refused b!"MSet" [] rfl (by decide) (by decide) rfl]
        exact ⟨_, _, rfl, rfl, rfl, rfl, rfl⟩
    | mSetNX kv =>
      cases kv with
      | cons p kv => simp [asCall] at hop
      | nil =>
        rw [refused b!"MSetNX" [] rfl (by decide) (by decide) rfl]
        exact ⟨_, _, rfl, rfl, rfl, rfl, rfl⟩
    | mGet ks =>
      cases ks with
      | cons p kv => simp [asCall] at hop
      | nil =>
        rw [refused b!"MGet" [] rfl (by decide) (by decide) rfl]
        exact ⟨_, _, rfl, rfl, rfl, rfl, rfl⟩
    | select n =>
      have h1 : args (.select n) = [b!"select", itoa n] := rfl
      rw [h1]
      simp only [serve, if_neg hn, if_neg (show (b!"select").map lowerLetter ≠ b!"auth" by decide),
        if_pos (show (b!"select").map lowerLetter = b!"select" by decide), atoi_itoa, seen, asCall]
      split
      · exact ⟨_, _, rfl, rfl, rfl, rfl, rfl⟩
      · exact ⟨_, _, rfl, rfl, rfl, rfl, rfl⟩

theorem direct_seen (h : List (Int × Req × Cut)) (s : Server) (l : Login) (ha : s.password.isSome → l.authed = true) :
    direct bad s l h = seenAll ⟨s.dbs, l.db⟩ h := by
  induction h generalizing s l with
  | nil => rfl
  | cons e h ih =>
    obtain ⟨t, q, cut⟩ := e
    obtain ⟨s', l', h1, h2, h3, h4, h5⟩ := serve_seen (bad := bad) s l ha t q
    have hs : (serve s l t (args q)).1 = s' := by rw [h1]
    have hl : (serve s l t (args q)).2.1 = l' := by rw [h1]
    simp only [direct, seenAll]
    rw [h5, hs, hl, ih s' l' (by rw [h2, h3]; exact ha), h4]

/-- C94, for every method: a goroutine that uses a remote client alone sees exactly what `seen` says, call by call, whatever methods it
uses.  (Replies can be read, the connection is not lost.) -/
theorem C94_seen_partial (o : Opt) (cap : Nat) (hcap : 0 < cap) (s : Server) (ha : Accepts s o)
    (hp : s.password.isSome → o.password ≠ []) (h : List (Int × Req × Cut))
    (hf : ∀ e ∈ h, e.2.2.Faithful) (hr : CarriedOne s (wanted o) h) :
    answers bad o cap s Cl.new (calls h) = seenAll ⟨s.dbs, (wanted o).db⟩ h := by
  rw [C92_answers_partial o cap hcap s ha h hf hr, direct_seen h s (wanted o)]
  intro h; simpa [wanted] using hp h

/-- The call a method stands for by its name. -/
def documented : Req → Option Call
  | .setNX k v => some (.setNX k v)
  | .setEX k v n => some (.setEX k v (Int64.ofNat n.toNat))
  | .pSetEX k v n => some (.pSetEX k v (Int64.ofNat n.toNat))
  | .incrBy k n => some (.incrBy k n)
  | .incrByFloat k x => if x.isNaN then none else some (.incrByFloat k x)
  | q => asCall q

/-- The documented answer as the caller should see it, floats included. -/
def wantedOut (op : Call) (o : Verif.Out) : Out Val :=
  match op, o with
  | .incrByFloat .., .float (.ok x) => ⟨.float x, none⟩
  | .incrByFloat .., .float (.err e) => ⟨.float F64.zero, some (.reply (errText e))⟩
  | op, o => shown op o

theorem errText_other (e : Err) : errText e ≠ b!"ERR unknown command or wrong arguments" := by cases e <;> decide

/-- When `seen` is what is documented. -/
theorem seen_exact (w : View) (t : Int) (q : Req) (op : Call) (h : documented q = some op) :
    (seen w t q).2 = wantedOut op (w.out t op) ↔
      (asCall q).isSome ∨ ((∃ k x, q = .incrByFloat k x) ∧ ∀ z, w.out t op = .float (.ok z) → z = F64.zero) := by
  cases hop : asCall q with
  | some op' =>
    have e : op = op' := by
      cases q <;> first
        | (simp only [asCall] at hop; cases hop; done)
        | (simp only [documented] at h; rw [hop] at h; exact (Option.some.inj h).symm)
    subst e
    simp only [Option.isSome_some, true_or, iff_true, seen, hop]
    cases q with
    | setNX | setEX | pSetEX | incrBy | incrByFloat | select => simp [asCall] at hop
    | mSet kv => cases kv <;> simp only [asCall, reduceCtorEq, Option.some.injEq] at hop; subst hop; rfl
    | mSetNX kv => cases kv <;> simp only [asCall, reduceCtorEq, Option.some.injEq] at hop; subst hop; rfl
    | mGet ks => cases ks <;> simp only [asCall, reduceCtorEq, Option.some.injEq] at hop; subst hop; rfl
    | _ => simp only [asCall, Option.some.injEq] at hop; subst hop; rfl
  | none =>
    simp only [Option.isSome_none, Bool.false_eq_true, false_or]
    have no : ∀ (x : Out Val) (e : Err), x.err = some (.reply (errText e)) →
        x ≠ ⟨zeroOf q, some (.reply b!"ERR unknown command or wrong arguments")⟩ := by
      rintro x e h rfl
      simp only [Option.some.injEq, CErr.reply.injEq] at h
      exact errText_other e h.symm
    cases q with
    | set | get | getSet | strLen | append | incr | decr | setRange | getRange | decrBy => simp [asCall] at hop
    | select => simp [documented, asCall] at h
    | mSet kv => simp only [documented] at h; rw [hop] at h; cases h
    | mSetNX kv => simp only [documented] at h; rw [hop] at h; cases h
    | mGet ks => simp only [documented] at h; rw [hop] at h; cases h
    | setNX k v =>
      cases h
      simp only [reduceCtorEq, exists_false, false_and, iff_false]
      simp only [seen, asCall, View.out, Ref.exec]
      split <;> simp [wantedOut, shown]
    | setEX k v n =>
      cases h
      simp only [reduceCtorEq, exists_false, false_and, iff_false]
      refine fun hc => ?_
      simp only [seen, asCall, View.out, Ref.exec] at hc
      split at hc
      · exact no _ .wrongType rfl hc.symm
      · simp [wantedOut, shown] at hc
    | pSetEX k v n =>
      cases h
      simp only [reduceCtorEq, exists_false, false_and, iff_false]
      refine fun hc => ?_
      simp only [seen, asCall, View.out, Ref.exec] at hc
      split at hc
      · exact no _ .wrongType rfl hc.symm
      · simp [wantedOut, shown] at hc
    | incrBy k n =>
      cases h
      simp only [reduceCtorEq, exists_false, false_and, iff_false]
      refine fun hc => ?_
      simp only [seen, asCall, View.out, Ref.exec, Ref.addTo] at hc
      split at hc
      · split at hc
        · exact no _ _ rfl hc.symm
        · split at hc
          · simp [wantedOut, shown] at hc
          · exact no _ _ rfl hc.symm
      · exact no _ _ rfl hc.symm
      · rename_i h; exact absurd h (text_ne_panic _ _ _ _)
    | incrByFloat k x =>
      simp only [documented] at h
      cases hx : x.isNaN with
      | true => simp [hx] at h
      | false =>
        simp only [hx, Bool.false_eq_true, if_false, Option.some.injEq] at h
        subst h
        have hr : resent x = x := by simp [resent, hx]
        simp only [seen, asCall, hr]
        rcases addFloat_out (w.dbs w.db) t k x with ⟨z, hz⟩ | ⟨e, he⟩
        · have hz : w.out t (.incrByFloat k x) = .float (.ok z) := hz
          rw [hz]
          simp only [wantedOut, Out.mk.injEq, Val.float.injEq, and_true, Verif.Out.float.injEq, GoRes.ok.injEq]
          exact ⟨fun h => ⟨⟨k, x, rfl⟩, fun y hy => hy ▸ h.symm⟩, fun h => (h.2 z rfl).symm⟩
        · have he : w.out t (.incrByFloat k x) = .float (.err e) := he
          rw [he]
          simp [wantedOut]

/-- C94, exactly: the first call of a client, whatever the server holds, shows its documented answer if and only if it is one of the methods
that work, or it is `IncrByFloat` and is refused or arrives at 0. -/
theorem C94_exact (o : Opt) (cap : Nat) (hcap : 0 < cap) (s : Server) (ha : Accepts s o) (hp : s.password.isSome → o.password ≠ [])
    (t : Int) (q : Req) (cut : Cut) (hf : cut.Faithful) (hr : CarriedOne s (wanted o) [(t, q, cut)]) (op : Call)
    (h : documented q = some op) :
    answers bad o cap s Cl.new (calls [(t, q, cut)]) =
        [.done (some (wantedOut op (Ref.exec (s.dbs (wanted o).db) t op).2))] ↔
      (asCall q).isSome ∨
        ((∃ k x, q = .incrByFloat k x) ∧ ∀ z, (Ref.exec (s.dbs (wanted o).db) t op).2 = .float (.ok z) → z = F64.zero) := by
  rw [C94_seen_partial o cap hcap s ha hp _ (by simpa using hf) hr]
  simp only [seenAll, List.cons.injEq, and_true, Answer.done.injEq, Option.some.injEq]
  exact seen_exact ⟨s.dbs, (wanted o).db⟩ t q op h

/-- C94, how it fails: `SetNX` is carried out and reports an error all the same; `SetEX`, `PSetEX` and `IncrBy` change nothing at the server
and report an error; `IncrByFloat` never shows another number than 0.  For all arguments and all states of the server. -/
theorem C94_violated_any (s : Server) (l : Login) (ha : s.password.isSome → l.authed = true) (t : Int) (k v : Bytes) (n : UInt64)
    (i : Int64) (x : F64) :
    (result bad (.setNX k v) (.ok (serve s l t (args (.setNX k v))).2.2) = some ⟨.text [], some (.reply [])⟩ ∧
      (serve s l t (args (.setNX k v))).1.dbs l.db = (Ref.exec (s.dbs l.db) t (.setNX k v)).1) ∧
    (∀ q, q = .setEX k v n ∨ q = .pSetEX k v n ∨ q = .incrBy k i → (serve s l t (args q)).1.dbs = s.dbs ∧
      ∃ z e, result bad q (.ok (serve s l t (args q)).2.2) = some ⟨z, some e⟩) ∧
    ∃ e, result bad (.incrByFloat k x) (.ok (serve s l t (args (.incrByFloat k x))).2.2) = some ⟨.float F64.zero, e⟩ := by
  have view : ∀ q, (⟨(serve s l t (args q)).1.dbs, (serve s l t (args q)).2.1.db⟩ : View) = (seen ⟨s.dbs, l.db⟩ t q).1 ∧
      result bad q (.ok (serve s l t (args q)).2.2) = some (seen ⟨s.dbs, l.db⟩ t q).2 := by
    intro q
    obtain ⟨s', l', h1, _, _, h4, h5⟩ := serve_seen (bad := bad) s l ha t q
    refine ⟨?_, h5⟩
    rw [← h4, show (serve s l t (args q)).1 = s' by rw [h1], show (serve s l t (args q)).2.1 = l' by rw [h1]]
  have dbs : ∀ q, (serve s l t (args q)).1.dbs = (seen ⟨s.dbs, l.db⟩ t q).1.dbs := fun q => congrArg View.dbs (view q).1
  refine ⟨⟨(view _).2, ?_⟩, ?_, ?_⟩
  · rw [dbs]; simp [seen, asCall, View.run]
  · rintro q (rfl | rfl | rfl) <;> exact ⟨dbs _, _, _, (view _).2⟩
  · rw [(view _).2]
    simp only [seen, asCall, View.out]
    rcases addFloat_out (s.dbs l.db) t k (resent x) with ⟨z, hz⟩ | ⟨e, he⟩
    · rw [hz]; exact ⟨_, rfl⟩
    · rw [he]; exact ⟨_, rfl⟩

/-- A session with all kinds of methods that meets the hypotheses of `C94_seen_partial`. -/
def seenCalls : List (Int × Req × Cut) :=
  [(0, .set b!"k" b!"hello", whole), (1, .setNX b!"n" b!"2", whole), (2, .setEX b!"x" b!"v" 10, whole), (3, .incrBy b!"n" 5, bytewise),
   (4, .incrByFloat b!"n" F64.zero, whole), (5, .select 7, whole), (6, .get b!"k", bytewise), (7, .select 99, whole), (8, .mGet [], whole)]

set_option maxRecDepth 8000 in
example : (∀ e ∈ seenCalls, e.2.2.Faithful) ∧ CarriedOne sampleServer (wanted ⟨b!"secret", 3⟩) seenCalls := by
  refine ⟨?_, ?_⟩
  · intro e he
    simp only [seenCalls, List.mem_cons, List.not_mem_nil, or_false] at he
    rcases he with rfl | rfl | rfl | rfl | rfl | rfl | rfl | rfl | rfl <;>
      first | exact faithful_bytewise | exact fun b => by simp [whole]
  · refine ⟨carried_token (tokenCut_whole (fits_ofB ?_) ?_), carried_token (tokenCut_whole (fits_ofB ?_) ?_), carried_token (tokenCut_whole (fits_ofB ?_) ?_),
      carried_line faithful_bytewise ?_, carried_token (tokenCut_whole (fits_ofB ?_) ?_), carried_token (tokenCut_whole (fits_ofB ?_) ?_),
      carried_line faithful_bytewise ?_, carried_token (tokenCut_whole (fits_ofB ?_) ?_), carried_token (tokenCut_whole (fits_ofB ?_) ?_), trivial⟩ <;> decide +kernel

end Verif.Client

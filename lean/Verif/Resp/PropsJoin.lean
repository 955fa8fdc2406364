import Verif.Resp.PropsExact
/-!
# C46, exactly, for whole messages

Replies may be arrays whose payloads are each cut somewhere.  `Joins` follows the reader through a message and collects what must hold at
each payload.
-/
namespace Verif.Resp

mutual
/-- The reader behind a message, if everything before it was read right. -/
def skip : Msg → Rd → Rd
  | .bulk p, r => (readLine (read p.length (behindHeader r)).2).2
  | .array ms, r => skipAll ms (behindHeader r)
  | .nil, r | .error _, r | .int _, r | .simple _, r => (readLine (readByte r).2).2
def skipAll : List Msg → Rd → Rd
  | [], r => r
  | m :: ms, r => skipAll ms (skip m r)
end

/-- The part of a payload that has not arrived when it is read. -/
def lateOf (p : Bytes) (r : Rd) : Bytes := p.drop (arrived p.length (behindHeader r))

mutual
/-- Of each payload in a message, the late part is zero and fits, with its line end, into the buffer. -/
def Joins : Msg → Rd → Prop
  | .bulk p, r => (∀ b ∈ lateOf p r, b = 0) ∧ (lateOf p r).length + 2 ≤ bufSize
  | .array ms, r => JoinsAll ms (behindHeader r)
  | .nil, _ | .error _, _ | .int _, _ | .simple _, _ => True
def JoinsAll : List Msg → Rd → Prop
  | [], _ => True
  | m :: ms, r => Joins m r ∧ JoinsAll ms (skip m r)
end

/-- The reader stands in front of leftover bytes of a payload or its line end. -/
def Astray (rest : Bytes) (r : Rd) : Prop := r.WF ∧ ∃ b t, r.flat = b :: t ++ rest ∧ (b = 0 ∨ b = 13)

/-- Messages whose lines can be read. -/
abbrev Lines : Msg → Prop := Fits (fun l => l.length + 2 ≤ bufSize) (fun _ => True)
abbrev LinesAll : List Msg → Prop := FitsAll (fun l => l.length + 2 ≤ bufSize) (fun _ => True)

theorem astray_msg {rest : Bytes} {r : Rd} (h : Astray rest r) (f : Nat) : ∃ e r', readMsg f r = (.err e, r') := by
  obtain ⟨hw, b, t, h1, h2⟩ := h
  cases f with
  | zero => exact ⟨_, _, rfl⟩
  | succ f =>
    obtain ⟨r1, k1, _⟩ := readByte_at hw h1
    refine ⟨.unknownProtocol, r1, ?_⟩
    rw [readMsg, k1]
    rcases h2 with rfl | rfl <;> rfl

/-- Zeros that do not fit the buffer leave some of themselves, or the line end, in front. -/
theorem flatLine_zeros {q rest : Bytes} (hq : ∀ b ∈ q, b = 0) (hl : ¬ q.length + 2 ≤ bufSize) :
    ∃ b t, (flatLine (q ++ crlf ++ rest)).2 = b :: t ++ rest ∧ (b = 0 ∨ b = 13) := by
  obtain ⟨n, rfl⟩ : ∃ n, q = List.replicate n (0 : UInt8) := ⟨q.length, List.eq_replicate_iff.2 ⟨rfl, hq⟩⟩
  rw [List.length_replicate] at hl
  have hpos : 2 ≤ bufSize := by decide
  unfold flatLine
  generalize bufSize = S at *
  have hlen : S ≤ (List.replicate n (0 : UInt8) ++ crlf ++ rest).length := by simp [crlf]; omega
  by_cases hn : n + 1 = S
  · have e : (List.replicate n (0 : UInt8) ++ crlf ++ rest).take S = List.replicate n 0 ++ [13] := by
      rw [List.append_assoc, ← hn, List.take_append, List.take_of_length_le (by simp), List.length_replicate]
      simp [crlf]
    have hs : splitNL (List.replicate n (0 : UInt8) ++ [13]) = none := by
      rw [splitNL_none_iff]; simp
    refine ⟨13, [10], ?_, .inr rfl⟩
    rw [e, hs]
    simp only [hlen, if_true, List.getLast?_append, List.getLast?_singleton, Option.some_or]
    rw [List.append_assoc, ← hn, Nat.add_sub_cancel, List.drop_append_of_le_length (by simp)]
    simp [crlf]
  · have h4 : S ≤ n := by omega
    have e : (List.replicate n (0 : UInt8) ++ crlf ++ rest).take S = List.replicate S 0 := by
      rw [List.append_assoc, List.take_append_of_le_length (by simpa using h4), List.take_replicate, Nat.min_eq_left h4]
    have hs : splitNL (List.replicate S (0 : UInt8)) = none := by
      rw [splitNL_none_iff]; simp
    have hlast : (List.replicate S (0 : UInt8)).getLast? ≠ some 13 := by
      rw [List.getLast?_replicate]; split <;> simp
    rw [e, hs]
    simp only [hlen, if_true, if_neg hlast]
    rw [List.append_assoc, List.drop_append_of_le_length (by simpa using h4), List.drop_replicate]
    cases hk : n - S with
    | zero => exact ⟨13, [10], by simp [crlf], .inr rfl⟩
    | succ k => exact ⟨0, List.replicate k 0 ++ crlf, by simp [List.replicate_succ], .inl rfl⟩

/-- Where reading a payload ends. -/
theorem readBulk_place {n : Int64} {k : Nat} {r r' : Rd} {m : Msg} (hn : n.toInt = k) (h : readBulk n r = (.ok m, r')) : r' = (readLine (read k r).2).2 := by
  unfold readBulk at h
  split at h
  · simp at h
  · rw [hn, Int.toNat_natCast] at h
    cases hx : read k r with
    | mk x r1 =>
      rw [hx] at h
      cases x with
      | ok d =>
        simp only [andThen] at h
        cases hy : readLine r1 with
        | mk y r2 =>
          rw [hy] at h
          cases y with
          | ok l => simp only [Prod.mk.injEq] at h; exact h.2.symm
          | err e => simp at h
          | panic => simp at h
      | err e => simp [andThen] at h
      | panic => simp [andThen] at h

/-- The header of an array. -/
theorem array_header {ms : List Msg} {rest : Bytes} (h : Lines (.array ms)) {r : Rd} (hw : r.WF) (hf : r.flat = ser (.array ms) ++ rest) :
    ∃ r1 k, readByte r = (.ok 42, r1) ∧ readInt r1 = (.ok k, behindHeader r) ∧ k.toInt.toNat = ms.length ∧ (behindHeader r).WF ∧
      (behindHeader r).flat = serAll ms ++ rest := by
  obtain ⟨h1, h2, _⟩ := h
  have e : ser (.array ms) ++ rest = 42 :: (natText ms.length ++ crlf ++ (serAll ms ++ rest)) := by simp [ser]
  rw [e] at hf
  obtain ⟨r1, k1, k2, k3⟩ := readByte_at hw hf
  obtain ⟨r2, g1, g2, g3⟩ := readLine_at k3 (natText_no_nl _) h2 k2
  obtain ⟨k, hk, hv⟩ := atoi_natText h1
  have hi : readInt r1 = (.ok k, r2) := by simp [readInt, g1, andThen, hk]
  have hb : behindHeader r = r2 := by simp [behindHeader, k1, hi]
  rw [hb]
  exact ⟨r1, k, k1, hi, by omega, g3, g2⟩

/-- A message that is one line. -/
theorem join_line {m : Msg} {tag : UInt8} {l rest : Bytes} {f : Nat} {r : Rd} (hw : r.WF) (hser : ser m = tag :: (l ++ crlf)) (h10 : (10 : UInt8) ∉ l)
    (hl : l.length + 2 ≤ bufSize) (hf : r.flat = ser m ++ rest) (hs : skip m r = (readLine (readByte r).2).2)
    (hr : ∀ r1 r2, readByte r = (.ok tag, r1) → readLine r1 = (.ok l, r2) → readMsg (f + 1) r = (.ok m, r2)) :
    readMsg (f + 1) r = (.ok m, skip m r) ∧ (skip m r).WF ∧ (skip m r).flat = rest := by
  rw [hser] at hf
  obtain ⟨r1, k1, k2, k3⟩ := readByte_at hw hf
  obtain ⟨r2, g1, g2, g3⟩ := readLine_at k3 h10 hl (rest := rest) k2
  have : skip m r = r2 := by rw [hs, k1, g1]
  rw [this]
  exact ⟨hr r1 r2 k1 g1, g3, g2⟩

mutual
theorem join_msg : ∀ (m : Msg) (f : Nat) (rest : Bytes) (r : Rd), Lines m → 2 * (ser m).length + 1 ≤ f → r.WF → r.flat = ser m ++ rest →
    (Joins m r → readMsg f r = (.ok m, skip m r) ∧ (skip m r).WF ∧ (skip m r).flat = rest) ∧
    (¬ Joins m r → ∀ r', readMsg f r = (.ok m, r') → Astray rest r')
  | m, 0, _, _, _, hf, _, _ => by omega
  | .nil, f + 1, rest, r, hv, _, hw, h => by
    refine ⟨fun _ => join_line (tag := 36) (l := [45, 49]) hw rfl (by decide) hv h rfl ?_, fun hn => absurd trivial hn⟩
    intro r1 r2 k1 k2
    have ha : atoi [45, 49] = some (-1) := by decide +kernel
    have hm : ((-1 : Int64)).toInt = -1 := by decide
    simp only [readMsg, k1, andThen, readInt, k2, ha, hm, if_true]
  | .simple s, f + 1, rest, r, hv, _, hw, h => by
    refine ⟨fun _ => join_line (tag := 43) (l := s) hw (by simp [ser]) hv.1 hv.2 h rfl ?_, fun hn => absurd trivial hn⟩
    intro r1 r2 k1 k2
    simp [readMsg, k1, andThen, k2]
  | .error s, f + 1, rest, r, hv, _, hw, h => by
    refine ⟨fun _ => join_line (tag := 45) (l := s) hw (by simp [ser]) hv.1 hv.2 h rfl ?_, fun hn => absurd trivial hn⟩
    intro r1 r2 k1 k2
    simp [readMsg, k1, andThen, k2]
  | .int n, f + 1, rest, r, hv, _, hw, h => by
    refine ⟨fun _ => join_line (tag := 58) (l := itoa n) hw (by simp [ser]) (itoa_no_nl n) hv h rfl ?_, fun hn => absurd trivial hn⟩
    intro r1 r2 k1 k2
    simp [readMsg, k1, andThen, readInt, k2, atoi_itoa]
  | .bulk p, f + 1, rest, r, hv, _, hw, h => by
    obtain ⟨hp, _, _⟩ := hv
    obtain ⟨n, h1, h2, h3, h4⟩ := header_at hp hw h
    obtain ⟨r1, k1, _⟩ := readByte_at (b := 36) (rest := natText p.length ++ crlf ++ (p ++ crlf ++ rest)) hw (by rw [h]; simp [ser])
    have hr : readMsg (f + 1) r = readMessage r := by simp only [readMessage, readMsg, k1, andThen, if_true]
    obtain ⟨r', h5, h6⟩ := readBulk_result hp h3 h4 h1
    have hw' : r'.WF := by
      rcases readBulk_any n _ h3 with ⟨m, r2, k2, k3, _⟩ | ⟨e, r2, k2, _⟩ | ⟨r2, k2, _⟩
      · rw [h5] at k2; cases k2; exact k3
      · rw [h5] at k2; simp at k2
      · rw [h5] at k2; simp at k2
    have hsk : skip (.bulk p) r = r' := by rw [readBulk_place h1 h5]; rfl
    have hz := C46_exact p rest hp r hw h
    rw [h2, h5] at hz
    simp only [] at hz
    rw [hr, h2, h5, hsk]
    constructor
    · intro hj
      refine ⟨Prod.ext (hz.2 hj.1) rfl, hw', ?_⟩
      rw [h6, flatLine_place]
      exact ⟨fun hm => absurd (hj.1 _ hm) (by decide), hj.2⟩
    · intro hj r2 hr2
      simp only [Prod.mk.injEq] at hr2
      obtain ⟨e1, rfl⟩ := hr2
      refine ⟨hw', ?_⟩
      rw [h6]
      exact flatLine_zeros (hz.1 e1) fun h => hj ⟨hz.1 e1, h⟩
  | .array ms, f + 1, rest, r, hv, hf, hw, h => by
    obtain ⟨r1, k, h1, h2, h3, h4, h5⟩ := array_header hv hw h
    have hf' : 2 * (serAll ms).length + 2 ≤ f := by simp [ser, crlf] at hf; omega
    obtain ⟨g1, g2⟩ := join_msgs ms f rest (behindHeader r) hv.2.2 hf' h4 h5
    have e : readMsg (f + 1) r = andThen (readMsgs f ms.length (behindHeader r)) fun ms r => (.ok (.array ms), r) := by
      simp [readMsg, h1, andThen, h2, h3]
    constructor
    · intro hj
      obtain ⟨a, b⟩ := g1 hj
      rw [e, a]
      exact ⟨rfl, b⟩
    · intro hj r' hr'
      rw [e] at hr'
      cases hx : readMsgs f ms.length (behindHeader r) with
      | mk x r2 =>
        rw [hx] at hr'
        cases x with
        | ok ms' =>
          simp only [andThen, Prod.mk.injEq, GoRes.ok.injEq, Msg.array.injEq] at hr'
          obtain ⟨rfl, rfl⟩ := hr'
          exact g2 hj _ hx
        | err e => simp [andThen] at hr'
        | panic => simp [andThen] at hr'
theorem join_msgs : ∀ (ms : List Msg) (f : Nat) (rest : Bytes) (r : Rd), LinesAll ms → 2 * (serAll ms).length + 2 ≤ f → r.WF →
    r.flat = serAll ms ++ rest →
    (JoinsAll ms r → readMsgs f ms.length r = (.ok ms, skipAll ms r) ∧ (skipAll ms r).WF ∧ (skipAll ms r).flat = rest) ∧
    (¬ JoinsAll ms r → ∀ r', readMsgs f ms.length r = (.ok ms, r') → Astray rest r')
  | ms, 0, _, _, _, hf, _, _ => by omega
  | [], f + 1, rest, r, _, _, hw, h => by
    refine ⟨fun _ => ⟨by simp [readMsgs, skipAll], by simpa [skipAll] using hw, by simpa [skipAll, serAll] using h⟩, fun hn => absurd trivial hn⟩
  | m :: ms, f + 1, rest, r, hv, hf, hw, h => by
    have hp := ser_length_pos m
    simp only [serAll, List.length_append] at hf
    simp only [serAll, List.append_assoc] at h
    obtain ⟨a1, a2⟩ := join_msg m f (serAll ms ++ rest) r hv.1 (by omega) hw h
    by_cases hj : Joins m r
    · obtain ⟨b1, b2, b3⟩ := a1 hj
      obtain ⟨c1, c2⟩ := join_msgs ms f rest (skip m r) hv.2 (by omega) b2 b3
      have e : readMsgs (f + 1) (m :: ms).length r = andThen (readMsgs f ms.length (skip m r)) fun ms r => (.ok (m :: ms), r) := by
        simp [readMsgs, b1, andThen]
      constructor
      · intro hj2
        obtain ⟨d1, d2⟩ := c1 hj2.2
        rw [e, d1]
        exact ⟨rfl, d2⟩
      · intro hj2 r' hr'
        rw [e] at hr'
        cases hx : readMsgs f ms.length (skip m r) with
        | mk x r2 =>
          rw [hx] at hr'
          cases x with
          | ok ms' =>
            simp only [andThen, Prod.mk.injEq, GoRes.ok.injEq, List.cons.injEq, true_and] at hr'
            obtain ⟨rfl, rfl⟩ := hr'
            exact c2 (fun h => hj2 ⟨hj, h⟩) _ hx
          | err e => simp [andThen] at hr'
          | panic => simp [andThen] at hr'
    · refine ⟨fun h => absurd h.1 hj, fun _ r' hr' => ?_⟩
      cases hx : readMsg f r with
      | mk x r2 =>
        simp only [List.length_cons, readMsgs, hx] at hr'
        cases x with
        | ok m' =>
          simp only [andThen] at hr'
          cases hy : readMsgs f ms.length r2 with
          | mk y r3 =>
            rw [hy] at hr'
            cases y with
            | ok ms' =>
              simp only [Prod.mk.injEq, GoRes.ok.injEq, List.cons.injEq] at hr'
              obtain ⟨⟨rfl, rfl⟩, rfl⟩ := hr'
              have hA := a2 hj _ hx
              cases ms' with
              | nil =>
                cases f with
                | zero => omega
                | succ f => simp only [List.length_nil, readMsgs, Prod.mk.injEq, true_and] at hy; subst hy; simpa [serAll] using hA
              | cons m2 ms2 =>
                exfalso
                cases f with
                | zero => omega
                | succ f =>
                  obtain ⟨e, r4, k⟩ := astray_msg hA f
                  simp [readMsgs, k, andThen] at hy
            | err e => simp at hr'
            | panic => simp at hr'
        | err e => simp [andThen] at hr'
        | panic => simp [andThen] at hr'
end

/-- C46, exactly, for any message whose lines fit the buffer, arrays in arrays included: however the stream was cut, the message is decoded to itself and the
next one is read from the right place if and only if of each payload in it the part that has not arrived when it is read consists of zero bytes and
fits, with its line end, into the buffer. -/
theorem C46_message_exact (m : Msg) (rest : Bytes) (hm : Lines m) (r : Rd) (hw : r.WF) (hf : r.flat = ser m ++ rest) :
    ((readMessage r).1 = .ok m ∧ (readMessage r).2.flat = rest) ↔ Joins m r := by
  obtain ⟨h1, h2⟩ := join_msg m (2 * r.flat.length + 1) rest r hm (by rw [hf, List.length_append]; omega) hw hf
  constructor
  · rintro ⟨a, b⟩
    refine Classical.byContradiction fun hj => ?_
    obtain ⟨_, c, t, k, _⟩ := h2 hj (readMessage r).2 (Prod.ext a rfl)
    rw [b] at k
    have := congrArg List.length k
    simp at this
    omega
  · intro hj
    obtain ⟨a, _, b⟩ := h1 hj
    rw [readMessage, a]
    exact ⟨rfl, b⟩

/-- The reader is left in order. -/
theorem joins_reads {m : Msg} {rest : Bytes} (hm : Lines m) {r : Rd} (hw : r.WF) (hf : r.flat = ser m ++ rest) (hj : Joins m r) :
    readMessage r = (.ok m, skip m r) ∧ (skip m r).WF ∧ (skip m r).flat = rest :=
  (join_msg m (2 * r.flat.length + 1) rest r hm (by rw [hf, List.length_append]; omega) hw hf).1 hj

/-- Of two payloads the second is cut: if what is late of it is zero it comes through, otherwise not; lines may be cut anywhere. -/
example : Joins (.array [.bulk b!"ab", .bulk [99, 0]]) ⟨[], [b!"*", b!"2\r\n$2\r", b!"\nab\r\n$2\r\nc", [0, 13, 10]]⟩ ∧
    ¬ Joins (.array [.bulk b!"ab", .bulk b!"cd"]) ⟨[], [b!"*", b!"2\r\n$2\r", b!"\nab\r\n$2\r\nc", b!"d\r\n"]⟩ := by
  simp only [Joins, JoinsAll, and_true]
  constructor <;> decide +kernel

end Verif.Resp

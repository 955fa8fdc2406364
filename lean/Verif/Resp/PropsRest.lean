import Verif.Resp.Props
import Verif.Resp.PropsExact
import Verif.Resp.Rest
/-!
# Properties C131, C132: the kind of a message; `readBulkString`
-/
namespace Verif.Resp

/-! ## C131 -/

/-- C131, sending: the first byte a message is sent with is the kind it says it has. -/
theorem C131_sent (m : Msg) : (ser m).head? = some (kind m) := by
  cases m <;> simp [ser, kind]

/-- C131, receiving: a message that was read has the kind its first byte announced. -/
theorem C131_received (r r' : Rd) (hw : r.WF) (m : Msg) (h : readMessage r = (.ok m, r')) : r.flat.head? = some (kind m) := by
  unfold readMessage at h
  unfold readMsg at h
  obtain ⟨_, ⟨b, r1, h1, h2⟩ | ⟨r1, h1⟩⟩ := readByte_any r hw
  · rw [h1] at h
    rw [h2]
    simp only [andThen] at h
    suffices hk : b = kind m by simp [hk]
    split at h
    · next hb =>
      subst hb
      split at h
      · split at h
        · simp only [Prod.mk.injEq, GoRes.ok.injEq] at h; rw [← h.1]; rfl
        · unfold readBulk andThen at h
          split at h
          · simp at h
          · split at h
            · simp only at h
              split at h
              · simp only [Prod.mk.injEq, GoRes.ok.injEq] at h; rw [← h.1]; rfl
              · simp at h
              · simp at h
            · simp at h
            · simp at h
      · simp at h
      · simp at h
    · split at h
      · next hb =>
        subst hb
        split at h
        · simp only [Prod.mk.injEq, GoRes.ok.injEq] at h; rw [← h.1]; rfl
        · simp at h
        · simp at h
      · split at h
        · next hb =>
          subst hb
          split at h
          · simp only [Prod.mk.injEq, GoRes.ok.injEq] at h; rw [← h.1]; rfl
          · simp at h
          · simp at h
        · split at h
          · next hb =>
            subst hb
            split at h
            · simp only [Prod.mk.injEq, GoRes.ok.injEq] at h; rw [← h.1]; rfl
            · simp at h
            · simp at h
          · split at h
            · next hb =>
              subst hb
              split at h
              · split at h
                · simp only [Prod.mk.injEq, GoRes.ok.injEq] at h; rw [← h.1]; rfl
                · simp at h
                · simp at h
              · simp at h
              · simp at h
            · simp at h
  · rw [h1] at h; simp [andThen] at h

/-- C131, refusing: a first byte that is the kind of no message is refused as unknown. -/
theorem C131_unknown (b : UInt8) (rest : Bytes) (r : Rd) (hw : r.WF) (hf : r.flat = b :: rest) (hn : ∀ m, kind m ≠ b) :
    (readMessage r).1 = .err .unknownProtocol := by
  obtain ⟨r1, h1, _, _⟩ := readByte_at hw hf
  unfold readMessage readMsg
  rw [h1]
  simp only [andThen]
  rw [if_neg fun e => hn .nil e.symm, if_neg fun e => hn (.simple []) e.symm, if_neg fun e => hn (.error []) e.symm,
    if_neg fun e => hn (.int 0) e.symm, if_neg fun e => hn (.array []) e.symm]

example : ∀ m, kind m ≠ 65 := by intro m; cases m <;> simp [kind]

example : readMessage ⟨[], [b!"+O", b!"K\r\n:1\r\n"]⟩ = (.ok (.simple b!"OK"), ⟨b!":1\r\n", [[]]⟩) := by decide +kernel

/-! ## C132 -/

/-- C132, beside `readMessage`: where that reads a payload, `readBulkString` returns the same bytes and leaves the reader in the same place. -/
theorem C132_same (n : Int64) (hn : 0 < n.toInt) (r r' : Rd) (s : Bytes) (h : readBulk n r = (.ok (.bulk s), r')) :
    readBulkString n r = (.ok s, r') := by
  unfold readBulk at h
  split at h
  · simp at h
  · next hb =>
    unfold readBulkString
    rw [if_pos hn, if_neg (by omega)]
    cases hr : read n.toInt.toNat r with
    | mk x r1 =>
      rw [hr] at h
      cases x with
      | ok d =>
        simp only [andThen] at h
        cases hl : readLine r1 with
        | mk y r2 =>
          rw [hl] at h
          cases y with
          | ok l =>
            simp only [Prod.mk.injEq, GoRes.ok.injEq, Msg.bulk.injEq] at h
            simp only [hl, h.1, h.2]
          | err e => simp at h
          | panic => simp at h
      | err e => simp [andThen] at h
      | panic => simp [andThen] at h

/-- C132, exactly: in front of a payload and its line end, `readBulkString` returns the payload if and only if the part of it that has not arrived
yet consists of zero bytes. -/
theorem C132_exact (p rest : Bytes) (hp : (p.length : Int) ≤ maxAlloc) (r : Rd) (hw : r.WF) (hf : r.flat = p ++ crlf ++ rest)
    (n : Int64) (hn : n.toInt = p.length) :
    (readBulkString n r).1 = .ok p ↔ ∀ b ∈ p.drop (arrived p.length r), b = 0 := by
  by_cases h0 : p = []
  · subst h0
    simp only [List.length_nil, Int.ofNat_zero] at hn
    have : ¬ 0 < n.toInt := by omega
    simp [readBulkString, this]
  · obtain ⟨r', h1, _⟩ := readBulk_result hp hw hf hn
    have := List.length_pos_iff.mpr h0
    rw [C132_same n (by omega) r r' _ h1]
    generalize arrived p.length r = m
    simp only [GoRes.ok.injEq]
    conv => lhs; rhs; rw [← List.take_append_drop m p]
    rw [List.append_cancel_left_eq, eq_comm, List.eq_replicate_iff]
    simp

/-- C132 is false when the stream ends or a payload comes in pieces: a text of the announced length is returned all the same, with zeros for
what is missing, and there is no error by which to tell. -/
theorem C132_violated (n : Int64) (hn : 0 < n.toInt) (hm : n.toInt ≤ maxAlloc) :
    (readBulkString n ⟨[], []⟩).1 = .ok (List.replicate n.toInt.toNat 0) := by
  have : n.toInt.toNat ≠ 0 := by omega
  unfold readBulkString
  rw [if_pos hn, if_neg (by omega)]
  have e : read n.toInt.toNat ⟨[], []⟩ = (.err .eof, ⟨[], []⟩) := by
    by_cases hb : bufSize ≤ n.toInt.toNat <;> simp only [read, if_neg this, hb, if_true, if_false, netRead]
  simp only [e, List.nil_append, List.length_nil, Nat.sub_zero]

/-- C132: it panics just for lengths beyond what can be allocated, and then has read nothing. -/
theorem C132_panic_exact (n : Int64) (r : Rd) :
    ((readBulkString n r).1 = .panic ↔ maxAlloc < n.toInt) ∧ ((readBulkString n r).1 = .panic → (readBulkString n r).2 = r) := by
  unfold readBulkString
  by_cases h0 : 0 < n.toInt
  · by_cases hm : maxAlloc < n.toInt <;> simp [h0, hm]
  · have : ¬ maxAlloc < n.toInt := by
      have : (0 : Int) ≤ maxAlloc := by decide
      omega
    simp [h0, this]

/-- C132, the length: unless `make` panics, the text has the announced length, and none for lengths below one; then nothing is read, not even the
line end. -/
theorem C132_length (n : Int64) (r : Rd) (hm : n.toInt ≤ maxAlloc) :
    (∃ s, (readBulkString n r).1 = .ok s ∧ s.length = n.toInt.toNat) ∧ (n.toInt ≤ 0 → readBulkString n r = (.ok [], r)) := by
  constructor
  · unfold readBulkString
    split
    · next hn =>
      rw [if_neg (by omega)]
      refine ⟨_, rfl, ?_⟩
      have : ∀ d, (read n.toInt.toNat r).1 = .ok d → d.length ≤ n.toInt.toNat := by
        intro d hd
        unfold read at hd
        rw [if_neg (by omega)] at hd
        split at hd
        · simp only [GoRes.ok.injEq] at hd; subst hd; simp; omega
        · split at hd
          · cases hx : netRead n.toInt.toNat r.net with
            | none => rw [hx] at hd; simp at hd
            | some y =>
              rw [hx] at hd
              simp only [GoRes.ok.injEq] at hd; subst hd
              exact (netRead_some (by omega) (d := y.1) (net' := y.2) hx).2.2
          · cases hx : netRead bufSize r.net with
            | none => rw [hx] at hd; simp at hd
            | some y =>
              rw [hx] at hd
              simp only [GoRes.ok.injEq] at hd; subst hd; simp; omega
      cases hx : (read n.toInt.toNat r).1 with
      | ok d => simp only [List.length_append, List.length_replicate]; have := this d hx; omega
      | err e => simp
      | panic => simp
    · next hn => exact ⟨[], rfl, by simp only [List.length_nil]; omega⟩
  · intro h
    unfold readBulkString
    rw [if_neg (by omega)]

example : readBulkString 2 ⟨[], [b!"ab\r\n"]⟩ = (.ok b!"ab", ⟨[], [[]]⟩) ∧ readBulkString 2 ⟨[], [b!"a", b!"b\r\n:1\r\n"]⟩ = (.ok [97, 0], ⟨b!":1\r\n", [[]]⟩) := by
  decide +kernel

end Verif.Resp

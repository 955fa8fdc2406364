import Verif.Resp.Lemmas
/-!
# Exactly when a payload survives the way it was cut, and exactly when a header panics
-/
namespace Verif.Resp

/-! ## C46: cuts -/

/-- How many bytes one `Read` for `n` bytes can deliver: what is buffered; else what the next chunk holds, at most a buffer full
unless the request is at least that large. -/
def arrived (n : Nat) (r : Rd) : Nat :=
  if r.buf ≠ [] then r.buf.length
  else match r.net.find? (fun c => c ≠ []) with
    | none => 0
    | some c => if bufSize ≤ n then c.length else min c.length bufSize

theorem netRead_find {cap : Nat} {net : List Bytes} : (netRead cap net).map (·.1) = (net.find? (fun c => c ≠ [])).map (·.take cap) := by
  induction net with
  | nil => rfl
  | cons c cs ih =>
    cases c with
    | nil => simpa [netRead] using ih
    | cons b bs => simp [netRead]

theorem read_arrived {p rest : Bytes} {r : Rd} (hw : r.WF) (hf : r.flat = p ++ rest) :
    ∃ r', read p.length r = (.ok (p.take (arrived p.length r)), r') ∧ r'.flat = p.drop (arrived p.length r) ++ rest ∧ r'.WF := by
  by_cases h0 : p = []
  · subst h0
    exact ⟨r, by simp [read], by simpa using hf, hw⟩
  have hpos := List.length_pos_iff.mpr h0
  rcases read_flat p.length r hw with ⟨⟨d, h1, h2, h3, _⟩, h4⟩ | ⟨_, h, _⟩
  · -- the length of what was read
    have hd : d.length = min p.length (arrived p.length r) := by
      clear h2 h3 h4
      obtain ⟨buf, net⟩ := r
      unfold read at h1
      rw [if_neg (by omega)] at h1
      cases buf with
      | cons b bs =>
        simp only [GoRes.ok.injEq] at h1
        subst h1
        simp [arrived]
      | nil =>
        simp only [arrived, ne_eq, not_true_eq_false, if_false]
        simp only at h1
        by_cases hb : bufSize ≤ p.length
        · simp only [if_pos hb] at h1 ⊢
          have hn := netRead_find (cap := p.length) (net := net)
          cases hr : netRead p.length net with
          | none => rw [hr] at h1; simp at h1
          | some x =>
            rw [hr] at h1 hn
            simp only [GoRes.ok.injEq] at h1
            subst h1
            cases hc : net.find? (fun c => c ≠ []) with
            | none => rw [hc] at hn; simp at hn
            | some c =>
              rw [hc] at hn
              simp only [Option.map_some, Option.some.injEq] at hn
              simp only [ne_eq] at hc
              simp [hn, hc]
        · simp only [if_neg hb] at h1 ⊢
          have hn := netRead_find (cap := bufSize) (net := net)
          cases hr : netRead bufSize net with
          | none => rw [hr] at h1; simp at h1
          | some x =>
            rw [hr] at h1 hn
            simp only [GoRes.ok.injEq] at h1
            subst h1
            cases hc : net.find? (fun c => c ≠ []) with
            | none => rw [hc] at hn; simp at hn
            | some c =>
              rw [hc] at hn
              simp only [Option.map_some, Option.some.injEq] at hn
              simp only [ne_eq] at hc
              simp [hn, hc]; omega
    rw [hf] at h2
    have e1 : d = p.take (arrived p.length r) := by
      have := congrArg (List.take d.length) h2
      rw [List.take_left, List.take_append_of_le_length (by omega), hd] at this
      rw [← this, Nat.min_comm, ← List.take_take, List.take_of_length_le (l := p) (by omega)]
    refine ⟨(read p.length r).2, Prod.ext (by rw [h1, e1]) rfl, ?_, h4⟩
    conv at h2 => lhs; rw [← List.take_append_drop (arrived p.length r) p, List.append_assoc, ← e1]
    exact (List.append_cancel_left h2).symm
  · rw [hf] at h; simp at h; exact absurd h.1 h0

/-- The rest of a line is thrown away up to the right place if and only if there is no newline in it and it fits into the buffer. -/
theorem flatLine_place {q rest : Bytes} : (flatLine (q ++ crlf ++ rest)).2 = rest ↔ (10 : UInt8) ∉ q ∧ q.length + 2 ≤ bufSize := by
  refine ⟨fun h => ?_, fun h => by rw [flatLine_crlf h.1 h.2]⟩
  have hlen := congrArg List.length h
  have hs : (q ++ crlf ++ rest).length = q.length + 2 + rest.length := by simp [crlf]; omega
  have h10 : ∀ k, q.length + 2 ≤ k → (10 : UInt8) ∈ (q ++ crlf ++ rest).take k := by
    intro k hk
    rw [List.take_append, List.take_of_length_le (by simp [crlf]; omega)]
    simp [crlf]
  unfold flatLine at hlen h
  cases hsp : splitNL ((q ++ crlf ++ rest).take bufSize) with
  | some x =>
    obtain ⟨l, t⟩ := x
    obtain ⟨g1, x, g2, g3⟩ := splitNL_some hsp
    simp only [hsp, List.length_drop, hs] at hlen
    have hl : l.length = q.length + 2 := by
      have := congrArg List.length g1
      rw [List.length_take, hs, List.length_append] at this
      have hx : 0 < l.length := by rw [g2]; simp
      omega
    have hb : l.length ≤ bufSize := by
      have := congrArg List.length g1
      rw [List.length_take, List.length_append (as := l)] at this
      omega
    refine ⟨?_, by omega⟩
    have e : l = q ++ crlf := by
      have := congrArg (List.take l.length) g1
      rw [List.take_left, List.take_take, Nat.min_eq_left hb, List.take_append_of_le_length (by simp [crlf]; omega)] at this
      rw [← this, List.take_of_length_le (by simp [crlf]; omega)]
    have e2 : x ++ [10] = (q ++ [13]) ++ [10] := by rw [← g2, e]; simp [crlf]
    have e3 := List.append_cancel_right e2
    rw [e3] at g3
    intro hm; exact g3 (by simp [hm])
  | none =>
    exfalso
    rw [splitNL_none_iff] at hsp
    have hc := h10 bufSize
    have hk : q.length + 2 ≤ bufSize := by
      simp only [(splitNL_none_iff _).mpr hsp] at hlen
      split at hlen
      · split at hlen
        · simp only [List.length_drop, hs] at hlen
          simp only [bufSize] at hlen ⊢
          omega
        · simp only [List.length_drop, hs] at hlen
          omega
      · rename_i hb
        rw [hs] at hb; omega
    exact hsp (hc hk)

theorem flatLine_ne {s : Bytes} (h : s ≠ []) : ∃ l, (flatLine s).1 = .ok l := by
  unfold flatLine
  split
  · exact ⟨_, rfl⟩
  · split
    · split <;> exact ⟨_, rfl⟩
    · simp [h]

/-- Reading a payload, in every case. -/
theorem readBulk_result {p rest : Bytes} (hp : (p.length : Int) ≤ maxAlloc) {r : Rd} (hw : r.WF) (hf : r.flat = p ++ crlf ++ rest)
    {n : Int64} (hn : n.toInt = p.length) :
    ∃ r', readBulk n r = (.ok (.bulk (p.take (arrived p.length r) ++ List.replicate (p.length - arrived p.length r) 0)), r') ∧
      r'.flat = (flatLine (p.drop (arrived p.length r) ++ crlf ++ rest)).2 := by
  rw [List.append_assoc] at hf
  obtain ⟨r1, h1, h2, h3⟩ := read_arrived hw hf
  obtain ⟨h4, _⟩ := readLine_flat r1 h3
  obtain ⟨l, hl⟩ := flatLine_ne (s := r1.flat) (by rw [h2]; simp [crlf])
  refine ⟨(readLine r1).2, ?_, ?_⟩
  · unfold readBulk
    rw [if_neg (by omega), hn, Int.toNat_natCast, h1]
    have e : readLine r1 = (.ok l, (readLine r1).2) := Prod.ext (by rw [← hl, ← h4]) rfl
    simp only [andThen]
    rw [e]
    have : p.length - (p.take (arrived p.length r)).length = p.length - arrived p.length r := by rw [List.length_take]; omega
    simp only [this]
  · have := congrArg (·.2) h4
    simp only at this
    rw [this, h2, List.append_assoc]

/-- The reader behind the header of a bulk string. -/
def behindHeader (r : Rd) : Rd := (readInt (readByte r).2).2

theorem header_at {p rest : Bytes} (hp : (p.length : Int) ≤ maxAlloc) {r : Rd} (hw : r.WF) (hf : r.flat = ser (.bulk p) ++ rest) :
    ∃ n : Int64, n.toInt = p.length ∧ readMessage r = readBulk n (behindHeader r) ∧ (behindHeader r).WF ∧
      (behindHeader r).flat = p ++ crlf ++ rest := by
  have hp' : (p.length : Int) ≤ 2 ^ 48 := hp
  have hser : ser (.bulk p) ++ rest = 36 :: (natText p.length ++ crlf ++ (p ++ crlf ++ rest)) := by simp [ser]
  rw [hser] at hf
  obtain ⟨r1, h1, h2, h3⟩ := readByte_at hw hf
  have hdig := natText_length (n := p.length) (k := 15) (by omega)
  obtain ⟨r2, g1, g2, g3⟩ := readLine_at h3 (natText_no_nl _) (by simp only [bufSize]; omega) h2
  obtain ⟨n, hn, hv⟩ := atoi_natText (n := p.length) (by omega)
  have hi : readInt r1 = (.ok n, r2) := by simp [readInt, g1, andThen, hn]
  have hb : behindHeader r = r2 := by simp [behindHeader, h1, hi]
  refine ⟨n, hv, ?_, by rw [hb]; exact g3, by rw [hb]; exact g2⟩
  rw [hb, readMessage, readMsg, h1]
  simp only [andThen, if_true, hi]
  rw [if_neg (by omega)]

/-- C46, the result in every case: of a bulk reply, the part of the payload that one `Read` delivers is kept, the rest is replaced
by zeros. -/
theorem C46_result (p rest : Bytes) (hp : (p.length : Int) ≤ maxAlloc) (r : Rd) (hw : r.WF) (hf : r.flat = ser (.bulk p) ++ rest) :
    (readMessage r).1 = .ok (.bulk (p.take (arrived p.length (behindHeader r)) ++
      List.replicate (p.length - arrived p.length (behindHeader r)) 0)) := by
  obtain ⟨n, h1, h2, h3, h4⟩ := header_at hp hw hf
  obtain ⟨r', h5, _⟩ := readBulk_result hp h3 h4 h1
  rw [h2, h5]

/-- C46, exactly: however the stream was cut, a bulk reply is decoded to itself if and only if the part of it that had not arrived
when the payload was read consists of zero bytes, … -/
theorem C46_exact (p rest : Bytes) (hp : (p.length : Int) ≤ maxAlloc) (r : Rd) (hw : r.WF) (hf : r.flat = ser (.bulk p) ++ rest) :
    (readMessage r).1 = .ok (.bulk p) ↔ ∀ b ∈ p.drop (arrived p.length (behindHeader r)), b = 0 := by
  rw [C46_result p rest hp r hw hf]
  generalize arrived p.length (behindHeader r) = m
  simp only [GoRes.ok.injEq, Msg.bulk.injEq]
  conv => lhs; rhs; rw [← List.take_append_drop m p]
  rw [List.append_cancel_left_eq, eq_comm, List.eq_replicate_iff]
  simp

/-- … and the next reply is read from the right place if and only if that part has no newline in it and fits, with its line end,
into the buffer. -/
theorem C46_exact_place (p rest : Bytes) (hp : (p.length : Int) ≤ maxAlloc) (r : Rd) (hw : r.WF) (hf : r.flat = ser (.bulk p) ++ rest) :
    (readMessage r).2.flat = rest ↔
      (10 : UInt8) ∉ p.drop (arrived p.length (behindHeader r)) ∧ (p.drop (arrived p.length (behindHeader r))).length + 2 ≤ bufSize := by
  obtain ⟨n, h1, h2, h3, h4⟩ := header_at hp hw hf
  obtain ⟨r', h5, h6⟩ := readBulk_result hp h3 h4 h1
  rw [h2, h5, h6, flatLine_place]

/-- `ab` in two reads is decoded wrongly but what follows is not lost; with a newline in the second part it is. -/
example : (readMessage ⟨[], [b!"$2\r\na", b!"b\r\n:1\r\n"]⟩).1 ≠ .ok (.bulk b!"ab") ∧
    (readMessage ⟨[], [b!"$2\r\na", b!"b\r\n:1\r\n"]⟩).2.flat = b!":1\r\n" ∧
    (readMessage ⟨[], [b!"$2\r\na", b!"\n\r\n:1\r\n"]⟩).2.flat ≠ b!":1\r\n" := by
  refine ⟨?_, ?_, ?_⟩
  · rw [ne_eq, C46_exact b!"ab" b!":1\r\n" (by decide) _ (by simp [Rd.WF]) (by decide +kernel)]
    decide +kernel
  · rw [C46_exact_place b!"ab" b!":1\r\n" (by decide) _ (by simp [Rd.WF]) (by decide +kernel)]
    decide +kernel
  · rw [ne_eq, C46_exact_place b!"a\n" b!":1\r\n" (by decide) _ (by simp [Rd.WF]) (by decide +kernel)]
    decide +kernel

/-! ## C49: bad lengths -/

/-- C49, exactly, for a bulk header in front of anything: reading panics if and only if the length is below -1 or beyond the
address space. -/
theorem C49_exact (line rest : Bytes) (n : Int64) (h10 : (10 : UInt8) ∉ line) (hl : line.length + 2 ≤ bufSize) (hn : atoi line = some n)
    (r : Rd) (hw : r.WF) (hf : r.flat = b!"$" ++ line ++ crlf ++ rest) :
    (readMessage r).1 = .panic ↔ n.toInt < -1 ∨ maxAlloc < n.toInt := by
  have hf' : r.flat = 36 :: (line ++ crlf ++ rest) := by rw [hf]; simp
  obtain ⟨r1, h1, h2, h3⟩ := readByte_at hw hf'
  obtain ⟨r2, g1, g2, g3⟩ := readLine_at h3 h10 hl h2
  have hi : readInt r1 = (.ok n, r2) := by simp [readInt, g1, andThen, hn]
  rw [readMessage, readMsg, h1]
  simp only [andThen, if_true, hi]
  by_cases hm : n.toInt = -1
  · rw [if_pos hm]
    simp only [reduceCtorEq, false_iff]
    have : (0 : Int) ≤ maxAlloc := by decide
    omega
  · rw [if_neg hm]
    unfold readBulk
    by_cases hb : n.toInt < 0 ∨ maxAlloc < n.toInt
    · rw [if_pos hb]
      simp only [true_iff]
      omega
    · rw [if_neg hb]
      have hno : ∀ x : RRes Bytes × Rd, x.1 ≠ .panic → (∀ d r, x = (.ok d, r) → r.WF) →
          (andThen x fun d r => andThen (readLine r) fun _ r =>
            ((.ok (.bulk (d ++ List.replicate (n.toInt.toNat - d.length) 0)), r) : RRes Msg × Rd)).1 ≠ .panic := by
        intro x hx hwx
        obtain ⟨y, r'⟩ := x
        cases y with
        | panic => exact absurd rfl hx
        | err e => simp [andThen]
        | ok d =>
          obtain ⟨h4, _⟩ := readLine_flat r' (hwx d r' rfl)
          have := congrArg (·.1) h4
          simp only at this
          simp only [andThen]
          rcases flatLine_cases r'.flat with ⟨l, t, hc⟩ | hc
          · rw [hc] at this
            rw [show readLine r' = (.ok l, (readLine r').2) from Prod.ext this rfl]
            simp
          · rw [hc] at this
            rw [show readLine r' = (.err .eof, (readLine r').2) from Prod.ext this rfl]
            simp
      have := hno (read n.toInt.toNat r2) (by
        rcases read_flat n.toInt.toNat r2 g3 with ⟨⟨d, hd, _⟩, _⟩ | ⟨hd, _⟩ <;> rw [hd] <;> simp) (by
        intro d r' he
        rcases read_flat n.toInt.toNat r2 g3 with ⟨_, hd⟩ | ⟨_, _, _, hd⟩ <;> rw [he] at hd <;> exact hd)
      constructor
      · intro h; exact absurd h this
      · intro h
        have h2 : (0 : Int) ≤ maxAlloc := by decide
        omega

example : atoi b!"-2" = some (-2) ∧ (-2 : Int64).toInt < -1 ∧ atoi b!"+5" = some 5 := by decide

end Verif.Resp

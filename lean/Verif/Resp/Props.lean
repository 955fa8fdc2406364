import Verif.Resp.Lemmas
/-!
# Properties C45 - C50: the wire protocol
-/
namespace Verif.Resp

/-- A message Go can hold and the protocol can carry: lines without newlines, lengths within the
address space. -/
def Sendable (m : Msg) : Prop := Fits (fun _ => True) (fun _ => True) m

/-! ## C45, C48 -/

/-- C45: from a buffer holding a serialized message and anything behind it, reading yields that
message and leaves exactly what is behind it; nothing is taken from the connection. -/
theorem C45_round_trip (m : Msg) (hm : Sendable m) (rest : Bytes) (net : List Bytes) :
    readMessage ⟨ser m ++ rest, net⟩ = (.ok m, ⟨rest, net⟩) := by
  obtain ⟨r', h1, h2⟩ := readMessage_at (buffered_reads rest net) (m := m) (ts := []) hm
    (by rw [List.append_nil, Buffered, toks_flatten])
  rw [h1, h2]; rfl

/-- A nested message with binary data meets the hypothesis. -/
example : Sendable (.array [.bulk [0, 13, 10, 255], .array [.nil, .int (-5), .simple b!"OK"], .error b!"ERR x"]) := by
  simp only [Sendable, Fits, FitsAll, maxAlloc]
  decide

/-- C48: `n` pipelined replies are read back in order, nothing lost, duplicated or left over. -/
theorem C48_pipelined (ms : List Msg) (hm : ∀ m ∈ ms, Sendable m) (rest : Bytes) (net : List Bytes) :
    recvN ms.length ⟨(ms.map ser).flatten ++ rest, net⟩ = (.ok ms, ⟨rest, net⟩) := by
  have hs : ∀ ms : List Msg, serAll ms = (ms.map ser).flatten := by
    intro ms; induction ms with
    | nil => rfl
    | cons m ms ih => simp [serAll, ih]
  have hv : ∀ ms : List Msg, (∀ m ∈ ms, Sendable m) → FitsAll (fun _ => True) (fun _ => True) ms := by
    intro ms; induction ms with
    | nil => intro _; trivial
    | cons m ms ih => intro h; exact ⟨h m (by simp), ih (fun m' h' => h m' (by simp [h']))⟩
  obtain ⟨r', h1, h2⟩ := recvN_at (buffered_reads rest net) ms (ts := []) (hv ms hm)
    (by rw [List.append_nil, Buffered, toksAll_flatten, hs])
  rw [h1, h2]; rfl

/-- Two different replies meet the hypothesis. -/
example : ∀ m ∈ [Msg.bulk b!"a", Msg.int 3], Sendable m := by
  intro m hm
  simp only [List.mem_cons, List.not_mem_nil, or_false] at hm
  rcases hm with rfl | rfl <;> simp [Sendable, Fits, maxAlloc]

/-! ## C46 -/

/-- C46 is false of the code: a payload of two bytes split between two reads is decoded to
something else (the second byte is replaced by NUL and then skipped with the rest of the line). -/
theorem C46_violated :
    readMessage ⟨[], [b!"$2\r\nab\r\n"]⟩ = (.ok (.bulk b!"ab"), ⟨[], [[]]⟩) ∧
    readMessage ⟨[], [b!"$2\r\na", b!"b\r\n"]⟩ = (.ok (.bulk [97, 0]), ⟨[], [[]]⟩) := by
  decide +kernel

/-- Nor is a payload of at least a buffer full ever decoded when it arrives in one piece with
its header. -/
theorem C46_violated_large (p : Bytes) (hp : bufSize ≤ p.length) (hmax : (p.length : Int) ≤ maxAlloc)
    (hz : p.getLast? ≠ some 0) (chunks : List Bytes) :
    (readMessage ⟨[], ser (.bulk p) :: chunks⟩).1 ≠ .ok (.bulk p) := by
  intro hok
  have hmax' : (p.length : Int) ≤ 2 ^ 48 := hmax
  have hdig := natText_length (n := p.length) (k := 15) (by omega)
  have hser : ser (.bulk p) = 36 :: (natText p.length ++ crlf ++ (p ++ crlf)) := by simp [ser]
  -- the first read brings `bufSize` bytes: tag, header line, and part of the payload
  have htake : (ser (.bulk p)).take bufSize = 36 :: (natText p.length ++ crlf ++ p.take (bufSize - ((natText p.length).length + 3))) := by
    have e1 : bufSize = (bufSize - 1) + 1 := rfl
    rw [hser, e1, List.take_succ_cons, List.take_append, List.take_of_length_le (by simp [crlf, bufSize]; omega),
      List.take_append_of_le_length (by simp [crlf, bufSize] at hp ⊢; omega)]
    congr 3
    simp [crlf, bufSize]
  obtain ⟨q, hq⟩ : ∃ q, q = p.take (bufSize - ((natText p.length).length + 3)) := ⟨_, rfl⟩
  rw [← hq] at htake
  have hql : q.length = bufSize - ((natText p.length).length + 3) := by
    rw [hq, List.length_take]; omega
  have hq0 : q ≠ [] := by
    intro e; rw [e] at hql; simp [bufSize] at hql; omega
  have hqs : q.length < p.length := by simp only [bufSize] at hp hql; omega
  obtain ⟨net', hnr⟩ : ∃ net', netRead bufSize (ser (.bulk p) :: chunks) = some ((ser (.bulk p)).take bufSize, net') := by
    rw [hser]; exact ⟨_, rfl⟩
  have h1 : readByte ⟨[], ser (.bulk p) :: chunks⟩ = (.ok 36, ⟨natText p.length ++ crlf ++ q, net'⟩) := by
    simp only [readByte, fill, List.length_nil, Nat.sub_zero, hnr, htake, Option.map_some, List.nil_append]
  obtain ⟨k, hk1, hk2⟩ := atoi_natText (n := p.length) (by omega)
  have hk3 : ¬ k.toInt = -1 := by omega
  have hk4 : ¬ (k.toInt < 0 ∨ maxAlloc < k.toInt) := by omega
  have hk5 : k.toInt.toNat = p.length := by omega
  have h2 : read p.length ⟨q, net'⟩ = (.ok q, ⟨[], net'⟩) := by
    cases q with
    | nil => exact absurd rfl hq0
    | cons b q =>
      have hn : ¬ p.length = 0 := by simp [bufSize] at hp; omega
      simp only [read, if_neg hn]
      rw [List.take_of_length_le (by omega), List.drop_of_length_le (by omega)]
  simp only [readMessage, readMsg, h1, andThen, readInt, readLine_buffered (natText_no_nl p.length), hk1,
    if_true, if_neg hk3, readBulk, if_neg hk4, hk5, h2] at hok
  revert hok
  cases hl : (readLine ⟨[], net'⟩).1 with
  | ok l =>
    have : readLine ⟨[], net'⟩ = (.ok l, (readLine ⟨[], net'⟩).2) := by rw [← hl]
    rw [this]
    simp only [GoRes.ok.injEq, Msg.bulk.injEq]
    intro e
    apply hz
    rw [← e]
    obtain ⟨d, hd⟩ : ∃ d, p.length - q.length = d + 1 := ⟨p.length - q.length - 1, by omega⟩
    rw [hd, List.replicate_succ', ← List.append_assoc, List.getLast?_concat]
  | err e =>
    have : readLine ⟨[], net'⟩ = (.err e, (readLine ⟨[], net'⟩).2) := by rw [← hl]
    rw [this]; simp
  | panic =>
    have : readLine ⟨[], net'⟩ = (.panic, (readLine ⟨[], net'⟩).2) := by rw [← hl]
    rw [this]; simp

/-- Such a payload exists (so the statement above is not empty). -/
example : ∃ p : Bytes, bufSize ≤ p.length ∧ (p.length : Int) ≤ maxAlloc ∧ p.getLast? ≠ some 0 :=
  ⟨List.replicate bufSize 1, by rw [List.length_replicate]; exact Nat.le_refl _,
   by rw [List.length_replicate]; simp only [maxAlloc, bufSize]; omega,
   by rw [List.getLast?_replicate, if_neg (by unfold bufSize; omega)]; simp⟩

/-- C46, as far as it holds (1): however the stream is cut, a message whose payloads have at most
one byte (and whose lines fit the buffer) is decoded to itself and exactly its bytes are consumed.
Missing: payloads of two bytes or more, see `C46_violated`. -/
theorem C46_any_cut_partial (m : Msg) (rest : Bytes) (r : Rd) (hw : r.WF)
    (hm : Fits (fun l => l.length + 2 ≤ bufSize) (fun p => p.length ≤ 1) m) (hr : r.flat = ser m ++ rest) :
    ∃ r', readMessage r = (.ok m, r') ∧ r'.flat = rest := by
  obtain ⟨r', h1, h2⟩ := readMessage_at (streamed_reads rest) (m := m) (ts := []) hm
    (by rw [List.append_nil]; exact ⟨by rw [toks_flatten, hr], hw⟩)
  exact ⟨r', h1, by simpa using h2.1⟩

/-- An integer reply cut inside its digits and its line end meets the hypotheses. -/
example : Fits (fun l => l.length + 2 ≤ bufSize) (fun p => p.length ≤ 1) (.int 12) ∧
    Rd.flat ⟨b!":1", [b!"2\r", b!"\n+x"]⟩ = ser (.int 12) ++ b!"+x" := by
  simp only [Fits]; decide +kernel

/-- C46, as far as it holds (2): if every chunk holds whole tokens (tag bytes, lines, payloads; so
in particular if it holds whole messages) and at most a buffer full, any list of messages is
decoded to itself, with payloads of any content. -/
theorem C46_token_cuts_partial (ms : List Msg) (chunks : List (List Bytes))
    (hm : ∀ m ∈ ms, Fits (fun l => l.length + 2 ≤ bufSize) (fun _ => True) m)
    (hc : chunks.flatten = (ms.map toks).flatten) (hl : ∀ c ∈ chunks, c.flatten.length ≤ bufSize) :
    ∃ r', recvN ms.length ⟨[], chunks.map List.flatten⟩ = (.ok ms, r') ∧ r'.flat = [] := by
  have ht : ∀ ms : List Msg, toksAll ms = (ms.map toks).flatten := by
    intro ms; induction ms with
    | nil => rfl
    | cons m ms ih => simp [toksAll, ih]
  have hv : ∀ ms : List Msg, (∀ m ∈ ms, Fits (fun l => l.length + 2 ≤ bufSize) (fun _ => True) m) →
      FitsAll (fun l => l.length + 2 ≤ bufSize) (fun _ => True) ms := by
    intro ms; induction ms with
    | nil => intro _; trivial
    | cons m ms ih => intro h; exact ⟨h m (by simp), ih (fun m' h' => h m' (by simp [h']))⟩
  obtain ⟨r', h1, b, gs, h2, h3, h4, _⟩ := recvN_at (aligned_reads []) ms (ts := []) (r := ⟨[], chunks.map List.flatten⟩) (hv ms hm)
    ⟨[], chunks, rfl, rfl, by simp [ht, hc], hl, by rw [List.append_nil, List.append_nil]; exact toksAll_ne ms, by simp [Rd.WF]⟩
  refine ⟨r', h1, ?_⟩
  simp only [List.append_nil] at h4
  have h5 := List.append_eq_nil_iff.mp h4.symm
  have : ∀ gs : List (List Bytes), gs.flatten = [] → (gs.map List.flatten).flatten = [] := by
    intro gs; induction gs with
    | nil => intro _; rfl
    | cons g gs ih =>
      intro h
      simp only [List.flatten_cons, List.append_eq_nil_iff] at h
      simp [h.1, ih h.2]
  rw [Rd.flat, h2, h3, h5.1, this gs h5.2]; rfl

/-- Two replies in two chunks, cut between a header line and its payload. -/
example : [[b!"$", b!"2\r\n"], [b!"ab", b!"\r\n", b!":", b!"7\r\n"]].flatten =
    (([.bulk b!"ab", .int 7] : List Msg).map toks).flatten := by decide +kernel

/-- C46, as far as it holds (3): on a stream without bulk strings, well formed or not, neither the
message, nor the error, nor the position left behind depends on the cuts. -/
theorem C46_no_bulk_partial (r1 r2 : Rd) (h1 : r1.WF) (h2 : r2.WF) (hf : r1.flat = r2.flat)
    (hb : (36 : UInt8) ∉ r1.flat) :
    (readMessage r1).1 = (readMessage r2).1 ∧ (readMessage r1).2.flat = (readMessage r2).2.flat := by
  have := (agree_msg (2 * r1.flat.length + 1)).1 r1 r2 h1 h2 hf hb
  simp only [readMessage]
  rw [← hf]
  exact ⟨this.1, this.2.1⟩

/-- An erroneous stream cut in two ways. -/
example : Rd.flat ⟨b!"*2\r", [b!"\n:x\r\n"]⟩ = Rd.flat ⟨[], [b!"*2\r\n:", b!"x\r\n"]⟩ ∧
    (36 : UInt8) ∉ Rd.flat ⟨b!"*2\r", [b!"\n:x\r\n"]⟩ := by decide

/-! ## C47: an independent reading of the command format

The format as the Redis documentation gives it: `*<count>\r\n` and for each argument
`$<length>\r\n<bytes>\r\n`. -/

/-- Decimal digits up to CR LF. -/
def specLen : Nat → Bytes → Option (Nat × Bytes)
  | _, [] => none
  | a, c :: s => if c = 13 then (if s.head? = some 10 then some (a, s.tail) else none)
    else if 48 ≤ c.toNat ∧ c.toNat ≤ 57 then specLen (a * 10 + (c.toNat - 48)) s else none

/-- One argument. -/
def specArg : Bytes → Option (Bytes × Bytes)
  | [] => none
  | c :: s => if c ≠ 36 then none else
    match specLen 0 s with
    | none => none
    | some (n, t) => if n ≤ t.length ∧ (t.drop n).take 2 = [13, 10] then some (t.take n, t.drop (n + 2)) else none

/-- A number of arguments. -/
def specArgs : Nat → Bytes → Option (List Bytes × Bytes)
  | 0, s => some ([], s)
  | n + 1, s =>
    match specArg s with
    | none => none
    | some (a, s) => (specArgs n s).map (fun p => (a :: p.1, p.2))

/-- A command. -/
def specCommand : Bytes → Option (List Bytes × Bytes)
  | [] => none
  | c :: s => if c ≠ 42 then none else
    match specLen 0 s with
    | none => none
    | some (n, t) => specArgs n t

theorem specLen_digits (ds rest : Bytes) (a n : Nat) (h : digitsVal a ds = some n) :
    specLen a (ds ++ crlf ++ rest) = some (n, rest) := by
  induction ds generalizing a with
  | nil => simp [digitsVal] at h; simp [specLen, crlf, h]
  | cons c ds ih =>
    simp only [digitsVal] at h
    split at h
    · rename_i hd
      have hne : c ≠ 13 := by intro e; subst e; revert hd; decide
      have hr : 48 ≤ c.toNat ∧ c.toNat ≤ 57 := by simpa [isDigit] using hd
      simp only [List.cons_append, specLen, if_neg hne, if_pos hr]
      exact ih _ h
    · simp at h

theorem specArg_ser (a rest : Bytes) : specArg (ser (.bulk a) ++ rest) = some (a, rest) := by
  have e : ser (.bulk a) ++ rest = 36 :: (natText a.length ++ crlf ++ (a ++ (crlf ++ rest))) := by simp [ser]
  rw [e, specArg, if_neg (by simp), specLen_digits _ _ _ _ (digitsVal_natText a.length)]
  simp [crlf]

theorem specArgs_ser (args : List Bytes) (rest : Bytes) :
    specArgs args.length (serAll (args.map .bulk) ++ rest) = some (args, rest) := by
  induction args with
  | nil => simp [serAll, specArgs]
  | cons a args ih =>
    simp only [List.map_cons, serAll, List.append_assoc, List.length_cons, specArgs, specArg_ser, ih, Option.map_some]

/-- C47: the bytes sent for a command are read by the protocol's own rules as exactly its
arguments, whatever bytes these contain, and the command ends exactly where it should. -/
theorem C47_binary_safe (args : List Bytes) (rest : Bytes) :
    specCommand (ser (command args) ++ rest) = some (args, rest) := by
  have e : ser (command args) ++ rest = 42 :: (natText args.length ++ crlf ++ (serAll (args.map .bulk) ++ rest)) := by
    simp [ser, command]
  rw [e, specCommand, if_neg (by simp), specLen_digits _ _ _ _ (digitsVal_natText args.length)]
  exact specArgs_ser args rest

/-- C47: different argument lists never produce the same bytes, not even as the beginning of
longer streams. -/
theorem C47_injective (a b : List Bytes) (r s : Bytes) (h : ser (command a) ++ r = ser (command b) ++ s) :
    a = b ∧ r = s := by
  have h1 := C47_binary_safe a r
  rw [h, C47_binary_safe b s] at h1
  simpa [eq_comm] using h1

/-- The premise is met: equal argument lists (with bytes that look like protocol) and tails. -/
example : ser (command [b!"$1\r\n", []]) ++ b!"x" = ser (command [b!"$1\r\n", []]) ++ b!"x" := rfl

/-! ## C49 -/

/-- C49 is false of the code: a negative length other than -1, or one beyond the address space,
panics (in the goroutine of whoever reads). -/
theorem C49_violated :
    (readMessage ⟨[], [b!"$-2\r\n"]⟩).1 = .panic ∧
    (readMessage ⟨[], [b!"$9223372036854775807\r\n"]⟩).1 = .panic := by decide +kernel

/-- C49, as far as it holds: for every stream, well formed or not and cut in any way, reading a
message returns a message, or an error other than the model's own fuel error, or else it panics
and the stream does contain a bulk header with a length below -1 or beyond the address space. -/
theorem C49_total_partial (r : Rd) (hw : r.WF) :
    (∃ m, (readMessage r).1 = .ok m) ∨ (∃ e, (readMessage r).1 = .err e ∧ e ≠ .stuck) ∨
    ((readMessage r).1 = .panic ∧ ∃ pre line post n, r.flat = pre ++ b!"$" ++ line ++ post ∧ atoi line = some n ∧
      (n.toInt < -1 ∨ maxAlloc < n.toInt)) := by
  have h1 := (total_msg (2 * r.flat.length + 1)).1 r hw (Nat.le_refl _)
  simp only [readMessage]
  cases h : (readMsg (2 * r.flat.length + 1) r).1 with
  | ok m => exact .inl ⟨m, rfl⟩
  | err e => exact .inr (.inl ⟨e, rfl, fun he => h1.1 (by rw [h, he])⟩)
  | panic =>
    obtain ⟨pre, line, post, n, h2, h3, h4⟩ := h1.2.2 h
    exact .inr (.inr ⟨rfl, pre, line, post, n, by simpa using h2, h3, h4⟩)

/-- Streams without the two bytes "$-" and without 15-digit lengths are the common case; here a
truncated one. -/
example : Rd.WF ⟨[], [b!"*2\r\n$3\r\nab"]⟩ := by simp [Rd.WF]

/-! ## C50 -/

/-- C50: the payload of a bulk reply reaches the writer byte for byte, and the stream is left right
behind it, for every payload and every fragmentation. -/
theorem C50_saved (p rest : Bytes) (hp : p.length < 2 ^ 63) (r : Rd) (hw : r.WF)
    (hr : r.flat = b!"$" ++ natText p.length ++ crlf ++ p ++ rest) :
    ∃ r', readWithWriter r = (.ok (36, (p.length : Int)), p, r') ∧ r'.flat = rest ∧ r'.WF := by
  obtain ⟨r1, h1, h2, hw1⟩ := readByte_at (b := 36) (rest := natText p.length ++ crlf ++ (p ++ rest)) hw (by simp [hr])
  have hdig := natText_length (n := p.length) (k := 18) (by omega)
  obtain ⟨r2, h3, h4, hw2⟩ := readLine_at hw1 (natText_no_nl p.length) (by simp only [bufSize]; omega) h2
  obtain ⟨k, hk1, hk2⟩ := atoi_natText hp
  obtain ⟨r3, h5, h6⟩ := copyN_at p rest hw2 h4
  refine ⟨r3, ?_, h6⟩
  have hk3 : k.toInt.toNat = p.length := by omega
  simp only [readWithWriter, h1, readInt, h3, andThen, hk1, if_true, hk3, h5]
  rw [hk2]

/-- A payload with line ends in it, cut inside the header and the payload. -/
example : Rd.flat ⟨b!"$", [b!"4", b!"\r\na\r", b!"\nb+rest"]⟩ = b!"$" ++ natText (b!"a\r\nb").length ++ crlf ++ b!"a\r\nb" ++ b!"+rest" := by
  decide +kernel

/-- C50: a stream that ends before the announced length is reported as an error. -/
theorem C50_short (p : Bytes) (n : Nat) (hn : n < 2 ^ 63) (hp : p.length < n) (r : Rd) (hw : r.WF)
    (hr : r.flat = b!"$" ++ natText n ++ crlf ++ p) :
    ∃ r', readWithWriter r = (.err .eof, p, r') := by
  obtain ⟨r1, h1, h2, hw1⟩ := readByte_at (b := 36) (rest := natText n ++ crlf ++ p) hw (by simp [hr])
  have hdig := natText_length (n := n) (k := 18) (by omega)
  obtain ⟨r2, h3, h4, hw2⟩ := readLine_at hw1 (natText_no_nl n) (by simp only [bufSize]; omega) h2
  obtain ⟨k, hk1, hk2⟩ := atoi_natText hn
  obtain ⟨r3, h5⟩ := copyN_short n p hp hw2 h4
  refine ⟨r3, ?_⟩
  have hk3 : k.toInt.toNat = n := by omega
  simp only [readWithWriter, h1, readInt, h3, andThen, hk1, if_true, hk3, h5]

/-- A stream of this kind. -/
example : Rd.flat ⟨[], [b!"$5\r\n", b!"abc"]⟩ = b!"$" ++ natText 5 ++ crlf ++ b!"abc" := by decide +kernel

end Verif.Resp

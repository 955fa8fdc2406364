import Verif.StrconvProps
import Verif.Resp.Model
/-!
# Reading a serialized message, for any way the reader can hold it
-/
namespace Verif.Resp

/-! ## Lines -/

theorem dropEOL_crlf (l : Bytes) : dropEOL (l ++ crlf) = l := by
  have h : (l ++ crlf).dropLast = l ++ [13] := by
    have : l ++ crlf = (l ++ [13]) ++ [10] := by simp [crlf]
    rw [this, List.dropLast_concat]
  simp [dropEOL, h]

theorem flatLine_crlf {l rest : Bytes} (h : (10 : UInt8) ∉ l) (hl : l.length + 2 ≤ bufSize) :
    flatLine (l ++ crlf ++ rest) = (.ok l, rest) := by
  have h1 : (l ++ crlf ++ rest).take bufSize = (l ++ [13]) ++ 10 :: rest.take (bufSize - (l.length + 2)) := by
    rw [List.take_append, List.take_of_length_le (by simp [crlf]; omega)]
    simp [crlf]
  have h2 : (10 : UInt8) ∉ l ++ [13] := by simp [h]
  have h3 : l ++ [13] ++ [10] = l ++ crlf := by simp [crlf]
  simp only [flatLine, h1, splitNL_append h2, h3, dropEOL_crlf]
  rw [List.drop_left]

theorem readLine_buffered {l rest : Bytes} {net : List Bytes} (h : (10 : UInt8) ∉ l) :
    readLine ⟨l ++ crlf ++ rest, net⟩ = (.ok l, ⟨rest, net⟩) := by
  have h2 : (10 : UInt8) ∉ l ++ [13] := by simp [h]
  have h1 : l ++ crlf ++ rest = (l ++ [13]) ++ 10 :: rest := by simp [crlf]
  have h3 : l ++ [13] ++ [10] = l ++ crlf := by simp [crlf]
  simp only [readLine, readSlice, h1, splitNL_append h2, h3, dropEOL_crlf]

theorem readLine_at {r : Rd} {l rest : Bytes} (hw : r.WF) (h : (10 : UInt8) ∉ l) (hl : l.length + 2 ≤ bufSize)
    (hr : r.flat = l ++ crlf ++ rest) : ∃ r', readLine r = (.ok l, r') ∧ r'.flat = rest ∧ r'.WF := by
  obtain ⟨h1, h2⟩ := readLine_flat r hw
  rw [hr, flatLine_crlf h hl] at h1
  refine ⟨(readLine r).2, ?_, (Prod.mk.inj h1).2, h2⟩
  rw [← (Prod.mk.inj h1).1]

theorem readByte_at {r : Rd} {b : UInt8} {rest : Bytes} (hw : r.WF)
    (hr : r.flat = b :: rest) : ∃ r', readByte r = (.ok b, r') ∧ r'.flat = rest ∧ r'.WF := by
  obtain ⟨h1, h2⟩ := readByte_flat r hw
  rw [hr, flatByte] at h1
  refine ⟨(readByte r).2, ?_, (Prod.mk.inj h1).2, h2⟩
  rw [← (Prod.mk.inj h1).1]

theorem digit_ne_nl {c : UInt8} (h : isDigit c = true) : c ≠ 10 := by
  intro e; subst e; revert h; decide

theorem natText_no_nl (n : Nat) : (10 : UInt8) ∉ natText n := by
  intro h
  have := natText_all_digits n
  rw [List.all_eq_true] at this
  exact digit_ne_nl (this _ h) rfl

theorem itoa_no_nl (n : Int64) : (10 : UInt8) ∉ itoa n := by
  unfold itoa itoaInt
  split
  · simp [natText_no_nl]
  · exact natText_no_nl _

theorem natTextAux_length (f n k : Nat) (h : n < f) (hk : n < 10 ^ (k + 1)) : (natTextAux f n).length ≤ k + 1 := by
  induction f generalizing n k with
  | zero => omega
  | succ f ih =>
    simp only [natTextAux]
    split
    · simp
    · rename_i h10
      cases k with
      | zero => omega
      | succ k =>
        have := ih (n / 10) k (by omega) (by rw [Nat.pow_succ] at hk; omega)
        simp; omega

theorem natText_length {n k : Nat} (hk : n < 10 ^ (k + 1)) : (natText n).length ≤ k + 1 :=
  natTextAux_length _ _ _ (by omega) hk

theorem itoa_length (n : Int64) : (itoa n).length ≤ 20 := by
  have h1 := Int64.le_toInt n
  have h2 := Int64.toInt_lt n
  unfold itoa itoaInt
  split
  · have := natText_length (n := n.toInt.natAbs) (k := 18) (by omega)
    simp only [List.length_cons]; omega
  · have := natText_length (n := n.toInt.natAbs) (k := 18) (by omega)
    omega

theorem atoi_natText {n : Nat} (h : n < 2 ^ 63) : ∃ k : Int64, atoi (natText n) = some k ∧ k.toInt = n := by
  refine ⟨Int64.ofInt n, ?_, Int64.toInt_ofInt_of_le (by omega) (by omega)⟩
  have : itoa (Int64.ofInt n) = natText n := by
    unfold itoa
    rw [Int64.toInt_ofInt_of_le (by omega) (by omega)]
    unfold itoaInt
    rw [if_neg (by omega), Int.natAbs_natCast]
  rw [← this, atoi_itoa]

/-! ## Messages as sequences of tokens -/

mutual
/-- The units a reader takes off the stream: tag bytes, lines, payloads. -/
def toks : Msg → List Bytes
  | .nil => [b!"$", b!"-1" ++ crlf]
  | .array ms => b!"*" :: (natText ms.length ++ crlf) :: toksAll ms
  | .bulk s => b!"$" :: (natText s.length ++ crlf) :: ((if s = [] then [] else [s]) ++ [crlf])
  | .error s => [b!"-", s ++ crlf]
  | .int n => [b!":", itoa n ++ crlf]
  | .simple s => [b!"+", s ++ crlf]
def toksAll : List Msg → List Bytes
  | [] => []
  | m :: ms => toks m ++ toksAll ms
end

mutual
theorem toks_flatten : ∀ m, (toks m).flatten = ser m
  | .nil => by simp [toks, ser]
  | .array ms => by simp [toks, ser, toksAll_flatten ms]
  | .bulk s => by
    by_cases h : s = []
    · simp [toks, ser, h]
    · simp [toks, ser, h]
  | .error s => by simp [toks, ser]
  | .int n => by simp [toks, ser]
  | .simple s => by simp [toks, ser]
theorem toksAll_flatten : ∀ ms, (toksAll ms).flatten = serAll ms
  | [] => by simp [toksAll, serAll]
  | m :: ms => by simp [toksAll, serAll, toks_flatten m, toksAll_flatten ms]
end

mutual
/-- Messages Go can hold and the protocol can carry: no newline inside a text line, lengths within
the address space; `L` and `P` restrict lines and payloads further. -/
def Fits (L P : Bytes → Prop) : Msg → Prop
  | .nil => L b!"-1"
  | .array ms => ms.length < 2 ^ 63 ∧ L (natText ms.length) ∧ FitsAll L P ms
  | .bulk s => (s.length : Int) ≤ maxAlloc ∧ L (natText s.length) ∧ (s ≠ [] → P s)
  | .error s => (10 : UInt8) ∉ s ∧ L s
  | .int n => L (itoa n)
  | .simple s => (10 : UInt8) ∉ s ∧ L s
def FitsAll (L P : Bytes → Prop) : List Msg → Prop
  | [] => True
  | m :: ms => Fits L P m ∧ FitsAll L P ms
end

/-- What a way of holding a token stream must offer. -/
structure Reads (At : List Bytes → Rd → Prop) (L P : Bytes → Prop) : Prop where
  byte : ∀ {b ts r}, At ([b] :: ts) r → ∃ r', readByte r = (.ok b, r') ∧ At ts r'
  line : ∀ {l ts r}, (10 : UInt8) ∉ l → L l → At ((l ++ crlf) :: ts) r → ∃ r', readLine r = (.ok l, r') ∧ At ts r'
  bulk : ∀ {p ts r}, p ≠ [] → P p → At (p :: ts) r → ∃ r', read p.length r = (.ok p, r') ∧ At ts r'
  len : ∀ {ts r}, At ts r → ts.flatten.length ≤ r.flat.length
  nil : L []

section
variable {At : List Bytes → Rd → Prop} {L P : Bytes → Prop}

theorem readInt_at (R : Reads At L P) {n : Nat} (hn : n < 2 ^ 63) (hl : L (natText n)) {ts r}
    (h : At ((natText n ++ crlf) :: ts) r) :
    ∃ k r', readInt r = (.ok k, r') ∧ k.toInt = n ∧ At ts r' := by
  obtain ⟨r', h1, h2⟩ := R.line (natText_no_nl n) hl h
  obtain ⟨k, h3, h4⟩ := atoi_natText hn
  exact ⟨k, r', by simp [readInt, h1, andThen, h3], h4, h2⟩

theorem ser_length_pos (m : Msg) : 1 ≤ (ser m).length := by
  cases m <;> simp [ser] <;> omega

mutual
theorem readMsg_at (R : Reads At L P) : ∀ (m : Msg) (f : Nat) (ts : List Bytes) (r : Rd), Fits L P m →
    2 * (ser m).length + 1 ≤ f → At (toks m ++ ts) r → ∃ r', readMsg f r = (.ok m, r') ∧ At ts r'
  | m, 0, ts, r, _, hf, _ => by omega
  | .nil, f + 1, ts, r, hv, hf, h => by
    simp only [Fits] at hv
    simp only [toks, List.cons_append, List.nil_append] at h
    obtain ⟨r1, h1, h⟩ := R.byte h
    obtain ⟨r2, h2, h⟩ := R.line (by decide) hv h
    refine ⟨r2, ?_, h⟩
    have ha : atoi [45, 49] = some (-1) := by decide +kernel
    have hm : ((-1 : Int64)).toInt = -1 := by decide
    simp only [readMsg, h1, andThen, readInt, h2, ha, hm, if_true]
  | .simple s, f + 1, ts, r, hv, hf, h => by
    simp only [Fits] at hv
    simp only [toks, List.cons_append, List.nil_append] at h
    obtain ⟨r1, h1, h⟩ := R.byte h
    obtain ⟨r2, h2, h⟩ := R.line hv.1 hv.2 h
    exact ⟨r2, by simp [readMsg, h1, andThen, h2], h⟩
  | .error s, f + 1, ts, r, hv, hf, h => by
    simp only [Fits] at hv
    simp only [toks, List.cons_append, List.nil_append] at h
    obtain ⟨r1, h1, h⟩ := R.byte h
    obtain ⟨r2, h2, h⟩ := R.line hv.1 hv.2 h
    exact ⟨r2, by simp [readMsg, h1, andThen, h2], h⟩
  | .int n, f + 1, ts, r, hv, hf, h => by
    simp only [Fits] at hv
    simp only [toks, List.cons_append, List.nil_append] at h
    obtain ⟨r1, h1, h⟩ := R.byte h
    obtain ⟨r2, h2, h⟩ := R.line (itoa_no_nl n) hv h
    exact ⟨r2, by simp [readMsg, h1, andThen, readInt, h2, atoi_itoa], h⟩
  | .bulk s, f + 1, ts, r, hv, hf, h => by
    simp only [Fits] at hv
    obtain ⟨hv1, hv2, hv3⟩ := hv
    simp only [toks, List.cons_append] at h
    obtain ⟨r1, h1, h⟩ := R.byte h
    have hlen : (s.length : Int) ≤ 2 ^ 48 := hv1
    obtain ⟨k, r2, h2, hk, h⟩ := readInt_at R (by omega) hv2 h
    have hne : ¬ (k.toInt = -1) := by omega
    have hbnd : ¬ (k.toInt < 0 ∨ maxAlloc < k.toInt) := by rw [hk]; simp only [maxAlloc]; omega
    have hkn : k.toInt.toNat = s.length := by omega
    have hrd : ∃ r3, read s.length r2 = (.ok s, r3) ∧ At (crlf :: ts) r3 := by
      by_cases hs : s = []
      · subst hs
        exact ⟨r2, by simp [read], by simpa using h⟩
      · rw [if_neg hs] at h
        exact R.bulk hs (hv3 hs) (by simpa using h)
    obtain ⟨r3, h3, h⟩ := hrd
    obtain ⟨r4, h4, h⟩ := R.line (l := []) (by simp) R.nil (by simpa using h)
    refine ⟨r4, ?_, h⟩
    simp only [readMsg, h1, andThen, h2, if_true, if_neg hne, readBulk, if_neg hbnd, hkn, h3, h4]
    simp
  | .array ms, f + 1, ts, r, hv, hf, h => by
    simp only [Fits] at hv
    obtain ⟨hv1, hv2, hv3⟩ := hv
    simp only [toks, List.cons_append] at h
    obtain ⟨r1, h1, h⟩ := R.byte h
    obtain ⟨k, r2, h2, hk, h⟩ := readInt_at R hv1 hv2 h
    have hkn : k.toInt.toNat = ms.length := by omega
    have hf' : 2 * (serAll ms).length + 2 ≤ f := by simp [ser, crlf] at hf; omega
    obtain ⟨r3, h3, h⟩ := readMsgs_at R ms f ts r2 hv3 hf' h
    refine ⟨r3, ?_, h⟩
    simp [readMsg, h1, andThen, h2, hkn, h3]
theorem readMsgs_at (R : Reads At L P) : ∀ (ms : List Msg) (f : Nat) (ts : List Bytes) (r : Rd), FitsAll L P ms →
    2 * (serAll ms).length + 2 ≤ f → At (toksAll ms ++ ts) r →
    ∃ r', readMsgs f ms.length r = (.ok ms, r') ∧ At ts r'
  | ms, 0, ts, r, _, hf, _ => by omega
  | [], f + 1, ts, r, hv, hf, h => ⟨r, by simp [readMsgs], by simpa [toksAll] using h⟩
  | m :: ms, f + 1, ts, r, hv, hf, h => by
    simp only [FitsAll] at hv
    simp only [toksAll, List.append_assoc] at h
    have hp := ser_length_pos m
    simp only [serAll, List.length_append] at hf
    obtain ⟨r1, h1, h⟩ := readMsg_at R m f _ r hv.1 (by omega) h
    obtain ⟨r2, h2, h⟩ := readMsgs_at R ms f ts r1 hv.2 (by omega) h
    refine ⟨r2, ?_, h⟩
    simp [readMsgs, h1, andThen, h2]
end

theorem readMessage_at (R : Reads At L P) {m : Msg} {ts : List Bytes} {r : Rd} (hv : Fits L P m)
    (h : At (toks m ++ ts) r) : ∃ r', readMessage r = (.ok m, r') ∧ At ts r' := by
  refine readMsg_at R m _ ts r hv ?_ h
  have := R.len h
  rw [List.flatten_append, toks_flatten, List.length_append] at this
  omega

theorem recvN_at (R : Reads At L P) (ms : List Msg) {ts : List Bytes} {r : Rd} (hv : FitsAll L P ms)
    (h : At (toksAll ms ++ ts) r) : ∃ r', recvN ms.length r = (.ok ms, r') ∧ At ts r' := by
  induction ms generalizing r with
  | nil => exact ⟨r, rfl, by simpa [toksAll] using h⟩
  | cons m ms ih =>
    simp only [FitsAll] at hv
    simp only [toksAll, List.append_assoc] at h
    obtain ⟨r1, h1, h⟩ := readMessage_at R hv.1 h
    obtain ⟨r2, h2, h⟩ := ih hv.2 h
    exact ⟨r2, by simp [recvN, h1, andThen, h2], h⟩

end

/-! ## Way 1: everything is already buffered -/

/-- The buffer holds the tokens, then `rest`. -/
def Buffered (rest : Bytes) (net : List Bytes) (ts : List Bytes) (r : Rd) : Prop :=
  r = ⟨ts.flatten ++ rest, net⟩

theorem buffered_reads (rest : Bytes) (net : List Bytes) :
    Reads (Buffered rest net) (fun _ => True) (fun _ => True) where
  byte := by
    intro b ts r h
    subst h
    exact ⟨⟨ts.flatten ++ rest, net⟩, by simp [readByte], rfl⟩
  line := by
    intro l ts r hl _ h
    subst h
    refine ⟨⟨ts.flatten ++ rest, net⟩, ?_, rfl⟩
    rw [List.flatten_cons, List.append_assoc]
    exact readLine_buffered hl
  bulk := by
    intro p ts r hp _ h
    subst h
    refine ⟨⟨ts.flatten ++ rest, net⟩, ?_, rfl⟩
    cases p with
    | nil => exact absurd rfl hp
    | cons b p => simp [read]
  len := by
    intro ts r h
    subst h
    simp [Rd.flat]
  nil := trivial

/-! ## Way 2: cut into reads anywhere, payloads of at most one byte -/

/-- The undivided stream starts with the tokens, then `rest`. -/
def Streamed (rest : Bytes) (ts : List Bytes) (r : Rd) : Prop := r.flat = ts.flatten ++ rest ∧ r.WF

theorem streamed_reads (rest : Bytes) :
    Reads (Streamed rest) (fun l => l.length + 2 ≤ bufSize) (fun p => p.length ≤ 1) where
  byte := by
    intro b ts r ⟨h, hw⟩
    exact readByte_at hw (by simpa using h)
  line := by
    intro l ts r hl hs ⟨h, hw⟩
    exact readLine_at hw hl hs (by simpa using h)
  bulk := by
    intro p ts r hp h1 ⟨h, hw⟩
    cases p with
    | nil => exact absurd rfl hp
    | cons b p =>
      have : p = [] := List.length_eq_zero_iff.mp (by simp only [List.length_cons] at h1; omega)
      subst this
      simp only [List.flatten_cons, List.cons_append] at h
      rcases read_flat 1 r hw with ⟨⟨d, h2, h3, h4, h5⟩, h6⟩ | ⟨_, h2, _⟩
      · have h5 := h5 (by omega)
        cases d with
        | nil => exact absurd rfl h5
        | cons c d =>
          have : d = [] := List.length_eq_zero_iff.mp (by simp only [List.length_cons] at h4; omega)
          subst this
          rw [h] at h3
          simp only [List.cons_append, List.nil_append, List.cons.injEq] at h3
          refine ⟨(read 1 r).2, ?_, h3.2.symm, h6⟩
          rw [h3.1, ← h2]
          rfl
      · rw [h] at h2; simp at h2
  len := by
    intro ts r ⟨h, _⟩
    rw [h]; simp
  nil := by simp [bufSize]

/-! ## Way 3: each chunk holds whole tokens -/

/-- Buffer and chunks each hold a whole number of tokens and at most a buffer full. -/
def Aligned (rest : List Bytes) (ts : List Bytes) (r : Rd) : Prop :=
  ∃ (b : List Bytes) (gs : List (List Bytes)), r.buf = b.flatten ∧ r.net = gs.map List.flatten ∧
    ts ++ rest = b ++ gs.flatten ∧ (∀ g ∈ gs, g.flatten.length ≤ bufSize) ∧ (∀ t ∈ ts ++ rest, t ≠ []) ∧ r.WF

/-- If the buffer is empty, the next read of the connection brings the chunk with the first token. -/
theorem aligned_fetch {t : Bytes} {ts : List Bytes} {gs : List (List Bytes)} (ht : t ≠ [])
    (h : t :: ts = gs.flatten) (hg : ∀ g ∈ gs, g.flatten.length ≤ bufSize) {cap : Nat} (hc : bufSize ≤ cap) :
    ∃ (b : List Bytes) (gs' : List (List Bytes)), netRead cap (gs.map List.flatten) = some (t ++ b.flatten, [] :: gs'.map List.flatten) ∧
      ts = b ++ gs'.flatten ∧ (∀ g ∈ gs', g.flatten.length ≤ bufSize) ∧ (t ++ b.flatten).length ≤ bufSize := by
  induction gs with
  | nil => simp at h
  | cons g gs ih =>
    cases g with
    | nil =>
      simp only [List.flatten_cons, List.nil_append] at h
      simpa [netRead] using ih h (fun g h => hg g (by simp [h]))
    | cons u g =>
      simp only [List.flatten_cons, List.cons_append, List.cons.injEq] at h
      obtain ⟨rfl, h⟩ := h
      have hlen := hg (t :: g) (by simp)
      simp only [List.flatten_cons] at hlen
      refine ⟨g, gs, ?_, h, fun g' h' => hg g' (by simp [h']), hlen⟩
      simp only [List.map_cons, List.flatten_cons]
      cases t with
      | nil => exact absurd rfl ht
      | cons c t =>
        simp only [List.cons_append, netRead] at hlen ⊢
        rw [List.take_of_length_le (by omega), List.drop_of_length_le (by omega)]

/-- Splitting off the first token: it starts the buffer, or the buffer is empty. -/
theorem aligned_cases {rest ts : List Bytes} {t : Bytes} {r : Rd} (h : Aligned rest (t :: ts) r) :
    (∃ buf', r.buf = t ++ buf' ∧ Aligned rest ts ⟨buf', r.net⟩) ∨
    (r.buf = [] ∧ ∃ buf' net', (∀ cap, bufSize ≤ cap → netRead cap r.net = some (t ++ buf', net')) ∧
      (t ++ buf').length ≤ bufSize ∧ Aligned rest ts ⟨buf', net'⟩) := by
  obtain ⟨b, gs, h1, h2, h3, h4, h5, h6⟩ := h
  have ht : t ≠ [] := h5 t (by simp)
  have h5' : ∀ u ∈ ts ++ rest, u ≠ [] := fun u hu => h5 u (by simp at hu ⊢; exact .inr hu)
  cases b with
  | cons u b =>
    simp only [List.cons_append, List.cons.injEq] at h3
    obtain ⟨rfl, h3⟩ := h3
    refine .inl ⟨b.flatten, by simpa using h1, b, gs, rfl, h2, h3, h4, h5', ?_⟩
    simp only [Rd.WF] at h6 ⊢
    rw [h1] at h6; simp at h6 ⊢; omega
  | nil =>
    refine .inr ⟨by simpa using h1, ?_⟩
    simp only [List.nil_append, List.cons_append] at h3
    obtain ⟨b, gs', e1, e2, e3, e4⟩ := aligned_fetch ht h3 h4 (Nat.le_refl _)
    refine ⟨b.flatten, [] :: gs'.map List.flatten, ?_, e4, b, [] :: gs', rfl, by simp, by simpa using e2, ?_, h5', ?_⟩
    · intro cap hc
      have hsame : ∀ cap2, bufSize ≤ cap2 → netRead cap2 (gs.map List.flatten) = netRead bufSize (gs.map List.flatten) := by
        intro cap2 hc2
        have : ∀ l : List Bytes, (∀ c ∈ l, c.length ≤ bufSize) → netRead cap2 l = netRead bufSize l := by
          intro l hl
          induction l with
          | nil => rfl
          | cons c l ih =>
            cases c with
            | nil => simpa [netRead] using ih (fun c h => hl c (by simp [h]))
            | cons x c =>
              have := hl (x :: c) (by simp)
              simp only [netRead]
              rw [List.take_of_length_le (by omega), List.drop_of_length_le (by omega),
                List.take_of_length_le this, List.drop_of_length_le this]
        exact this _ (by intro c hc; simp at hc; obtain ⟨g, hg, rfl⟩ := hc; exact h4 g hg)
      rw [h2, hsame cap hc, e1]
    · intro g hg
      simp at hg
      rcases hg with rfl | hg
      · simp
      · exact e3 g hg
    · simp only [Rd.WF]; simp at e4 ⊢; omega

theorem aligned_reads (rest : List Bytes) :
    Reads (Aligned rest) (fun l => l.length + 2 ≤ bufSize) (fun _ => True) where
  byte := by
    intro b ts r h
    obtain ⟨buf, net⟩ := r
    rcases aligned_cases h with ⟨buf', h1, h2⟩ | ⟨h1, buf', net', h2, h3, h4⟩
    · simp only at h1 h2
      subst h1
      exact ⟨_, by simp [readByte], h2⟩
    · simp only at h1 h2
      subst h1
      refine ⟨⟨buf', net'⟩, ?_, h4⟩
      simp only [readByte, fill, h2 (bufSize - ([] : Bytes).length) (by simp)]
      simp
  line := by
    intro l ts r hl hs h
    obtain ⟨buf, net⟩ := r
    rcases aligned_cases h with ⟨buf', h1, h2⟩ | ⟨h1, buf', net', h2, h3, h4⟩
    · simp only at h1 h2
      subst h1
      exact ⟨_, readLine_buffered hl, h2⟩
    · simp only at h1 h2
      subst h1
      refine ⟨⟨buf', net'⟩, ?_, h4⟩
      have e : readLine ⟨[], net⟩ = readLine ⟨l ++ crlf ++ buf', net'⟩ := by
        have hf : fill ⟨[], net⟩ = some ⟨l ++ crlf ++ buf', net'⟩ := by
          simp only [fill, h2 (bufSize - ([] : Bytes).length) (by simp)]
          simp
        have hq : ∀ f, readSlice (f + 1) ⟨l ++ crlf ++ buf', net'⟩ = (.line (l ++ crlf), ⟨buf', net'⟩) := by
          intro f
          have h2 : (10 : UInt8) ∉ l ++ [13] := by simp [hl]
          have h1 : l ++ crlf ++ buf' = (l ++ [13]) ++ 10 :: buf' := by simp [crlf]
          simp only [readSlice, h1, splitNL_append h2]
          simp [crlf]
        have hp : readSlice (bufSize + 1) ⟨[], net⟩ = (.line (l ++ crlf), ⟨buf', net'⟩) := by
          rw [show bufSize + 1 = (bufSize - 1 + 1) + 1 from rfl, readSlice]
          simp only [splitNL, List.length_nil]
          rw [if_neg (by simp [bufSize]), hf]
          exact hq _
        simp only [readLine, hp, hq]
      rw [e, readLine_buffered hl]
  bulk := by
    intro p ts r hp _ h
    obtain ⟨buf, net⟩ := r
    have hn : p.length ≠ 0 := fun e => hp (List.length_eq_zero_iff.mp e)
    rcases aligned_cases h with ⟨buf', h1, h2⟩ | ⟨h1, buf', net', h2, h3, h4⟩
    · simp only at h1 h2
      subst h1
      refine ⟨_, ?_, h2⟩
      cases p with
      | nil => exact absurd rfl hp
      | cons b p => simp [read]
    · simp only at h1 h2
      subst h1
      refine ⟨⟨buf', net'⟩, ?_, h4⟩
      simp only [read, if_neg hn]
      by_cases hb : bufSize ≤ p.length
      · rw [if_pos hb, h2 _ hb]
        have : buf' = [] := List.length_eq_zero_iff.mp (by simp at h3; omega)
        simp [this]
      · rw [if_neg hb, h2 _ (Nat.le_refl _)]
        simp
  len := by
    intro ts r ⟨b, gs, h1, h2, h3, _⟩
    have e : r.flat = (ts ++ rest).flatten := by
      have hm : ∀ gs : List (List Bytes), (gs.map List.flatten).flatten = gs.flatten.flatten := by
        intro gs
        induction gs with
        | nil => rfl
        | cons g gs ih => simp [ih]
      rw [h3, Rd.flat, h1, h2, hm, List.flatten_append]
    rw [e]; simp
  nil := by simp [bufSize]

mutual
theorem toks_ne : ∀ (m : Msg), ∀ t ∈ toks m, t ≠ []
  | .nil => by simp [toks]
  | .array ms => by
    intro t ht
    simp only [toks, List.mem_cons] at ht
    rcases ht with rfl | rfl | ht
    · simp
    · simp [crlf]
    · exact toksAll_ne ms t ht
  | .bulk s => by
    intro t ht
    simp only [toks, List.mem_cons, List.mem_append, List.not_mem_nil, or_false] at ht
    rcases ht with rfl | rfl | ht | rfl
    · simp
    · simp [crlf]
    · split at ht
      · simp at ht
      · rename_i hs; simp at ht; exact ht ▸ hs
    · simp [crlf]
  | .error s => by simp [toks, crlf]
  | .int n => by simp [toks, crlf]
  | .simple s => by simp [toks, crlf]
theorem toksAll_ne : ∀ (ms : List Msg), ∀ t ∈ toksAll ms, t ≠ []
  | [] => by simp [toksAll]
  | m :: ms => by
    intro t ht
    simp only [toksAll, List.mem_append] at ht
    rcases ht with ht | ht
    · exact toks_ne m t ht
    · exact toksAll_ne ms t ht
end

/-! ## Arbitrary streams -/

theorem flatLine_ok {s l t : Bytes} (h : flatLine s = (.ok l, t)) : (∃ post, s = l ++ post) ∧ ∃ pre, s = pre ++ t := by
  unfold flatLine at h
  split at h
  · rename_i l' t' hs
    simp only [Prod.mk.injEq, GoRes.ok.injEq] at h
    obtain ⟨rfl, rfl⟩ := h
    refine ⟨?_, s.take l'.length, (List.take_append_drop _ _).symm⟩
    obtain ⟨h1, _⟩ := splitNL_some hs
    have h2 : s = l' ++ (t' ++ s.drop bufSize) := by
      rw [← List.append_assoc, ← h1, List.take_append_drop]
    have h3 : ∃ q, l' = dropEOL l' ++ q := by
      unfold dropEOL
      simp only
      split
      · exact ⟨l'.dropLast.drop (l'.dropLast.length - 1) ++ l'.drop (l'.length - 1), by
          rw [← List.append_assoc]
          rw [show l'.dropLast.dropLast = l'.dropLast.take (l'.dropLast.length - 1) from List.dropLast_eq_take, List.take_append_drop]
          rw [show l'.dropLast = l'.take (l'.length - 1) from List.dropLast_eq_take, List.take_append_drop]⟩
      · exact ⟨l'.drop (l'.length - 1), by
          rw [show l'.dropLast = l'.take (l'.length - 1) from List.dropLast_eq_take, List.take_append_drop]⟩
    obtain ⟨q, hq⟩ := h3
    exact ⟨q ++ (t' ++ s.drop bufSize), by rw [← List.append_assoc, ← hq]; exact h2⟩
  · split at h
    · split at h
      · simp only [Prod.mk.injEq, GoRes.ok.injEq] at h
        obtain ⟨rfl, rfl⟩ := h
        refine ⟨⟨s.drop ((s.take bufSize).length - 1), ?_⟩, s.take (bufSize - 1), (List.take_append_drop _ _).symm⟩
        rw [List.dropLast_eq_take, List.take_take, Nat.min_eq_left (by simp; omega), List.take_append_drop]
      · simp only [Prod.mk.injEq, GoRes.ok.injEq] at h
        obtain ⟨rfl, rfl⟩ := h
        exact ⟨⟨_, (List.take_append_drop _ _).symm⟩, _, (List.take_append_drop _ _).symm⟩
    · split at h
      · simp at h
      · simp only [Prod.mk.injEq, GoRes.ok.injEq] at h
        obtain ⟨rfl, rfl⟩ := h
        exact ⟨⟨[], by simp⟩, s, by simp⟩

theorem flatLine_cases (s : Bytes) : (∃ l t, flatLine s = (.ok l, t)) ∨ flatLine s = (.err .eof, []) := by
  unfold flatLine
  split
  · exact .inl ⟨_, _, rfl⟩
  · split
    · split <;> exact .inl ⟨_, _, rfl⟩
    · split
      · exact .inr rfl
      · exact .inl ⟨_, _, rfl⟩

theorem readLine_any (r : Rd) (hw : r.WF) : (readLine r).2.WF ∧
    ((∃ l r', readLine r = (.ok l, r') ∧ (∃ post, r.flat = l ++ post) ∧ ∃ pre, r.flat = pre ++ r'.flat) ∨
     ∃ r', readLine r = (.err .eof, r')) := by
  obtain ⟨h1, h2⟩ := readLine_flat r hw
  refine ⟨h2, ?_⟩
  rcases flatLine_cases r.flat with ⟨l, t, h⟩ | h
  · rw [h, Prod.mk.injEq] at h1
    refine .inl ⟨l, (readLine r).2, by rw [← h1.1], ?_⟩
    rw [h1.2]
    exact flatLine_ok h
  · rw [h, Prod.mk.injEq] at h1
    exact .inr ⟨(readLine r).2, by rw [← h1.1]⟩

theorem readByte_any (r : Rd) (hw : r.WF) : (readByte r).2.WF ∧
    ((∃ b r', readByte r = (.ok b, r') ∧ r.flat = b :: r'.flat) ∨ ∃ r', readByte r = (.err .eof, r')) := by
  obtain ⟨h1, h2⟩ := readByte_flat r hw
  refine ⟨h2, ?_⟩
  cases h : r.flat with
  | nil =>
    rw [h, flatByte, Prod.mk.injEq] at h1
    exact .inr ⟨(readByte r).2, by rw [← h1.1]⟩
  | cons b s =>
    rw [h, flatByte, Prod.mk.injEq] at h1
    exact .inl ⟨b, (readByte r).2, by rw [← h1.1], by rw [h1.2]⟩

theorem readInt_any (r : Rd) (hw : r.WF) :
    (∃ n r', readInt r = (.ok n, r') ∧ r'.WF ∧ (∃ line post, r.flat = line ++ post ∧ atoi line = some n) ∧ ∃ pre, r.flat = pre ++ r'.flat) ∨
     ∃ e r', readInt r = (.err e, r') ∧ e ≠ .stuck := by
  obtain ⟨hw', h⟩ := readLine_any r hw
  unfold readInt
  rcases h with ⟨l, r', h, ⟨post, hp⟩, hq⟩ | ⟨r', h⟩
  · rw [h] at hw' ⊢
    simp only [andThen]
    cases ha : atoi l with
    | none => exact .inr ⟨_, _, rfl, by simp⟩
    | some n => exact .inl ⟨n, r', rfl, hw', ⟨l, post, hp, ha⟩, hq⟩
  · rw [h]; exact .inr ⟨_, _, rfl, by simp⟩

/-- A bulk header with an impossible length somewhere in the stream. -/
def BadHeader (s : Bytes) : Prop :=
  ∃ pre line post n, s = pre ++ (36 :: (line ++ post)) ∧ atoi line = some n ∧ (n.toInt < -1 ∨ maxAlloc < n.toInt)

theorem BadHeader.prepend {s : Bytes} (h : BadHeader s) (p : Bytes) : BadHeader (p ++ s) := by
  obtain ⟨pre, line, post, n, h1, h2⟩ := h
  exact ⟨p ++ pre, line, post, n, by simp [h1], h2⟩

theorem readBulk_any (n : Int64) (r : Rd) (hw : r.WF) :
    (∃ m r', readBulk n r = (.ok m, r') ∧ r'.WF ∧ ∃ pre, r.flat = pre ++ r'.flat) ∨
    (∃ e r', readBulk n r = (.err e, r') ∧ e ≠ .stuck) ∨
    ∃ r', readBulk n r = (.panic, r') ∧ (n.toInt < 0 ∨ maxAlloc < n.toInt) := by
  unfold readBulk
  split
  · rename_i h; exact .inr (.inr ⟨r, rfl, h⟩)
  · rcases read_flat n.toInt.toNat r hw with ⟨⟨d, h1, h2, _⟩, h3⟩ | ⟨h1, _⟩
    · have : read n.toInt.toNat r = (.ok d, (read n.toInt.toNat r).2) := by rw [← h1]
      rw [this]
      simp only [andThen]
      obtain ⟨hw', h⟩ := readLine_any _ h3
      rcases h with ⟨l, r', h, _, ⟨pre, hq⟩⟩ | ⟨r', h⟩
      · rw [h] at hw' ⊢
        exact .inl ⟨_, r', rfl, hw', d ++ pre, by rw [h2, hq, List.append_assoc]⟩
      · rw [h]; exact .inr (.inl ⟨_, _, rfl, by simp⟩)
    · have : read n.toInt.toNat r = (.err .eof, (read n.toInt.toNat r).2) := by rw [← h1]
      rw [this]
      exact .inr (.inl ⟨_, _, rfl, by simp⟩)

/-- What reading from an arbitrary stream guarantees: `grow` is the least number of bytes used up. -/
def Total {α : Type} (grow : Nat) (r : Rd) (x : RRes α × Rd) : Prop :=
  x.1 ≠ .err .stuck ∧ (∀ a, x.1 = .ok a → x.2.WF ∧ ∃ pre, r.flat = pre ++ x.2.flat ∧ grow ≤ pre.length) ∧
  (x.1 = .panic → BadHeader r.flat)

theorem total_ok {α : Type} {g : Nat} {r r' : Rd} {a : α} (hw : r'.WF) {pre : Bytes} (h : r.flat = pre ++ r'.flat)
    (hg : g ≤ pre.length) : Total g r ((.ok a : RRes α), r') :=
  ⟨by simp, fun _ _ => ⟨hw, pre, h, hg⟩, by simp⟩

theorem total_err {α : Type} {g : Nat} {r r' : Rd} {e : RErr} (h : e ≠ .stuck) : Total g r ((.err e : RRes α), r') :=
  ⟨by simpa using h, by simp, by simp⟩

theorem total_msg (f : Nat) :
    (∀ r : Rd, r.WF → 2 * r.flat.length + 1 ≤ f → Total 1 r (readMsg f r)) ∧
    (∀ k, ∀ r : Rd, r.WF → 2 * r.flat.length + 2 ≤ f → Total 0 r (readMsgs f k r)) := by
  induction f with
  | zero => exact ⟨fun r _ h => by omega, fun k r _ h => by omega⟩
  | succ f ih =>
    refine ⟨fun r hw hf => ?_, fun k r hw hf => ?_⟩
    · simp only [readMsg]
      obtain ⟨hw1, h⟩ := readByte_any r hw
      rcases h with ⟨p, r1, h1, e1⟩ | ⟨r1, h1⟩
      · rw [h1] at hw1 ⊢
        simp only [andThen]
        have hlen : r.flat.length = r1.flat.length + 1 := by rw [e1]; simp
        by_cases h36 : p = 36
        · rw [if_pos h36]
          subst h36
          rcases readInt_any r1 hw1 with ⟨n, r2, h2, hw2, ⟨line, post, e2, ha⟩, ⟨pre, e3⟩⟩ | ⟨e, r2, h2, hne⟩
          · rw [h2]
            simp only
            by_cases hm1 : n.toInt = -1
            · rw [if_pos hm1]
              exact total_ok hw2 (pre := 36 :: pre) (by rw [e1, e3]; rfl) (by simp)
            · rw [if_neg hm1]
              rcases readBulk_any n r2 hw2 with ⟨m, r3, h3, hw3, ⟨pre3, e4⟩⟩ | ⟨e, r3, h3, hne⟩ | ⟨r3, h3, hbad⟩
              · rw [h3]
                exact total_ok hw3 (pre := 36 :: (pre ++ pre3)) (by rw [e1, e3, e4]; simp) (by simp)
              · rw [h3]; exact total_err hne
              · rw [h3]
                refine ⟨by simp, by simp, fun _ => ⟨[], line, post, n, ?_, ha, ?_⟩⟩
                · rw [e1, e2]; rfl
                · omega
          · rw [h2]; exact total_err hne
        · rw [if_neg h36]
          by_cases h43 : p = 43
          · rw [if_pos h43]
            obtain ⟨hw2, h⟩ := readLine_any r1 hw1
            rcases h with ⟨l, r2, h2, _, ⟨pre, e3⟩⟩ | ⟨r2, h2⟩
            · rw [h2] at hw2 ⊢
              exact total_ok hw2 (pre := p :: pre) (by rw [e1, e3]; rfl) (by simp)
            · rw [h2]; exact total_err (by simp)
          · rw [if_neg h43]
            by_cases h45 : p = 45
            · rw [if_pos h45]
              obtain ⟨hw2, h⟩ := readLine_any r1 hw1
              rcases h with ⟨l, r2, h2, _, ⟨pre, e3⟩⟩ | ⟨r2, h2⟩
              · rw [h2] at hw2 ⊢
                exact total_ok hw2 (pre := p :: pre) (by rw [e1, e3]; rfl) (by simp)
              · rw [h2]; exact total_err (by simp)
            · rw [if_neg h45]
              by_cases h58 : p = 58
              · rw [if_pos h58]
                rcases readInt_any r1 hw1 with ⟨n, r2, h2, hw2, _, ⟨pre, e3⟩⟩ | ⟨e, r2, h2, hne⟩
                · rw [h2]
                  exact total_ok hw2 (pre := p :: pre) (by rw [e1, e3]; rfl) (by simp)
                · rw [h2]; exact total_err hne
              · rw [if_neg h58]
                by_cases h42 : p = 42
                · rw [if_pos h42]
                  rcases readInt_any r1 hw1 with ⟨n, r2, h2, hw2, _, ⟨pre, e3⟩⟩ | ⟨e, r2, h2, hne⟩
                  · rw [h2]
                    simp only
                    have hl2 : r2.flat.length ≤ r1.flat.length := by rw [e3]; simp
                    have h3 := ih.2 n.toInt.toNat r2 hw2 (by omega)
                    obtain ⟨s1, s2, s4⟩ := h3
                    cases hx : readMsgs f n.toInt.toNat r2 with
                    | mk x r3 =>
                      rw [hx] at s1 s2 s4
                      cases x with
                      | ok ms =>
                        obtain ⟨hw3, pre3, e4, _⟩ := s2 ms rfl
                        exact total_ok hw3 (pre := p :: (pre ++ pre3)) (by rw [e1, e3, e4]; simp) (by simp)
                      | err e => exact total_err (fun he => s1 (by rw [he]))
                      | panic =>
                        refine ⟨by simp, by simp, fun _ => ?_⟩
                        rw [e1, e3]
                        exact (s4 rfl).prepend (p :: pre)
                  · rw [h2]; exact total_err hne
                · rw [if_neg h42]; exact total_err (by simp)
      · rw [h1]; exact total_err (by simp)
    · cases k with
      | zero =>
        simp only [readMsgs]
        exact total_ok hw (pre := []) rfl (by simp)
      | succ k =>
        simp only [readMsgs]
        obtain ⟨s1, s2, s4⟩ := ih.1 r hw (by omega)
        cases hx : readMsg f r with
        | mk x r1 =>
          rw [hx] at s1 s2 s4
          cases x with
          | ok m =>
            obtain ⟨hw1, pre, e1, hg⟩ := s2 m rfl
            simp only [andThen]
            have hl : r.flat.length = pre.length + r1.flat.length := by rw [e1]; simp
            obtain ⟨t1, t2, t4⟩ := ih.2 k r1 hw1 (by omega)
            cases hy : readMsgs f k r1 with
            | mk y r2 =>
              rw [hy] at t1 t2 t4
              cases y with
              | ok ms =>
                obtain ⟨hw2, pre2, e2, _⟩ := t2 ms rfl
                exact total_ok hw2 (pre := pre ++ pre2) (by rw [e1, e2]; simp) (by simp)
              | err e => exact total_err (fun he => t1 (by rw [he]))
              | panic =>
                refine ⟨by simp, by simp, fun _ => ?_⟩
                rw [e1]
                exact (t4 rfl).prepend pre
          | err e => exact total_err (fun he => s1 (by rw [he]))
          | panic => exact ⟨by simp [andThen], by simp [andThen], fun _ => s4 rfl⟩

/-! ## Two readers of the same stream -/

/-- Same result, same position. -/
def Agree {α : Type} (x y : RRes α × Rd) : Prop :=
  x.1 = y.1 ∧ x.2.flat = y.2.flat ∧ x.2.WF ∧ y.2.WF ∧ ((36 : UInt8) ∉ x.2.flat)

theorem agree_andThen {α β : Type} {x y : RRes α × Rd} {k k' : α → Rd → RRes β × Rd} (h : Agree x y)
    (hk : ∀ a r1 r2, r1.WF → r2.WF → r1.flat = r2.flat → (36 : UInt8) ∉ r1.flat → Agree (k a r1) (k' a r2)) :
    Agree (andThen x k) (andThen y k') := by
  obtain ⟨x1, r1⟩ := x
  obtain ⟨y1, r2⟩ := y
  obtain ⟨h1, h2, h3, h4, h5⟩ := h
  simp only at h1 h2 h3 h4 h5
  subst h1
  cases x1 with
  | ok a => exact hk a r1 r2 h3 h4 h2 h5
  | err e => exact ⟨rfl, h2, h3, h4, h5⟩
  | panic => exact ⟨rfl, h2, h3, h4, h5⟩

theorem agree_ret {α : Type} {x : RRes α} {r1 r2 : Rd} (h1 : r1.WF) (h2 : r2.WF) (hf : r1.flat = r2.flat)
    (hb : (36 : UInt8) ∉ r1.flat) : Agree (x, r1) (x, r2) := ⟨rfl, hf, h1, h2, hb⟩

theorem flatLine_tail {s : Bytes} (c : UInt8) (h : c ∉ s) : c ∉ (flatLine s).2 := by
  rcases flatLine_cases s with ⟨l, t, e⟩ | e
  · obtain ⟨_, pre, hp⟩ := flatLine_ok e
    rw [e]
    intro hc
    apply h
    rw [hp]
    simp only [List.mem_append]
    exact .inr hc
  · rw [e]; simp

theorem agree_line {r1 r2 : Rd} (h1 : r1.WF) (h2 : r2.WF) (hf : r1.flat = r2.flat)
    (hb : (36 : UInt8) ∉ r1.flat) : Agree (readLine r1) (readLine r2) := by
  obtain ⟨a1, a2⟩ := readLine_flat r1 h1
  obtain ⟨b1, b2⟩ := readLine_flat r2 h2
  rw [← hf, ← a1, Prod.mk.injEq] at b1
  refine ⟨b1.1.symm, b1.2.symm, a2, b2, ?_⟩
  have := flatLine_tail 36 hb
  rw [← a1] at this
  exact this

theorem agree_int {r1 r2 : Rd} (h1 : r1.WF) (h2 : r2.WF) (hf : r1.flat = r2.flat)
    (hb : (36 : UInt8) ∉ r1.flat) : Agree (readInt r1) (readInt r2) := by
  refine agree_andThen (agree_line h1 h2 hf hb) ?_
  intro l r1 r2 h1 h2 hf hb
  cases atoi l <;> exact agree_ret h1 h2 hf hb

theorem agree_msg (f : Nat) :
    (∀ r1 r2 : Rd, r1.WF → r2.WF → r1.flat = r2.flat → (36 : UInt8) ∉ r1.flat → Agree (readMsg f r1) (readMsg f r2)) ∧
    (∀ k, ∀ r1 r2 : Rd, r1.WF → r2.WF → r1.flat = r2.flat → (36 : UInt8) ∉ r1.flat → Agree (readMsgs f k r1) (readMsgs f k r2)) := by
  induction f with
  | zero => exact ⟨fun r1 r2 h1 h2 hf hb => agree_ret h1 h2 hf hb, fun k r1 r2 h1 h2 hf hb => agree_ret h1 h2 hf hb⟩
  | succ f ih =>
    refine ⟨fun r1 r2 h1 h2 hf hb => ?_, fun k r1 r2 h1 h2 hf hb => ?_⟩
    · simp only [readMsg]
      obtain ⟨a1, a2⟩ := readByte_flat r1 h1
      obtain ⟨b1, b2⟩ := readByte_flat r2 h2
      rw [← hf, ← a1, Prod.mk.injEq] at b1
      cases hs : r1.flat with
      | nil =>
        rw [hs, flatByte, Prod.mk.injEq] at a1
        have e1 : readByte r1 = (.err .eof, (readByte r1).2) := by rw [← a1.1]
        have e2 : readByte r2 = (.err .eof, (readByte r2).2) := by rw [← a1.1, ← b1.1]
        rw [e1, e2]
        exact ⟨rfl, b1.2.symm, a2, b2, by show (36 : UInt8) ∉ (readByte r1).2.flat; rw [a1.2]; simp⟩
      | cons p s =>
        rw [hs, flatByte, Prod.mk.injEq] at a1
        have e1 : readByte r1 = (.ok p, (readByte r1).2) := by rw [← a1.1]
        have e2 : readByte r2 = (.ok p, (readByte r2).2) := by rw [← a1.1, ← b1.1]
        rw [hs] at hb
        simp only [List.mem_cons, not_or] at hb
        rw [e1, e2]
        have hb' : (36 : UInt8) ∉ (readByte r1).2.flat := by rw [a1.2]; exact hb.2
        have h36 : p ≠ 36 := fun e => hb.1 e.symm
        have hf := b1.2.symm
        have h1 := a2
        have h2 := b2
        simp only [andThen, if_neg h36]
        · split
          · exact agree_andThen (agree_line h1 h2 hf hb') fun l r1 r2 h1 h2 hf hb => agree_ret h1 h2 hf hb
          · split
            · exact agree_andThen (agree_line h1 h2 hf hb') fun l r1 r2 h1 h2 hf hb => agree_ret h1 h2 hf hb
            · split
              · exact agree_andThen (agree_int h1 h2 hf hb') fun l r1 r2 h1 h2 hf hb => agree_ret h1 h2 hf hb
              · split
                · refine agree_andThen (agree_int h1 h2 hf hb') fun n r1 r2 h1 h2 hf hb => ?_
                  exact agree_andThen (ih.2 _ _ _ h1 h2 hf hb) fun l r1 r2 h1 h2 hf hb => agree_ret h1 h2 hf hb
                · exact agree_ret h1 h2 hf hb'
    · cases k with
      | zero => exact agree_ret h1 h2 hf hb
      | succ k =>
        refine agree_andThen (ih.1 _ _ h1 h2 hf hb) fun m r1 r2 h1 h2 hf hb => ?_
        exact agree_andThen (ih.2 _ _ _ h1 h2 hf hb) fun l r1 r2 h1 h2 hf hb => agree_ret h1 h2 hf hb

/-! ## Copying -/

theorem copyN_at (p rest : Bytes) {r : Rd} (hw : r.WF) (hr : r.flat = p ++ rest) :
    ∃ r', copyN p.length r = (.ok (), p, r') ∧ r'.flat = rest ∧ r'.WF := by
  induction p generalizing r with
  | nil => exact ⟨r, rfl, hr, hw⟩
  | cons b p ih =>
    obtain ⟨r1, h1, h2, hw1⟩ := readByte_at hw (by simpa using hr)
    obtain ⟨r2, h3, h4⟩ := ih hw1 h2
    exact ⟨r2, by simp [copyN, h1, h3], h4⟩

theorem copyN_short (n : Nat) (p : Bytes) (hp : p.length < n) {r : Rd} (hw : r.WF) (hr : r.flat = p) :
    ∃ r', copyN n r = (.err .eof, p, r') := by
  induction p generalizing r n with
  | nil =>
    obtain ⟨a1, _⟩ := readByte_flat r hw
    rw [hr, flatByte, Prod.mk.injEq] at a1
    cases n with
    | zero => simp at hp
    | succ n =>
      have e1 : readByte r = (.err .eof, (readByte r).2) := by rw [← a1.1]
      exact ⟨(readByte r).2, by rw [copyN, e1]⟩
  | cons b p ih =>
    cases n with
    | zero => simp at hp
    | succ n =>
      obtain ⟨r1, h1, h2, hw1⟩ := readByte_at hw hr
      obtain ⟨r2, h3⟩ := ih n (by simp at hp; omega) hw1 h2
      exact ⟨r2, by simp [copyN, h1, h3]⟩

end Verif.Resp

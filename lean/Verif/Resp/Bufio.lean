import Verif.Base
/-!
# bufio.Reader over a network connection

A model of the documented behaviour of Go's `bufio.Reader` as used by redis/conn.go and
redis/rdb/rdb.go: `ReadByte`, `ReadLine`, `Read`.  The connection delivers the stream in chunks of
any sizes (one chunk at most per read of the connection) and then ends.  A connection never returns
zero bytes without an error, so empty chunks are skipped.  Error values other than "the stream
ended" (timeouts, resets) are not distinguished from it.
-/
namespace Verif.Resp

/-- `bufio.defaultBufSize`, the buffer of `bufio.NewReader`. -/
def bufSize : Nat := 4096

/-- A reader: unread buffered bytes, and the chunks still to come. -/
structure Rd where
  buf : Bytes
  net : List Bytes
deriving DecidableEq

/-- All bytes still to be read. -/
def Rd.flat (r : Rd) : Bytes := r.buf ++ r.net.flatten

/-- The buffer never holds more than its size. -/
def Rd.WF (r : Rd) : Prop := r.buf.length ≤ bufSize

/-- One `Read` of the connection into a slice of length `cap > 0`. -/
def netRead (cap : Nat) : List Bytes → Option (Bytes × List Bytes)
  | [] => none
  | [] :: cs => netRead cap cs
  | (b :: bs) :: cs => some ((b :: bs).take cap, (b :: bs).drop cap :: cs)

/-- bufio `fill`: one read into the free part of the buffer. -/
def fill (r : Rd) : Option Rd :=
  (netRead (bufSize - r.buf.length) r.net).map (fun p => ⟨r.buf ++ p.1, p.2⟩)

inductive RErr where
  | eof
  | syntaxErr
  | unknownProtocol
  | stuck
deriving DecidableEq, Repr

abbrev RRes (α : Type) := GoRes RErr α

/-- bufio `ReadByte`. -/
def readByte (r : Rd) : RRes UInt8 × Rd :=
  match r.buf with
  | b :: bs => (.ok b, { r with buf := bs })
  | [] =>
    match fill r with
    | none => (.err .eof, ⟨[], []⟩)
    | some r' =>
      match r'.buf with
      | b :: bs => (.ok b, { r' with buf := bs })
      | [] => (.err .eof, r')

/-- Cut behind the first newline. -/
def splitNL : Bytes → Option (Bytes × Bytes)
  | [] => none
  | b :: bs => if b = 10 then some ([10], bs) else (splitNL bs).map (fun p => (b :: p.1, p.2))

/-- Results of bufio `ReadSlice('\n')`. -/
inductive Slice where
  | line (l : Bytes)
  | full (l : Bytes)
  | eof (l : Bytes)

/-- bufio `ReadSlice('\n')`; the first argument bounds the number of reads (each adds a byte). -/
def readSlice : Nat → Rd → Slice × Rd
  | 0, r => (.eof [], r)
  | f + 1, r =>
    match splitNL r.buf with
    | some (l, rest) => (.line l, { r with buf := rest })
    | none =>
      if bufSize ≤ r.buf.length then (.full r.buf, { r with buf := [] })
      else match fill r with
        | none => (.eof r.buf, ⟨[], []⟩)
        | some r' => readSlice f r'

/-- Drop a trailing "\n" and a "\r" before it. -/
def dropEOL (l : Bytes) : Bytes :=
  let x := l.dropLast
  if x.getLast? = some 13 then x.dropLast else x

/-- bufio `ReadLine`, without the `isPrefix` result (which conn.go always ignores). -/
def readLine (r : Rd) : RRes Bytes × Rd :=
  match readSlice (bufSize + 1) r with
  | (.line l, r') => (.ok (dropEOL l), r')
  | (.full l, r') => if l.getLast? = some 13 then (.ok l.dropLast, { r' with buf := [13] }) else (.ok l, r')
  | (.eof [], r') => (.err .eof, r')
  | (.eof l, r') => (.ok l, r')

/-- bufio `Read(p)` with `len(p) = n`: at most one read of the connection; may be short. -/
def read (n : Nat) (r : Rd) : RRes Bytes × Rd :=
  if n = 0 then (.ok [], r)
  else match r.buf with
    | _ :: _ => (.ok (r.buf.take n), { r with buf := r.buf.drop n })
    | [] =>
      if bufSize ≤ n then
        match netRead n r.net with
        | none => (.err .eof, ⟨[], []⟩)
        | some (d, net) => (.ok d, ⟨[], net⟩)
      else
        match netRead bufSize r.net with
        | none => (.err .eof, ⟨[], []⟩)
        | some (d, net) => (.ok (d.take n), ⟨d.drop n, net⟩)

/-! ## What each of them does on the undivided stream -/

theorem netRead_none {cap : Nat} {net : List Bytes} (h : netRead cap net = none) : net.flatten = [] := by
  induction net with
  | nil => rfl
  | cons c cs ih =>
    cases c with
    | nil => simpa [netRead] using ih h
    | cons b bs => simp [netRead] at h

theorem netRead_some {cap : Nat} {net net' : List Bytes} {d : Bytes} (hc : 0 < cap)
    (h : netRead cap net = some (d, net')) :
    net.flatten = d ++ net'.flatten ∧ d ≠ [] ∧ d.length ≤ cap := by
  induction net with
  | nil => simp [netRead] at h
  | cons c cs ih =>
    cases c with
    | nil => simpa [netRead] using ih h
    | cons b bs =>
      simp only [netRead, Option.some.injEq, Prod.mk.injEq] at h
      obtain ⟨rfl, rfl⟩ := h
      refine ⟨?_, ?_, ?_⟩
      · rw [List.flatten_cons, List.flatten_cons, ← List.append_assoc, List.take_append_drop]
      · cases cap with
        | zero => omega
        | succ n => simp
      · simp; omega

theorem fill_none {r : Rd} (h : fill r = none) : r.flat = r.buf := by
  simp only [fill, Option.map_eq_none_iff] at h
  simp [Rd.flat, netRead_none h]

theorem fill_some {r r' : Rd} (hl : r.buf.length < bufSize) (h : fill r = some r') :
    r'.flat = r.flat ∧ ∃ d, r'.buf = r.buf ++ d ∧ d ≠ [] ∧ r'.buf.length ≤ bufSize := by
  simp only [fill, Option.map_eq_some_iff] at h
  obtain ⟨⟨d, net'⟩, h1, rfl⟩ := h
  obtain ⟨h2, h3, h4⟩ := netRead_some (by omega) h1
  refine ⟨?_, d, rfl, h3, ?_⟩
  · simp [Rd.flat, h2]
  · simp; omega

/-- `ReadByte` on the undivided stream. -/
def flatByte : Bytes → RRes UInt8 × Bytes
  | [] => (.err .eof, [])
  | b :: bs => (.ok b, bs)

theorem readByte_flat (r : Rd) (hw : r.WF) :
    ((readByte r).1, (readByte r).2.flat) = flatByte r.flat ∧ (readByte r).2.WF := by
  obtain ⟨buf, net⟩ := r
  cases buf with
  | cons b bs =>
    simp only [readByte, Rd.flat, flatByte, List.cons_append, Rd.WF] at hw ⊢
    refine ⟨trivial, ?_⟩
    simp at hw
    omega
  | nil =>
    simp only [readByte]
    cases hf : fill ⟨[], net⟩ with
    | none =>
      have := fill_none hf
      rw [this]
      exact ⟨rfl, by simp [Rd.WF]⟩
    | some r' =>
      obtain ⟨h1, d, h2, h3, h4⟩ := fill_some (by simp [bufSize]) hf
      rw [← h1]
      obtain ⟨buf', net'⟩ := r'
      simp only [List.nil_append] at h2
      subst h2
      cases buf' with
      | nil => exact absurd rfl h3
      | cons b bs =>
        refine ⟨rfl, ?_⟩
        simp only [Rd.WF]
        simp at h4
        omega

theorem splitNL_some {s l t : Bytes} (h : splitNL s = some (l, t)) :
    s = l ++ t ∧ ∃ x, l = x ++ [10] ∧ (10 : UInt8) ∉ x := by
  induction s generalizing l with
  | nil => simp [splitNL] at h
  | cons b bs ih =>
    simp only [splitNL] at h
    split at h
    · rename_i e
      simp at h
      obtain ⟨rfl, rfl⟩ := h
      exact ⟨by simp [e], [], rfl, by simp⟩
    · rename_i e
      simp only [Option.map_eq_some_iff, Prod.mk.injEq] at h
      obtain ⟨⟨l', t'⟩, h1, rfl, rfl⟩ := h
      obtain ⟨h2, x, h3, h4⟩ := ih h1
      refine ⟨by simp [h2], b :: x, by simp [h3], ?_⟩
      simp only [List.mem_cons, not_or]
      exact ⟨fun h => e h.symm, h4⟩

theorem splitNL_none_iff (s : Bytes) : splitNL s = none ↔ (10 : UInt8) ∉ s := by
  induction s with
  | nil => simp [splitNL]
  | cons b bs ih =>
    simp only [splitNL]
    split
    · rename_i e; simp [e]
    · rename_i e
      simp only [Option.map_eq_none_iff, ih, List.mem_cons, not_or]
      exact ⟨fun h => ⟨fun h' => e h'.symm, h⟩, fun h => h.2⟩

theorem splitNL_append {x t : Bytes} (h : (10 : UInt8) ∉ x) : splitNL (x ++ 10 :: t) = some (x ++ [10], t) := by
  induction x with
  | nil => simp [splitNL]
  | cons b bs ih =>
    simp only [List.mem_cons, not_or] at h
    simp only [List.cons_append, splitNL]
    rw [if_neg (fun e => h.1 e.symm), ih h.2]
    rfl

/-- `ReadLine` on the undivided stream: a line that ends within the first `bufSize` bytes, else a
piece of `bufSize` bytes (one less if it would end in "\r"), else what is left. -/
def flatLine (s : Bytes) : RRes Bytes × Bytes :=
  match splitNL (s.take bufSize) with
  | some (l, _) => (.ok (dropEOL l), s.drop l.length)
  | none =>
    if bufSize ≤ s.length then
      if (s.take bufSize).getLast? = some 13 then (.ok (s.take bufSize).dropLast, s.drop (bufSize - 1))
      else (.ok (s.take bufSize), s.drop bufSize)
    else if s = [] then (.err .eof, []) else (.ok s, [])

/-- `ReadSlice` on the undivided stream. -/
def flatSlice (s : Bytes) : Slice × Bytes :=
  match splitNL (s.take bufSize) with
  | some (l, _) => (.line l, s.drop l.length)
  | none => if bufSize ≤ s.length then (.full (s.take bufSize), s.drop bufSize) else (.eof s, [])

theorem readSlice_flat (f : Nat) (r : Rd) (hw : r.WF) (hf : bufSize < f + r.buf.length) :
    ((readSlice f r).1, (readSlice f r).2.flat) = flatSlice r.flat ∧ (readSlice f r).2.WF ∧
    (∀ l, (readSlice f r).1 = .full l → (readSlice f r).2.buf = []) := by
  induction f generalizing r with
  | zero => simp only [Rd.WF] at hw; omega
  | succ f ih =>
    simp only [readSlice]
    have hw' : r.buf.length ≤ bufSize := hw
    cases hs : splitNL r.buf with
    | some p =>
      obtain ⟨l, t⟩ := p
      obtain ⟨h1, x, h2, h3⟩ := splitNL_some hs
      simp only
      have htake : splitNL (r.flat.take bufSize) = some (l, (t ++ r.net.flatten).take (bufSize - l.length)) := by
        have : r.flat = l ++ (t ++ r.net.flatten) := by simp [Rd.flat, h1]
        rw [this, List.take_append, List.take_of_length_le (by rw [h1] at hw'; simp at hw'; omega), h2,
          List.append_assoc, List.singleton_append, splitNL_append h3]
      refine ⟨?_, ?_, by simp⟩
      · simp only [flatSlice, htake]
        have : r.flat = l ++ (t ++ r.net.flatten) := by simp [Rd.flat, h1]
        rw [this, List.drop_left]
        rfl
      · simp only [Rd.WF]; rw [h1] at hw'; simp at hw'; omega
    | none =>
      simp only
      by_cases hfull : bufSize ≤ r.buf.length
      · have he : r.buf.length = bufSize := by omega
        simp only [hfull, if_true]
        have htake : r.flat.take bufSize = r.buf := by
          simp [Rd.flat, ← he]
        have hdrop : r.flat.drop bufSize = r.net.flatten := by
          simp [Rd.flat, ← he]
        refine ⟨?_, by simp [Rd.WF], by simp⟩
        simp only [flatSlice, htake, hs, hdrop]
        rw [if_pos (by simp [Rd.flat]; omega)]
        rfl
      · simp only [hfull, if_false]
        cases hfi : fill r with
        | none =>
          have := fill_none hfi
          refine ⟨?_, by simp [Rd.WF], by simp⟩
          simp only [flatSlice]
          rw [this, List.take_of_length_le hw', hs]
          simp [hfull, Rd.flat]
        | some r' =>
          obtain ⟨h1, d, h2, h3, h4⟩ := fill_some (by omega) hfi
          simp only
          rw [← h1]
          refine ih r' h4 ?_
          have : 0 < d.length := List.length_pos_iff.mpr h3
          rw [h2]; simp; omega

theorem readLine_flat (r : Rd) (hw : r.WF) :
    ((readLine r).1, (readLine r).2.flat) = flatLine r.flat ∧ (readLine r).2.WF := by
  obtain ⟨h1, h2, h3⟩ := readSlice_flat (bufSize + 1) r hw (by omega)
  unfold readLine flatLine
  unfold flatSlice at h1
  generalize readSlice (bufSize + 1) r = q at h1 h2 h3 ⊢
  obtain ⟨sl, r'⟩ := q
  simp only at h1 h2 h3
  cases hs : splitNL (r.flat.take bufSize) with
  | some p =>
    simp only [hs, Prod.mk.injEq] at h1
    obtain ⟨rfl, h1⟩ := h1
    exact ⟨by rw [h1], h2⟩
  | none =>
    simp only [hs] at h1
    by_cases hfull : bufSize ≤ r.flat.length
    · simp only [hfull, if_true, Prod.mk.injEq] at h1
      obtain ⟨rfl, h1⟩ := h1
      simp only [hfull, if_true]
      have hb := h3 _ rfl
      by_cases hcr : (r.flat.take bufSize).getLast? = some 13
      · simp only [hcr, if_true]
        refine ⟨?_, by simp [Rd.WF, bufSize]⟩
        refine Prod.ext rfl ?_
        simp only [Rd.flat]
        have hn : r'.net.flatten = r.flat.drop bufSize := by
          rw [← h1]; simp [Rd.flat, hb]
        rw [hn]
        have hlt : bufSize - 1 < r.flat.length := by simp only [bufSize] at hfull ⊢; omega
        rw [← Rd.flat, List.drop_eq_getElem_cons hlt]
        have : (bufSize - 1) + 1 = bufSize := rfl
        rw [this]
        rw [List.getLast?_eq_getElem?] at hcr
        have hlen : (r.flat.take bufSize).length = bufSize := by simp; omega
        rw [hlen, List.getElem?_take_of_lt (by simp [bufSize])] at hcr
        rw [List.getElem?_eq_getElem hlt] at hcr
        rw [Option.some.inj hcr]
        rfl
      · simp only [hcr, if_false]
        exact ⟨by rw [h1], h2⟩
    · simp only [hfull, if_false, Prod.mk.injEq] at h1
      obtain ⟨rfl, h1⟩ := h1
      simp only [hfull, if_false]
      cases hfl : r.flat with
      | nil => simp only [if_true]; exact ⟨by rw [h1], h2⟩
      | cons b bs => exact ⟨by simp [h1], h2⟩

/-- `Read` takes a prefix of the stream: the whole request, or less. -/
theorem read_flat (n : Nat) (r : Rd) (hw : r.WF) :
    (∃ d, (read n r).1 = .ok d ∧ r.flat = d ++ (read n r).2.flat ∧ d.length ≤ n ∧ (0 < n → d ≠ [])) ∧ (read n r).2.WF ∨
    ((read n r).1 = .err .eof ∧ r.flat = [] ∧ 0 < n ∧ (read n r).2.WF) := by
  unfold read
  by_cases h0 : n = 0
  · subst h0; exact .inl ⟨⟨[], by simp⟩, by simpa using hw⟩
  · simp only [h0, if_false]
    obtain ⟨buf, net⟩ := r
    cases buf with
    | cons b bs =>
      refine .inl ⟨⟨(b :: bs).take n, rfl, ?_, by simp; omega, fun h => by cases n <;> simp_all⟩, ?_⟩
      · simp only [Rd.flat]; rw [← List.append_assoc, List.take_append_drop]
      · simp only [Rd.WF] at hw ⊢; simp at hw ⊢; omega
    | nil =>
      simp only
      by_cases hb : bufSize ≤ n
      · simp only [hb, if_true]
        cases hn : netRead n net with
        | none =>
          exact .inr ⟨rfl, by simp [Rd.flat, netRead_none hn], by omega, by simp [Rd.WF]⟩
        | some p =>
          obtain ⟨d, net'⟩ := p
          obtain ⟨h1, h2, h3⟩ := netRead_some (by omega) hn
          exact .inl ⟨⟨d, rfl, by simp [Rd.flat, h1], h3, fun _ => h2⟩, by simp [Rd.WF]⟩
      · simp only [hb, if_false]
        cases hn : netRead bufSize net with
        | none =>
          exact .inr ⟨rfl, by simp [Rd.flat, netRead_none hn], by omega, by simp [Rd.WF]⟩
        | some p =>
          obtain ⟨d, net'⟩ := p
          obtain ⟨h1, h2, h3⟩ := netRead_some (by simp [bufSize]) hn
          refine .inl ⟨⟨d.take n, rfl, ?_, by simp; omega, ?_⟩, ?_⟩
          · simp only [Rd.flat, h1, List.nil_append]; rw [← List.append_assoc, List.take_append_drop]
          · intro _; cases d <;> cases n <;> simp_all
          · simp only [Rd.WF]; simp; omega

end Verif.Resp

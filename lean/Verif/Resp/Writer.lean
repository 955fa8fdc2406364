import Verif.Resp.Props
/-!
# bufio.Writer, and the two places that use it

Source: redis/conn.go:39-47 `Send` (requests to the server) and redis/conn.go:105-174
`ReadWithWriter` (the snapshot file).  `bufio.Writer` is modelled after its documented behaviour:
a buffer of 4096 bytes, `Write`, `WriteByte`, `Flush`, and an error that stays once it happened.
What lies below (a connection or a file) may fail at any of its writes, after taking any part of
the bytes; after a failure it may also work again.
-/
namespace Verif.Resp

/-- A writer: buffered bytes, whether an error happened, what reached the other side, and the
outcome of the writes to come: `none` takes everything, `some n` takes `n` bytes and fails.  Behind
the end of the list all writes succeed. -/
structure Wr where
  buf : Bytes
  err : Bool
  out : Bytes
  net : List (Option Nat)
deriving DecidableEq

/-- `bufio.NewWriter` -/
def Wr.fresh (net : List (Option Nat)) : Wr := ⟨[], false, [], net⟩

/-- One `Write(p)` of the connection or the file: the number of bytes taken, and whether it failed. -/
def netWrite (p : Bytes) (w : Wr) : Nat × Bool × Wr :=
  match w.net with
  | [] => (p.length, false, { w with out := w.out ++ p })
  | none :: ns => (p.length, false, { w with out := w.out ++ p, net := ns })
  | some n :: ns => (min n p.length, true, { w with out := w.out ++ p.take n, net := ns })

/-- bufio `Flush`; the result is whether it succeeded. -/
def flush (w : Wr) : Bool × Wr :=
  if w.err then (false, w)
  else if w.buf = [] then (true, w)
  else
    match netWrite w.buf w with
    | (n, true, w') => (false, { w' with buf := w.buf.drop n, err := true })
    | (_, false, w') => (true, { w' with buf := [] })

/-- The loop of bufio `Write`: while the rest does not fit, write through (empty buffer) or fill the
buffer and flush.  The first argument bounds the number of rounds. -/
def writeLoop : Nat → Bytes → Wr → Bytes × Wr
  | 0, p, w => (p, w)
  | f + 1, p, w =>
    if bufSize - w.buf.length < p.length ∧ w.err = false then
      if w.buf = [] then
        match netWrite p w with
        | (n, e, w') => writeLoop f (p.drop n) { w' with err := e }
      else
        let n := bufSize - w.buf.length
        writeLoop f (p.drop n) (flush { w with buf := w.buf ++ p.take n }).2
    else (p, w)

/-- bufio `Write(p)`; the result is whether it succeeded. -/
def write (p : Bytes) (w : Wr) : Bool × Wr :=
  match writeLoop (p.length + 2) p w with
  | (rest, w') => if w'.err then (false, w') else (true, { w' with buf := w'.buf ++ rest })

/-- bufio `WriteByte`; the result is whether it succeeded. -/
def writeByte (b : UInt8) (w : Wr) : Bool × Wr :=
  if w.err then (false, w)
  else if bufSize ≤ w.buf.length then
    match flush w with
    | (false, w') => (false, w')
    | (true, w') => (true, { w' with buf := w'.buf ++ [b] })
  else (true, { w with buf := w.buf ++ [b] })

/-- `(*Conn).Send` (redis/conn.go:39-47); the result is whether it returned nil. -/
def send (m : Msg) (w : Wr) : Bool × Wr :=
  match write (ser m) w with
  | (false, w') => (false, w')
  | (true, w') => flush w'

/-- A series of `Send` calls on one connection: their results, and the writer. -/
def sendAll : List Msg → Wr → List Bool × Wr
  | [], w => ([], w)
  | m :: ms, w => ((send m w).1 :: (sendAll ms (send m w).2).1, (sendAll ms (send m w).2).2)

/-! ## ReadWithWriter, with a writer that may fail -/

/-- The errors of `ReadWithWriter`: from the connection, or from the file. -/
inductive SaveErr where
  | read (e : RErr)
  | write
deriving DecidableEq

/-- The loop of redis/conn.go:130-138. -/
def copyTo : Nat → Rd → Wr → GoRes SaveErr Unit × Wr × Rd
  | 0, r, w => (.ok (), w, r)
  | n + 1, r, w =>
    match readByte r with
    | (.err e, r) => (.err (.read e), w, r)
    | (.panic, r) => (.panic, w, r)
    | (.ok b, r) =>
      match writeByte b w with
      | (false, w) => (.err .write, w, r)
      | (true, w) => copyTo n r w

/-- redis/conn.go:117-173: the `switch` of `ReadWithWriter`. -/
def saveBody (r : Rd) (w : Wr) : GoRes SaveErr RWW × Wr × Rd :=
  match readByte r with
  | (.err e, r) => (.err (.read e), w, r)
  | (.panic, r) => (.panic, w, r)
  | (.ok p, r) =>
    if p = 36 then
      match readInt r with
      | (.err e, r) => (.err (.read e), w, r)
      | (.panic, r) => (.panic, w, r)
      | (.ok n, r) =>
        match copyTo n.toInt.toNat r w with
        | (.ok (), w, r) => (.ok (p, n.toInt), w, r)
        | (.err e, w, r) => (.err e, w, r)
        | (.panic, w, r) => (.panic, w, r)
    else if p = 43 ∨ p = 45 ∨ p = 58 then
      match readLine r with
      | (.ok l, r) =>
        match write l w with
        | (true, w) => (.ok (p, l.length), w, r)
        | (false, w) => (.err .write, w, r)
      | (.err e, r) => (.err (.read e), w, r)
      | (.panic, r) => (.panic, w, r)
    else if p = 42 then
      match readInt r with
      | (.ok n, r) => (.ok (p, n.toInt), w, r)
      | (.err e, r) => (.err (.read e), w, r)
      | (.panic, r) => (.panic, w, r)
    else (.err (.read .unknownProtocol), w, r)

/-- `ReadWithWriter` (redis/conn.go:105-174) onto a file with the write outcomes `net`: the result,
the content of the file, the reader.  The deferred `Flush` runs last, its error is dropped. -/
def saveTo (r : Rd) (net : List (Option Nat)) : GoRes SaveErr RWW × Bytes × Rd :=
  match saveBody r (Wr.fresh net) with
  | (x, w, r) => (x, (flush w).2.out, r)

/-! ## What the operations do to the bytes -/

/-- The buffer is not overfull. -/
def Wr.WF (w : Wr) : Prop := w.buf.length ≤ bufSize

theorem netWrite_cases (p : Bytes) (w : Wr) :
    (∃ ns, netWrite p w = (p.length, false, { w with out := w.out ++ p, net := ns })) ∨
    (∃ n ns, netWrite p w = (min n p.length, true, { w with out := w.out ++ p.take n, net := ns })) := by
  unfold netWrite
  obtain ⟨buf, err, out, net⟩ := w
  cases net with
  | nil => exact .inl ⟨[], rfl⟩
  | cons o ns =>
    cases o with
    | none => exact .inl ⟨ns, rfl⟩
    | some n => exact .inr ⟨n, ns, rfl⟩

/-- What an operation that adds the bytes `p` does: without an error, all bytes are out or in the
buffer; with an error, a part went out. -/
structure Adds (p : Bytes) (w w' : Wr) : Prop where
  wf : w'.WF
  good : w'.err = false → w'.out ++ w'.buf = w.out ++ w.buf ++ p
  grows : w.out <+: w'.out
  bounded : w'.out <+: w.out ++ w.buf ++ p

theorem flush_adds {w : Wr} (hw : w.WF) (he : w.err = false) :
    Adds [] w (flush w).2 ∧ (flush w).1 = !(flush w).2.err ∧ ((flush w).1 = true → (flush w).2.buf = []) := by
  unfold flush
  simp only [he, Bool.false_eq_true, if_false]
  by_cases hb : w.buf = []
  · simp only [hb, if_true]
    exact ⟨⟨hw, fun _ => by simp [hb], List.prefix_refl _, by simp [hb]⟩, by simp [he], fun _ => trivial⟩
  · simp only [hb, if_false]
    rcases netWrite_cases w.buf w with ⟨ns, h⟩ | ⟨n, ns, h⟩
    · rw [h]
      refine ⟨⟨?_, fun _ => by simp, List.prefix_append _ _, by simp⟩, by simp [he], fun _ => rfl⟩
      simp [Wr.WF]
    · rw [h]
      refine ⟨⟨?_, fun h => absurd h (by simp), List.prefix_append _ _, ?_⟩, rfl, fun h => absurd h (by simp)⟩
      · have : w.buf.length ≤ bufSize := hw
        simp only [Wr.WF, List.length_drop]; omega
      · simp only [List.append_nil]
        exact List.prefix_append_right_inj _ |>.mpr (List.take_prefix _ _)

theorem flush_err {w : Wr} (he : w.err = true) : flush w = (false, w) := by simp [flush, he]

theorem Adds.trans {p q : Bytes} {w w' w'' : Wr} (h : Adds p w w') (h' : Adds q w' w'') (hs : w'.err = true → w''.out = w'.out ∧ w''.err = true) :
    Adds (p ++ q) w w'' := by
  refine ⟨h'.wf, ?_, h.grows.trans h'.grows, ?_⟩
  · intro he
    cases hw : w'.err with
    | true => rw [(hs hw).2] at he; cases he
    | false => rw [h'.good he, h.good hw]; simp
  · cases hw : w'.err with
    | true =>
      rw [(hs hw).1]
      exact h.bounded.trans (by rw [← List.append_assoc]; exact List.prefix_append _ _)
    | false =>
      have := h'.bounded
      rw [h.good hw] at this
      simpa using this

theorem writeLoop_adds (f : Nat) (p : Bytes) (w : Wr) (hw : w.WF) (he : w.err = false)
    (hf : p.length + (if w.buf = [] then 0 else 1) < f) :
    ∃ q, Adds q w (writeLoop f p w).2 ∧ q ++ (writeLoop f p w).1 = p ∧
      ((writeLoop f p w).2.err = false → (writeLoop f p w).1.length + (writeLoop f p w).2.buf.length ≤ bufSize) := by
  induction f generalizing p w with
  | zero => omega
  | succ f ih =>
    have hwl : w.buf.length ≤ bufSize := hw
    unfold writeLoop
    by_cases hc : bufSize - w.buf.length < p.length ∧ w.err = false
    · rw [if_pos hc]
      have stop : ∀ (p : Bytes) (w : Wr), w.err = true → writeLoop f p w = (p, w) := by
        intro p w h
        cases f with
        | zero => rfl
        | succ f => unfold writeLoop; rw [if_neg (by simp [h])]
      by_cases hb : w.buf = []
      · rw [if_pos hb]
        rcases netWrite_cases p w with ⟨ns, h⟩ | ⟨n, ns, h⟩
        · rw [h]
          simp only [List.drop_length]
          obtain ⟨q, h1, h2, h3⟩ := ih [] { w with out := w.out ++ p, net := ns, err := false } hw rfl (by simp [hb]; have := hc.1; omega)
          simp only [List.append_eq_nil_iff] at h2
          refine ⟨p ++ q, Adds.trans (w' := { w with out := w.out ++ p, net := ns, err := false }) ⟨hw, fun _ => by simp [hb], List.prefix_append _ _, by simp [hb]⟩ h1 (fun h => absurd h (by simp)), ?_, h3⟩
          rw [h2.1, h2.2]; simp
        · rw [h]
          simp only
          rw [stop _ _ rfl]
          refine ⟨p.take (min n p.length), ⟨hw, fun h => absurd h (by simp), List.prefix_append _ _, ?_⟩, List.take_append_drop _ _, fun h => absurd h (by simp)⟩
          have : p.take (min n p.length) = p.take n := by
            rcases Nat.le_total n p.length with h | h
            · rw [Nat.min_eq_left h]
            · rw [Nat.min_eq_right h, List.take_of_length_le (Nat.le_refl _), List.take_of_length_le h]
          simp [hb, this]
      · rw [if_neg hb]
        simp only
        have hw1 : Wr.WF { w with buf := w.buf ++ p.take (bufSize - w.buf.length) } := by
          simp only [Wr.WF, List.length_append, List.length_take]; omega
        obtain ⟨a1, a2, a3⟩ := flush_adds hw1 he
        have a0 : Adds (p.take (bufSize - w.buf.length)) w { w with buf := w.buf ++ p.take (bufSize - w.buf.length) } :=
          ⟨hw1, fun _ => by simp, List.prefix_refl _, by simp⟩
        have a := a0.trans a1 (fun h => by simp [he] at h)
        rw [List.append_nil] at a
        generalize flush { w with buf := w.buf ++ p.take (bufSize - w.buf.length) } = x at a1 a2 a3 a
        obtain ⟨ok, w'⟩ := x
        simp only at a1 a2 a3 a ⊢
        cases hw' : w'.err with
        | true =>
          rw [stop _ _ hw']
          exact ⟨_, a, List.take_append_drop _ _, fun h => by simp [hw'] at h⟩
        | false =>
          have hok : ok = true := by rw [a2, hw']; rfl
          have hbuf := a3 hok
          obtain ⟨q, h1, h2, h3⟩ := ih (p.drop (bufSize - w.buf.length)) w' a.wf hw' (by
            rw [if_neg hb] at hf
            simp only [hbuf, if_true, List.length_drop]; omega)
          refine ⟨_, a.trans h1 (fun h => by simp [hw'] at h), ?_, h3⟩
          rw [List.append_assoc, h2, List.take_append_drop]
    · rw [if_neg hc]
      refine ⟨[], ⟨hw, fun _ => by simp, List.prefix_refl _, by simp⟩, by simp, fun _ => ?_⟩
      have : ¬ bufSize - w.buf.length < p.length := fun h => hc ⟨h, he⟩
      simp only; omega

theorem write_adds (p : Bytes) {w : Wr} (hw : w.WF) (he : w.err = false) :
    Adds p w (write p w).2 ∧ (write p w).1 = !(write p w).2.err := by
  obtain ⟨q, h1, h2, h3⟩ := writeLoop_adds (p.length + 2) p w hw he (by split <;> omega)
  unfold write
  generalize writeLoop (p.length + 2) p w = x at h1 h2 h3
  obtain ⟨rest, w'⟩ := x
  simp only at h1 h2 h3 ⊢
  cases hw' : w'.err with
  | true =>
    simp only [if_true]
    refine ⟨⟨h1.wf, fun h => by simp [hw'] at h, h1.grows, h1.bounded.trans ?_⟩, by simp [hw']⟩
    rw [← h2, ← List.append_assoc]; exact List.prefix_append _ _
  | false =>
    simp only [Bool.false_eq_true, if_false]
    refine ⟨⟨?_, fun _ => ?_, h1.grows, h1.bounded.trans ?_⟩, by simp [hw']⟩
    · have := h3 hw'; simp only [Wr.WF, List.length_append]; omega
    · rw [← List.append_assoc, h1.good hw', ← h2]; simp
    · rw [← h2, ← List.append_assoc]; exact List.prefix_append _ _

theorem write_err (p : Bytes) {w : Wr} (he : w.err = true) : write p w = (false, w) := by
  unfold write writeLoop
  rw [if_neg (by simp [he])]
  simp [he]

/-- One `Send` on a connection without an error and with an empty buffer. -/
theorem send_fresh (m : Msg) {w : Wr} (hb : w.buf = []) (he : w.err = false) :
    ((send m w).1 = true ∧ (send m w).2.err = false ∧ (send m w).2.buf = [] ∧ (send m w).2.out = w.out ++ ser m) ∨
    ((send m w).1 = false ∧ (send m w).2.err = true ∧ ∃ p, p <+: ser m ∧ (send m w).2.out = w.out ++ p) := by
  have hw : w.WF := by simp [Wr.WF, hb]
  obtain ⟨h1, h2⟩ := write_adds (ser m) hw he
  have fin : ∀ w' : Wr, w.out <+: w'.out → w'.out <+: w.out ++ w.buf ++ ser m → ∃ p, p <+: ser m ∧ w'.out = w.out ++ p := by
    intro w' a b
    obtain ⟨p, hp⟩ := a
    rw [← hp, hb, List.append_nil] at b
    exact ⟨p, (List.prefix_append_right_inj _).mp b, hp.symm⟩
  unfold send
  generalize write (ser m) w = x at h1 h2
  obtain ⟨ok, w'⟩ := x
  simp only at h1 h2 ⊢
  cases hw' : w'.err with
  | true =>
    rw [hw'] at h2
    simp only [Bool.not_true] at h2
    subst h2
    exact .inr ⟨rfl, hw', fin w' h1.grows h1.bounded⟩
  | false =>
    rw [hw'] at h2
    simp only [Bool.not_false] at h2
    subst h2
    simp only
    obtain ⟨a1, a2, a3⟩ := flush_adds h1.wf hw'
    have a := h1.trans a1 (fun h => by simp [hw'] at h)
    rw [List.append_nil] at a
    generalize flush w' = y at a1 a2 a3 a
    obtain ⟨ok, w''⟩ := y
    simp only at a1 a2 a3 a ⊢
    cases hw'' : w''.err with
    | true =>
      rw [hw''] at a2
      simp only [Bool.not_true] at a2
      exact .inr ⟨a2, rfl, fin w'' a.grows a.bounded⟩
    | false =>
      rw [hw''] at a2
      simp only [Bool.not_false] at a2
      have hg := a.good hw''
      rw [a3 a2, hb] at hg
      exact .inl ⟨a2, rfl, a3 a2, by simpa using hg⟩

theorem send_err (m : Msg) {w : Wr} (he : w.err = true) : send m w = (false, w) := by
  simp [send, write_err _ he]

theorem sendAll_err (ms : List Msg) {w : Wr} (he : w.err = true) : sendAll ms w = (List.replicate ms.length false, w) := by
  induction ms with
  | nil => rfl
  | cons m ms ih => simp only [sendAll, send_err m he, ih, List.length_cons, List.replicate_succ]

theorem writeByte_adds (b : UInt8) {w : Wr} (hw : w.WF) (he : w.err = false) :
    Adds [b] w (writeByte b w).2 ∧ (writeByte b w).1 = !(writeByte b w).2.err := by
  unfold writeByte
  simp only [he, Bool.false_eq_true, if_false]
  by_cases hb : bufSize ≤ w.buf.length
  · rw [if_pos hb]
    obtain ⟨a1, a2, a3⟩ := flush_adds hw he
    generalize flush w = x at a1 a2 a3
    obtain ⟨ok, w'⟩ := x
    simp only at a1 a2 a3
    cases ok with
    | false =>
      have e : w'.err = true := by simpa using a2.symm
      refine ⟨⟨a1.wf, fun h => by simp [e] at h, a1.grows, a1.bounded.trans ?_⟩, by simp [e]⟩
      rw [List.append_nil]; exact List.prefix_append _ _
    | true =>
      have e : w'.err = false := by simpa using a2.symm
      have hbuf := a3 rfl
      refine ⟨⟨?_, fun _ => ?_, a1.grows, a1.bounded.trans ?_⟩, by simp [e]⟩
      · simp [Wr.WF, hbuf, bufSize]
      · have := a1.good e
        rw [← List.append_assoc, this, List.append_nil]
      · rw [List.append_nil]; exact List.prefix_append _ _
  · rw [if_neg hb]
    refine ⟨⟨?_, fun _ => by simp, List.prefix_refl _, ?_⟩, by simp [he]⟩
    · simp only [Wr.WF, List.length_append, List.length_cons, List.length_nil]; omega
    · rw [List.append_assoc]; exact List.prefix_append _ _

end Verif.Resp

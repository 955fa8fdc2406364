import Verif.Resp.Writer
/-!
# C107, C108: bytes on their way out
-/
namespace Verif.Resp

/-! ## C107: requests go out whole and in order -/

/-- C107: for every series of requests on one connection and however the connection fails, the calls
of `Send` succeed up to some point and fail from there on.  What arrived is exactly the requests
that succeeded, one behind the other, then at most a part of the first that failed, and nothing of
the later ones. -/
theorem C107_in_order (ms : List Msg) (net : List (Option Nat)) :
    ∃ k p, k ≤ ms.length ∧
      (sendAll ms (Wr.fresh net)).1 = List.replicate k true ++ List.replicate (ms.length - k) false ∧
      (sendAll ms (Wr.fresh net)).2.out = (ms.take k).flatMap ser ++ p ∧
      (match ms[k]? with
       | some m => p <+: ser m
       | none => p = []) := by
  suffices h : ∀ w : Wr, w.buf = [] → w.err = false → ∃ k p, k ≤ ms.length ∧
      (sendAll ms w).1 = List.replicate k true ++ List.replicate (ms.length - k) false ∧
      (sendAll ms w).2.out = w.out ++ (ms.take k).flatMap ser ++ p ∧
      (match ms[k]? with
       | some m => p <+: ser m
       | none => p = []) by
    simpa [Wr.fresh] using h (Wr.fresh net) rfl rfl
  induction ms with
  | nil => intro w _ _; exact ⟨0, [], Nat.le_refl _, rfl, by simp [sendAll], rfl⟩
  | cons m ms ih =>
    intro w hb he
    rcases send_fresh m hb he with ⟨h1, h2, h3, h4⟩ | ⟨h1, h2, p, h3, h4⟩
    · obtain ⟨k, p, a, b, c, d⟩ := ih _ h3 h2
      refine ⟨k + 1, p, by simp; omega, ?_, ?_, by simpa using d⟩
      · simp only [sendAll, h1, b, List.replicate_succ, List.length_cons, List.cons_append]
        congr 3; omega
      · simp only [sendAll, c, h4, List.take_succ_cons, List.flatMap_cons, List.append_assoc]
    · refine ⟨0, p, Nat.zero_le _, ?_, ?_, h3⟩
      · simp only [sendAll, h1, sendAll_err ms h2, List.replicate_zero, List.nil_append, List.length_cons, Nat.sub_zero,
          List.replicate_succ]
      · simp only [sendAll, sendAll_err ms h2, h4, List.take_zero, List.flatMap_nil, List.append_nil]

/-- A connection that takes the first request, then 5 bytes of the second. -/
example : sendAll [command [b!"get", b!"a"], command [b!"get", b!"b"], command [b!"get", b!"c"]] (Wr.fresh [none, some 5]) =
    ([true, false, false], ⟨(ser (command [b!"get", b!"b"])).drop 5, true,
      ser (command [b!"get", b!"a"]) ++ b!"*2\r\n$", []⟩) := by decide +kernel

/-! ### What the server makes of it, by the protocol's own rules -/

theorem specLen_mono {s t : Bytes} {a n : Nat} (h : specLen a s = some (n, t)) (q : Bytes) :
    specLen a (s ++ q) = some (n, t ++ q) := by
  induction s generalizing a with
  | nil => simp [specLen] at h
  | cons c s ih =>
    simp only [specLen, List.cons_append] at h ⊢
    by_cases hc : c = 13
    · rw [if_pos hc] at h ⊢
      cases s with
      | nil => simp at h
      | cons d s =>
        simp only [List.head?_cons, Option.some.injEq, List.tail_cons, List.cons_append] at h ⊢
        by_cases hd : d = 10
        · rw [if_pos hd] at h ⊢; simp only [Option.some.injEq, Prod.mk.injEq] at h ⊢; simp [h.1, h.2]
        · rw [if_neg hd] at h; cases h
    · rw [if_neg hc] at h ⊢
      by_cases hd : 48 ≤ c.toNat ∧ c.toNat ≤ 57
      · rw [if_pos hd] at h ⊢; exact ih h
      · rw [if_neg hd] at h; cases h

theorem specArg_mono {s t a : Bytes} (h : specArg s = some (a, t)) (q : Bytes) : specArg (s ++ q) = some (a, t ++ q) := by
  cases s with
  | nil => simp [specArg] at h
  | cons c s =>
    simp only [specArg, List.cons_append] at h ⊢
    by_cases hc : c ≠ 36
    · rw [if_pos hc] at h; cases h
    · rw [if_neg hc] at h ⊢
      cases hl : specLen 0 s with
      | none => rw [hl] at h; cases h
      | some x =>
        obtain ⟨n, u⟩ := x
        rw [hl] at h
        rw [specLen_mono hl q]
        simp only at h ⊢
        by_cases hn : n ≤ u.length ∧ (u.drop n).take 2 = [13, 10]
        · rw [if_pos hn] at h
          simp only [Option.some.injEq, Prod.mk.injEq] at h
          obtain ⟨rfl, rfl⟩ := h
          have hlen : n + 2 ≤ u.length := by
            have := congrArg List.length hn.2
            simp at this; omega
          rw [if_pos]
          · rw [List.take_append_of_le_length (by omega), List.drop_append_of_le_length hlen]
          · refine ⟨by simp; omega, ?_⟩
            rw [List.drop_append_of_le_length (by omega), List.take_append_of_le_length (by simp; omega)]
            exact hn.2
        · rw [if_neg hn] at h; cases h

theorem specArgs_mono {n : Nat} {s t : Bytes} {as : List Bytes} (h : specArgs n s = some (as, t)) (q : Bytes) :
    specArgs n (s ++ q) = some (as, t ++ q) := by
  induction n generalizing s as with
  | zero => simp only [specArgs, Option.some.injEq, Prod.mk.injEq] at h ⊢; simp [h.1, h.2]
  | succ n ih =>
    simp only [specArgs] at h ⊢
    cases ha : specArg s with
    | none => rw [ha] at h; cases h
    | some x =>
      obtain ⟨a, u⟩ := x
      rw [ha] at h
      rw [specArg_mono ha q]
      simp only [Option.map_eq_some_iff, Prod.mk.injEq] at h ⊢
      obtain ⟨⟨bs, v⟩, h1, rfl, rfl⟩ := h
      exact ⟨_, ih h1, rfl, rfl⟩

theorem specCommand_mono {s t : Bytes} {as : List Bytes} (h : specCommand s = some (as, t)) (q : Bytes) :
    specCommand (s ++ q) = some (as, t ++ q) := by
  cases s with
  | nil => simp [specCommand] at h
  | cons c s =>
    simp only [specCommand, List.cons_append] at h ⊢
    by_cases hc : c ≠ 42
    · rw [if_pos hc] at h; cases h
    · rw [if_neg hc] at h ⊢
      cases hl : specLen 0 s with
      | none => rw [hl] at h; cases h
      | some x =>
        obtain ⟨n, u⟩ := x
        rw [hl] at h
        rw [specLen_mono hl q]
        exact specArgs_mono h q

/-- The requests in a stream of bytes, by the rules of the protocol, and the incomplete rest. -/
inductive Requests : Bytes → List (List Bytes) → Bytes → Prop
  | done {s} : specCommand s = none → Requests s [] s
  | more {s t c cs rest} : specCommand s = some (c, t) → Requests t cs rest → Requests s (c :: cs) rest

theorem requests_append (cs : List (List Bytes)) {s rest : Bytes} {ds : List (List Bytes)} (h : Requests s ds rest) :
    Requests ((cs.map command).flatMap ser ++ s) (cs ++ ds) rest := by
  induction cs with
  | nil => exact h
  | cons c cs ih =>
    simp only [List.map_cons, List.flatMap_cons, List.append_assoc, List.cons_append]
    exact .more (C47_binary_safe c _) ih

/-- Part of a request is no request. -/
theorem requests_part {c : List Bytes} {p : Bytes} (h : p <+: ser (command c)) (hne : p ≠ ser (command c)) : specCommand p = none := by
  obtain ⟨q, hq⟩ := h
  cases hp : specCommand p with
  | none => rfl
  | some x =>
    obtain ⟨d, t⟩ := x
    have h1 := specCommand_mono hp q
    have h2 := C47_binary_safe c []
    rw [List.append_nil] at h2
    rw [hq, h2] at h1
    simp only [Option.some.injEq, Prod.mk.injEq] at h1
    have : q = [] := (List.append_eq_nil_iff.mp h1.2.symm).2
    rw [this, List.append_nil] at hq
    exact absurd hq hne

/-- C107: the server reads, by the rules of the protocol, exactly the commands whose `Send`
succeeded, in order, and possibly the first one whose `Send` failed (if the failure came behind its
last byte); it never reads a later one, nor anything else. -/
theorem C107_received (cs : List (List Bytes)) (net : List (Option Nat)) :
    ∃ k j rest, k ≤ cs.length ∧
      (sendAll (cs.map command) (Wr.fresh net)).1 = List.replicate k true ++ List.replicate (cs.length - k) false ∧
      (j = k ∨ j = k + 1 ∧ k < cs.length ∧ rest = []) ∧
      Requests (sendAll (cs.map command) (Wr.fresh net)).2.out (cs.take j) rest := by
  obtain ⟨k, p, h1, h2, h3, h4⟩ := C107_in_order (cs.map command) net
  rw [List.length_map] at h1 h2
  rw [h3]
  have e : ((cs.map command).take k).flatMap ser = ((cs.take k).map command).flatMap ser := by rw [List.map_take]
  rw [e]
  have hnil : specCommand [] = none := rfl
  rw [List.getElem?_map] at h4
  cases hk : cs[k]? with
  | none =>
    rw [hk] at h4
    simp only [Option.map_none] at h4
    subst h4
    refine ⟨k, k, [], h1, h2, .inl rfl, ?_⟩
    simpa using requests_append (cs.take k) (.done hnil)
  | some c =>
    rw [hk] at h4
    simp only [Option.map_some] at h4
    have hlt : k < cs.length := by
      rcases Nat.lt_or_ge k cs.length with h | h
      · exact h
      · rw [List.getElem?_eq_none h] at hk; cases hk
    by_cases hp : p = ser (command c)
    · refine ⟨k, k + 1, [], h1, h2, .inr ⟨rfl, hlt, rfl⟩, ?_⟩
      have hs : specCommand p = some (c, []) := by
        have := C47_binary_safe c []
        rwa [List.append_nil, ← hp] at this
      have := requests_append (cs.take k) (.more hs (.done hnil))
      rw [List.take_add_one, hk]
      exact this
    · refine ⟨k, k, p, h1, h2, .inl rfl, ?_⟩
      simpa using requests_append (cs.take k) (.done (requests_part h4 hp))

/-- Requests with an argument longer than the buffer, over a connection that fails late. -/
example : (sendAll ([[b!"set", b!"k", List.replicate 5000 120], [b!"get", b!"k"], [b!"get", b!"k"]].map command)
    (Wr.fresh [none, some 100])).1 = [true, false, false] := by decide +kernel

/-- C107: while the connection does not fail every request arrives, whatever its size. -/
theorem C107_reliable (ms : List Msg) (n : Nat) :
    (sendAll ms (Wr.fresh (List.replicate n none))).1 = List.replicate ms.length true ∧
    (sendAll ms (Wr.fresh (List.replicate n none))).2.out = ms.flatMap ser := by
  suffices h : ∀ w : Wr, w.buf = [] → w.err = false → (∃ n, w.net = List.replicate n none) →
      (sendAll ms w).1 = List.replicate ms.length true ∧ (sendAll ms w).2.out = w.out ++ ms.flatMap ser by
    simpa [Wr.fresh] using h (Wr.fresh (List.replicate n none)) rfl rfl ⟨n, rfl⟩
  have hnet : ∀ (p : Bytes) (w : Wr), (∃ n, w.net = List.replicate n none) →
      ∃ n, netWrite p w = (p.length, false, { w with out := w.out ++ p, net := List.replicate n none }) := by
    intro p w ⟨n, hn⟩
    obtain ⟨buf, err, out, net⟩ := w
    simp only at hn
    subst hn
    cases n with
    | zero => exact ⟨0, rfl⟩
    | succ n => exact ⟨n, rfl⟩
  have hflush : ∀ w : Wr, w.err = false → (∃ n, w.net = List.replicate n none) →
      (flush w).1 = true ∧ (flush w).2.err = false ∧ ∃ n, (flush w).2.net = List.replicate n none := by
    intro w he hn
    unfold flush
    simp only [he, Bool.false_eq_true, if_false]
    by_cases hb : w.buf = []
    · rw [if_pos hb]; exact ⟨rfl, he, hn⟩
    · rw [if_neg hb]
      obtain ⟨n, h⟩ := hnet w.buf w hn
      rw [h]; exact ⟨rfl, he, n, rfl⟩
  have hloop : ∀ f (p : Bytes) (w : Wr), w.err = false → (∃ n, w.net = List.replicate n none) →
      (writeLoop f p w).2.err = false ∧ ∃ n, (writeLoop f p w).2.net = List.replicate n none := by
    intro f
    induction f with
    | zero => intro p w he hn; exact ⟨he, hn⟩
    | succ f ih =>
      intro p w he hn
      unfold writeLoop
      split
      · split
        · obtain ⟨n, h⟩ := hnet p w hn
          rw [h]
          exact ih _ _ rfl ⟨n, rfl⟩
        · have := hflush { w with buf := w.buf ++ p.take (bufSize - w.buf.length) } he hn
          exact ih _ _ this.2.1 this.2.2
      · exact ⟨he, hn⟩
  have hsend : ∀ (m : Msg) (w : Wr), w.err = false → (∃ n, w.net = List.replicate n none) →
      (send m w).1 = true ∧ ∃ n, (send m w).2.net = List.replicate n none := by
    intro m w he hn
    obtain ⟨h1, h2⟩ := hloop ((ser m).length + 2) (ser m) w he hn
    unfold send write
    generalize writeLoop ((ser m).length + 2) (ser m) w = x at h1 h2
    obtain ⟨rest, w'⟩ := x
    simp only at h1 h2 ⊢
    rw [h1]
    simp only [Bool.false_eq_true, if_false]
    have := hflush { w' with buf := w'.buf ++ rest } h1 h2
    rw [h1] at this
    exact ⟨this.1, this.2.2⟩
  induction ms with
  | nil => intro w _ _ _; exact ⟨rfl, by simp [sendAll]⟩
  | cons m ms ih =>
    intro w hb he hn
    obtain ⟨h1, h2⟩ := hsend m w he hn
    rcases send_fresh m hb he with ⟨_, a, b, c⟩ | ⟨a, _⟩
    · obtain ⟨i1, i2⟩ := ih _ b a h2
      simp only [sendAll, h1, i1, i2, c, List.length_cons, List.replicate_succ, List.flatMap_cons, List.append_assoc]
      exact ⟨trivial, trivial⟩
    · rw [h1] at a; cases a

/-! ## C108: a snapshot that does not fit on the disk -/

/-- The first `j` writes below the buffer work. -/
def FirstGood (net : List (Option Nat)) (j : Nat) : Prop := ∀ i, i < j → ∀ n, net[i]? ≠ some (some n)

theorem flush_head {w : Wr} (he : w.err = false) (hb : w.buf ≠ []) :
    flush w = match w.net[0]? with
      | some (some n) => (false, { w with out := w.out ++ w.buf.take n, net := w.net.tail, buf := w.buf.drop (min n w.buf.length), err := true })
      | _ => (true, { w with out := w.out ++ w.buf, net := w.net.tail, buf := [] }) := by
  obtain ⟨buf, err, out, net⟩ := w
  simp only at he hb
  subst he
  simp only [flush, Bool.false_eq_true, if_false, if_neg hb, netWrite]
  cases net with
  | nil => rfl
  | cons o ns => cases o <;> rfl

theorem copyTo_at (p rest : Bytes) {r : Rd} {w : Wr} (hr : r.WF) (hf : r.flat = p ++ rest) (hw : w.WF) (he : w.err = false) :
    (FirstGood w.net ((w.buf.length + p.length - 1) / bufSize) →
      ∃ r' w', copyTo p.length r w = (.ok (), w', r') ∧ r'.flat = rest ∧ w'.err = false ∧
        w'.net = w.net.drop ((w.buf.length + p.length - 1) / bufSize) ∧ w'.out ++ w'.buf = w.out ++ w.buf ++ p ∧
        w'.buf.length + bufSize * ((w.buf.length + p.length - 1) / bufSize) = w.buf.length + p.length) ∧
    (¬ FirstGood w.net ((w.buf.length + p.length - 1) / bufSize) →
      ∃ r' w', copyTo p.length r w = (.err .write, w', r') ∧ w'.err = true ∧ w'.out <+: w.out ++ w.buf ++ p) := by
  induction p generalizing r w with
  | nil =>
    have hw' : w.buf.length ≤ bufSize := hw
    have hz : (w.buf.length + ([] : Bytes).length - 1) / bufSize = 0 := Nat.div_eq_of_lt (by simp only [List.length_nil, bufSize] at *; omega)
    rw [hz]
    exact ⟨fun _ => ⟨r, w, rfl, by simpa using hf, he, rfl, by simp, by simp⟩, fun h => absurd (fun i hi => by omega) h⟩
  | cons b p ih =>
    have hw' : w.buf.length ≤ bufSize := hw
    obtain ⟨r1, h1, h2, hw1⟩ := readByte_at hr (by simpa using hf)
    simp only [List.length_cons, copyTo, h1]
    by_cases hfull : bufSize ≤ w.buf.length
    · have hlen : w.buf.length = bufSize := by omega
      have hne : w.buf ≠ [] := by intro h; rw [h] at hlen; simp [bufSize] at hlen
      have hj : (w.buf.length + (p.length + 1) - 1) / bufSize = p.length / bufSize + 1 := by
        rw [hlen, show bufSize + (p.length + 1) - 1 = p.length + bufSize by omega, Nat.add_div_right _ (by decide)]
      rw [hj]
      have hwb : writeByte b w = match w.net[0]? with
          | some (some n) => (false, { w with out := w.out ++ w.buf.take n, net := w.net.tail, buf := w.buf.drop (min n w.buf.length), err := true })
          | _ => (true, { w with out := w.out ++ w.buf, net := w.net.tail, buf := [b] }) := by
        simp only [writeByte, he, Bool.false_eq_true, if_false, if_pos hfull, flush_head he hne]
        cases hq : w.net[0]? with
        | none => simp
        | some o => cases o <;> simp
      rw [hwb]
      by_cases hbad : ∃ n, w.net[0]? = some (some n)
      · obtain ⟨n, hn⟩ := hbad
        rw [hn]
        refine ⟨fun h => absurd hn (h 0 (Nat.succ_pos _) n), fun _ => ⟨_, _, rfl, rfl, ?_⟩⟩
        rw [List.append_assoc]
        refine (List.prefix_append_right_inj _).mpr ((List.take_prefix _ _).trans (List.prefix_append _ _))
      · have hm : (match w.net[0]? with
          | some (some n) => (false, { w with out := w.out ++ w.buf.take n, net := w.net.tail, buf := w.buf.drop (min n w.buf.length), err := true })
          | _ => (true, { w with out := w.out ++ w.buf, net := w.net.tail, buf := [b] })) =
            (true, { w with out := w.out ++ w.buf, net := w.net.tail, buf := [b] }) := by
          split
          · rename_i n hn; exact absurd ⟨n, hn⟩ hbad
          · rfl
        rw [hm]
        simp only
        obtain ⟨g1, g2⟩ := ih (w := { w with out := w.out ++ w.buf, net := w.net.tail, buf := [b] }) hw1 h2
          (by simp [Wr.WF, bufSize]) he
        have hj' : (([b] : Bytes).length + p.length - 1) / bufSize = p.length / bufSize := by simp
        simp only [hj'] at g1 g2
        have hgood : FirstGood w.net (p.length / bufSize + 1) ↔ FirstGood w.net.tail (p.length / bufSize) := by
          constructor
          · intro h i hi n
            have := h (i + 1) (by omega) n
            rwa [List.getElem?_tail]
          · intro h i hi n hn
            cases i with
            | zero => exact hbad ⟨n, hn⟩
            | succ i => exact h i (by omega) n (by rwa [List.getElem?_tail])
        constructor
        · intro h
          obtain ⟨r', w', a1, a2, a3, a4, a5, a6⟩ := g1 (hgood.mp h)
          refine ⟨r', w', a1, a2, a3, ?_, ?_, ?_⟩
          · rw [a4, List.drop_tail]
          · rw [a5]; simp
          · simp only [List.length_cons, List.length_nil] at a6
            rw [hlen, Nat.mul_add]; omega
        · intro h
          obtain ⟨r', w', a1, a2, a3⟩ := g2 (fun h' => h (hgood.mpr h'))
          refine ⟨r', w', a1, a2, ?_⟩
          simpa using a3
    · have hwb : writeByte b w = (true, { w with buf := w.buf ++ [b] }) := by
        simp [writeByte, he, hfull]
      rw [hwb]
      simp only
      obtain ⟨g1, g2⟩ := ih (w := { w with buf := w.buf ++ [b] }) hw1 h2
        (by simp only [Wr.WF, List.length_append, List.length_cons, List.length_nil]; omega) he
      have hj' : ((w.buf ++ [b]).length + p.length - 1) / bufSize = (w.buf.length + (p.length + 1) - 1) / bufSize := by
        congr 2; simp; omega
      simp only [hj'] at g1 g2
      constructor
      · intro h
        obtain ⟨r', w', a1, a2, a3, a4, a5, a6⟩ := g1 h
        refine ⟨r', w', a1, a2, a3, a4, by rw [a5]; simp, ?_⟩
        rw [a6]; simp; omega
      · intro h
        obtain ⟨r', w', a1, a2, a3⟩ := g2 h
        exact ⟨r', w', a1, a2, by simpa using a3⟩

/-- C108, exactly what `ReadWithWriter` does with a bulk reply when the file may fail: all writes but
the last are checked; the last one (up to 4096 bytes) is not. -/
theorem C108_exact_partial (p rest : Bytes) (hp : p.length < 2 ^ 63) (r : Rd) (hw : r.WF)
    (hr : r.flat = b!"$" ++ natText p.length ++ crlf ++ p ++ rest) (net : List (Option Nat)) :
    (FirstGood net ((p.length - 1) / 4096) → ∃ r', r'.flat = rest ∧
      saveTo r net = (.ok (36, (p.length : Int)),
        (match net[(p.length - 1) / 4096]? with
         | some (some n) => p.take (4096 * ((p.length - 1) / 4096) + n)
         | _ => p), r')) ∧
    (¬ FirstGood net ((p.length - 1) / 4096) → ∃ f r', saveTo r net = (.err .write, f, r') ∧ f <+: p) := by
  obtain ⟨r1, h1, h2, hw1⟩ := readByte_at (b := 36) (rest := natText p.length ++ crlf ++ (p ++ rest)) hw (by simp [hr])
  have hdig := natText_length (n := p.length) (k := 18) (by omega)
  obtain ⟨r2, h3, h4, hw2⟩ := readLine_at hw1 (natText_no_nl p.length) (by simp only [bufSize]; omega) h2
  obtain ⟨k, hk1, hk2⟩ := atoi_natText hp
  have hk3 : k.toInt.toNat = p.length := by omega
  obtain ⟨g1, g2⟩ := copyTo_at p rest (w := Wr.fresh net) hw2 h4 (by simp [Wr.WF, Wr.fresh]) rfl
  have hbuf : (Wr.fresh net).buf = [] := rfl
  simp only [hbuf, List.length_nil, Nat.zero_add] at g1 g2
  have hbs : bufSize = 4096 := rfl
  simp only [hbs] at g1 g2
  constructor
  · intro h
    obtain ⟨r3, w', a1, a2, a3, a4, a5, a6⟩ := g1 h
    refine ⟨r3, a2, ?_⟩
    simp only [saveTo, saveBody, h1, readInt, h3, andThen, hk1, if_true, hk3, a1]
    have hall : w'.out ++ w'.buf = p := by rw [a5]; simp [Wr.fresh]
    have hlen : w'.out.length = 4096 * ((p.length - 1) / 4096) := by
      have := congrArg List.length hall
      simp only [List.length_append] at this
      omega
    have hout : (flush w').2.out = match net[(p.length - 1) / 4096]? with
         | some (some n) => p.take (4096 * ((p.length - 1) / 4096) + n)
         | _ => p := by
      by_cases hb : w'.buf = []
      · simp only [flush, a3, hb, if_true, Bool.false_eq_true, if_false]
        rw [hb, List.append_nil] at hall
        rw [hb] at a6
        simp only [List.length_nil, Nat.zero_add] at a6
        split
        · rw [List.take_of_length_le (by omega), hall]
        · exact hall
      · rw [flush_head a3 hb, a4]
        have e : (List.drop ((p.length - 1) / 4096) (Wr.fresh net).net)[0]? = net[(p.length - 1) / 4096]? := by
          rw [List.getElem?_drop]; rfl
        rw [e]
        cases hq : net[(p.length - 1) / 4096]? with
        | none => exact hall
        | some o =>
          cases o with
          | none => exact hall
          | some n =>
            simp only
            have ht : p.take (4096 * ((p.length - 1) / 4096) + n) = (w'.out ++ w'.buf).take (w'.out.length + n) := by rw [hall, hlen]
            rw [ht, List.take_length_add_append]
    rw [hout, hk2]
  · intro h
    obtain ⟨r3, w', a1, a2, a3⟩ := g2 h
    refine ⟨w'.out, r3, ?_, by simpa [Wr.fresh] using a3⟩
    simp only [saveTo, saveBody, h1, readInt, h3, andThen, hk1, if_true, hk3, a1, flush_err a2]

/-- C108, full statement refuted: the disk takes nothing of a snapshot of 4096 bytes or less, and
success is reported, with the full length. -/
theorem C108_violated (p rest : Bytes) (hp : p.length ≤ 4096) (r : Rd) (hw : r.WF)
    (hr : r.flat = b!"$" ++ natText p.length ++ crlf ++ p ++ rest) :
    ∃ r', saveTo r [some 0] = (.ok (36, (p.length : Int)), [], r') := by
  have hz : (p.length - 1) / 4096 = 0 := Nat.div_eq_of_lt (by omega)
  obtain ⟨r', h1, h2⟩ := (C108_exact_partial p rest (by omega) r hw hr [some 0]).1 (by rw [hz]; intro i hi; omega)
  rw [hz] at h2
  exact ⟨r', by simpa using h2⟩

example : (saveTo ⟨[], [b!"$3\r\nab", b!"c"]⟩ [some 0]).1 = .ok (36, 3) ∧ (saveTo ⟨[], [b!"$3\r\nab", b!"c"]⟩ [some 0]).2.1 = [] := by
  decide +kernel

/-- A write before the last that fails is reported. -/
example : (saveTo ⟨[], [b!"$5000\r\n", List.replicate 5000 97]⟩ [some 17]).1 = .err .write ∧
    (saveTo ⟨[], [b!"$5000\r\n", List.replicate 5000 97]⟩ [none, some 17]).1 = .ok (36, 5000) := by
  decide +kernel

/-! ### A disk that works -/

theorem writeByte_nil (b : UInt8) {w : Wr} (hw : w.WF) (he : w.err = false) (hn : w.net = []) :
    ∃ w', writeByte b w = (true, w') ∧ w'.WF ∧ w'.err = false ∧ w'.net = [] ∧ w'.out ++ w'.buf = w.out ++ w.buf ++ [b] := by
  have hw' : w.buf.length ≤ bufSize := hw
  by_cases hfull : bufSize ≤ w.buf.length
  · have hne : w.buf ≠ [] := by intro h; rw [h] at hfull; simp [bufSize] at hfull
    refine ⟨{ w with out := w.out ++ w.buf, net := [], buf := [b] }, ?_, by simp [Wr.WF, bufSize], he, rfl, rfl⟩
    simp only [writeByte, he, Bool.false_eq_true, if_false, if_pos hfull, flush_head he hne, hn]
    rfl
  · refine ⟨{ w with buf := w.buf ++ [b] }, by simp [writeByte, he, hfull], ?_, he, hn, by simp⟩
    simp only [Wr.WF, List.length_append, List.length_cons, List.length_nil]; omega

theorem copyTo_nil (n : Nat) (r : Rd) {w : Wr} (hw : w.WF) (he : w.err = false) (hn : w.net = []) :
    ∃ w', copyTo n r w = ((match (copyN n r).1 with
        | .ok _ => .ok ()
        | .err e => .err (.read e)
        | .panic => .panic), w', (copyN n r).2.2) ∧
      w'.err = false ∧ w'.net = [] ∧ w'.out ++ w'.buf = w.out ++ w.buf ++ (copyN n r).2.1 := by
  induction n generalizing r w with
  | zero => exact ⟨w, rfl, he, hn, by simp [copyN]⟩
  | succ n ih =>
    rcases hb : readByte r with ⟨x, r1⟩
    cases x with
    | err e => exact ⟨w, by simp [copyTo, copyN, hb], he, hn, by simp [copyN, hb]⟩
    | panic => exact ⟨w, by simp [copyTo, copyN, hb], he, hn, by simp [copyN, hb]⟩
    | ok b =>
      obtain ⟨w1, h1, h2, h3, h4, h5⟩ := writeByte_nil b hw he hn
      obtain ⟨w2, g1, g2, g3, g4⟩ := ih r1 h2 h3 h4
      refine ⟨w2, ?_, g2, g3, ?_⟩
      · simp only [copyTo, copyN, hb, h1, g1]
      · rw [g4, h5]; simp [copyN, hb]

theorem flush_nil {w : Wr} (he : w.err = false) (hn : w.net = []) : (flush w).2.out = w.out ++ w.buf := by
  by_cases hb : w.buf = []
  · simp [flush, he, hb]
  · rw [flush_head he hb, hn]; rfl

theorem write_nil (p : Bytes) {w : Wr} (hw : w.WF) (he : w.err = false) (hn : w.net = []) :
    ∃ w', write p w = (true, w') ∧ w'.err = false ∧ w'.net = [] ∧ w'.out ++ w'.buf = w.out ++ w.buf ++ p := by
  have hflush : ∀ w : Wr, w.err = false → w.net = [] → (flush w).2.err = false ∧ (flush w).2.net = [] := by
    intro w he hn
    by_cases hb : w.buf = []
    · simp [flush, he, hb, hn]
    · rw [flush_head he hb, hn]; exact ⟨he, rfl⟩
  have hloop : ∀ f (p : Bytes) (w : Wr), w.err = false → w.net = [] → (writeLoop f p w).2.err = false ∧ (writeLoop f p w).2.net = [] := by
    intro f
    induction f with
    | zero => intro p w he hn; exact ⟨he, hn⟩
    | succ f ih =>
      intro p w he hn
      unfold writeLoop
      split
      · split
        · simp only [netWrite, hn]
          exact ih _ _ rfl rfl
        · have := hflush { w with buf := w.buf ++ p.take (bufSize - w.buf.length) } he hn
          exact ih _ _ this.1 this.2
      · exact ⟨he, hn⟩
  obtain ⟨h1, h2⟩ := write_adds p hw he
  obtain ⟨g1, g2⟩ := hloop (p.length + 2) p w he hn
  have he' : (write p w).2.err = false := by
    unfold write
    generalize writeLoop (p.length + 2) p w = x at g1 g2
    obtain ⟨rest, w'⟩ := x
    simp only at g1 ⊢
    simp [g1]
  have hn' : (write p w).2.net = [] := by
    unfold write
    generalize writeLoop (p.length + 2) p w = x at g1 g2
    obtain ⟨rest, w'⟩ := x
    simp only at g1 g2 ⊢
    simp [g1, g2]
  rw [he'] at h2
  exact ⟨(write p w).2, Prod.ext h2 rfl, he', hn', h1.good he'⟩

/-- C108: as long as the disk works, the file gets exactly what the model of C50 and C85 says, for
every input, and the results are the same. -/
theorem C108_working_disk (r : Rd) :
    saveTo r [] = ((match (readWithWriter r).1 with
        | .ok x => .ok x
        | .err e => .err (.read e)
        | .panic => .panic), (readWithWriter r).2.1, (readWithWriter r).2.2) := by
  have hf : Wr.WF (Wr.fresh []) := by simp [Wr.WF, Wr.fresh]
  have hfl : (flush (Wr.fresh [])).2.out = [] := rfl
  rcases hb : readByte r with ⟨x, r1⟩
  cases x with
  | err e => simp [saveTo, saveBody, readWithWriter, hb, hfl]
  | panic => simp [saveTo, saveBody, readWithWriter, hb, hfl]
  | ok p =>
    simp only [saveTo, saveBody, readWithWriter, hb]
    by_cases h1 : p = 36
    · simp only [h1, if_true]
      rcases hi : readInt r1 with ⟨y, r2⟩
      cases y with
      | err e => simp [hfl]
      | panic => simp [hfl]
      | ok n =>
        simp only
        obtain ⟨w', g1, g2, g3, g4⟩ := copyTo_nil n.toInt.toNat r2 hf rfl rfl
        rw [g1]
        rcases hc : copyN n.toInt.toNat r2 with ⟨z, bs, r3⟩
        rw [hc] at g4
        have g5 : (flush w').2.out = bs := by rw [flush_nil g2 g3, g4]; simp [Wr.fresh]
        cases z <;> simp [g5]
    · simp only [h1, if_false]
      by_cases h2 : p = 43 ∨ p = 45 ∨ p = 58
      · simp only [h2, if_true]
        rcases hi : readLine r1 with ⟨y, r2⟩
        cases y with
        | err e => simp [hfl]
        | panic => simp [hfl]
        | ok l =>
          simp only
          obtain ⟨w', g1, g2, g3, g4⟩ := write_nil l hf rfl rfl
          have g5 : (flush w').2.out = l := by rw [flush_nil g2 g3, g4]; simp [Wr.fresh]
          rw [g1]
          simp [g5]
      · simp only [h2, if_false]
        by_cases h3 : p = 42
        · simp only [h3, if_true]
          rcases hi : readInt r1 with ⟨y, r2⟩
          cases y <;> simp [hfl]
        · simp [h3, hfl]

end Verif.Resp

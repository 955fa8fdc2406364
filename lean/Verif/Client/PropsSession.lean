import Verif.Cache.PropsRef
import Verif.Client.Session
import Verif.Resp.PropsJoin
/-!
# C91-C95: sessions of a remote client
-/
namespace Verif.Client
open Verif.Resp

variable {bad : Bytes → F64}

/-! ## C91: the n-th reply answers the n-th request -/

/-- The network delivers bytes in order and loses none. -/
def Cut.Faithful (cut : Cut) : Prop := ∀ b, (cut b).flatten = b

/-- A reply whose lines fit the read buffer and whose pieces each end between two tokens (tag, line,
payload, line end) and fit the buffer. -/
def TokenCut (cut : Cut) (m : Msg) : Prop :=
  Fits (fun l => l.length + 2 ≤ bufSize) (fun _ => True) m ∧
  ∃ gs : List (List Bytes), cut (ser m) = gs.map List.flatten ∧ gs.flatten = toks m ∧ ∀ g ∈ gs, g.flatten.length ≤ bufSize

/-- A reply the client can read as the network delivers it: lines fit the buffer, no byte is lost, and of each payload the part that has not arrived when
it is read is zero and fits the buffer.  This is the case if the reply is cut between tokens (`carried_token`), or has no payload longer than one byte and
is cut anywhere (`carried_short`). -/
def Carried (cut : Cut) (m : Msg) : Prop := Lines m ∧ (cut (ser m)).flatten = ser m ∧ Joins m ⟨[], cut (ser m)⟩

/-- Nothing is left over on the connection. -/
def Rd.Quiet (r : Rd) : Prop := r.flat = [] ∧ r.WF

theorem quiet_parts {r : Rd} (h : Rd.Quiet r) : r.buf = [] ∧ ∀ c ∈ r.net, c = [] := by
  have := h.1
  simp only [Rd.flat, List.append_eq_nil_iff, List.flatten_eq_nil_iff] at this
  exact this

theorem read_pieces {r : Rd} {cut : Cut} {m : Msg} (hr : Rd.Quiet r) (hc : TokenCut cut m ∨
    (Fits (fun l => l.length + 2 ≤ bufSize) (fun p => p.length ≤ 1) m ∧ (cut (ser m)).flatten = ser m)) :
    ∃ r', readMessage ⟨r.buf, r.net ++ cut (ser m)⟩ = (.ok m, r') ∧ Rd.Quiet r' := by
  obtain ⟨hb, hn⟩ := quiet_parts hr
  rcases hc with ⟨hf, gs, h1, h2, h3⟩ | ⟨hf, h1⟩
  · have hne : r.net = (r.net.map fun _ => ([] : List Bytes)).map List.flatten := by
      rw [List.map_map]
      conv => lhs; rw [← List.map_id r.net]
      exact List.map_congr_left fun c hc => hn c hc
    have hz : (r.net.map fun _ => ([] : List Bytes)).flatten = [] := by simp
    have hA : Aligned [] (toks m ++ []) ⟨r.buf, r.net ++ cut (ser m)⟩ := by
      refine ⟨[], r.net.map (fun _ => []) ++ gs, by simp [hb], ?_, ?_, ?_, ?_, ?_⟩
      · rw [List.map_append, ← hne, h1]
      · rw [List.flatten_append, hz, h2]; simp
      · intro g hg
        rcases List.mem_append.1 hg with hg | hg
        · obtain ⟨_, _, rfl⟩ := List.mem_map.1 hg; simp
        · exact h3 g hg
      · intro t ht; exact toks_ne m t (by simpa using ht)
      · simp [Rd.WF, hb]
    obtain ⟨r', e1, b, gs', e2, e3, e4, e5, e6, e7⟩ := readMessage_at (aligned_reads []) (m := m) (ts := []) hf hA
    refine ⟨r', e1, ?_, e7⟩
    rw [List.append_nil] at e4
    have e8 := List.append_eq_nil_iff.1 e4.symm
    rw [Rd.flat, e2, e3, e8.1]
    have : (gs'.map List.flatten).flatten = gs'.flatten.flatten := by rw [List.flatten_flatten]
    rw [this, e8.2]; rfl
  · have hS : Streamed [] (toks m ++ []) ⟨r.buf, r.net ++ cut (ser m)⟩ := by
      refine ⟨?_, by simp [Rd.WF, hb]⟩
      have : r.net.flatten = [] := List.flatten_eq_nil_iff.2 hn
      simp [Rd.flat, hb, this, h1, toks_flatten]
    obtain ⟨r', e1, e2, e3⟩ := readMessage_at (streamed_reads []) (m := m) (ts := []) hf hS
    exact ⟨r', e1, by simpa using e2, e3⟩

theorem netRead_skip {cap : Nat} {e net : List Bytes} (he : ∀ c ∈ e, c = []) : netRead cap (e ++ net) = netRead cap net := by
  induction e with
  | nil => rfl
  | cons c e ih =>
    have : c = [] := he c (by simp)
    subst this
    simpa [netRead] using ih fun c hc => he c (List.mem_cons_of_mem _ hc)

/-- Chunks without bytes change nothing. -/
theorem behindHeader_skip {e net : List Bytes} (he : ∀ c ∈ e, c = []) : behindHeader ⟨[], e ++ net⟩ = behindHeader ⟨[], net⟩ := by
  have : readByte ⟨[], e ++ net⟩ = readByte ⟨[], net⟩ := by simp only [readByte, fill, netRead_skip he]
  simp only [behindHeader, this]

theorem joins_skip {m : Msg} {e net : List Bytes} (he : ∀ c ∈ e, c = []) : Joins m ⟨[], e ++ net⟩ ↔ Joins m ⟨[], net⟩ := by
  cases m <;> simp only [Joins, lateOf, behindHeader_skip he]

theorem quiet_flat {r : Rd} {b : List Bytes} (hr : Rd.Quiet r) : Rd.flat ⟨r.buf, r.net ++ b⟩ = b.flatten ∧ Rd.WF ⟨r.buf, r.net ++ b⟩ := by
  obtain ⟨hb, hn⟩ := quiet_parts hr
  have : r.net.flatten = [] := List.flatten_eq_nil_iff.2 hn
  exact ⟨by simp [Rd.flat, hb, this], by simp [Rd.WF, hb]⟩

theorem read_quiet {r : Rd} {cut : Cut} {m : Msg} (hr : Rd.Quiet r) (hc : Carried cut m) :
    ∃ r', readMessage ⟨r.buf, r.net ++ cut (ser m)⟩ = (.ok m, r') ∧ Rd.Quiet r' := by
  obtain ⟨h1, h2⟩ := quiet_flat (b := cut (ser m)) hr
  obtain ⟨hb, hn⟩ := quiet_parts hr
  obtain ⟨k1, k2, k3⟩ := joins_reads (rest := []) hc.1 h2 (by rw [h1, hc.2.1]; simp) (by rw [hb, joins_skip hn]; exact hc.2.2)
  exact ⟨_, k1, k3, k2⟩

mutual
theorem fits_mono {L P Q : Bytes → Prop} (h : ∀ p, P p → Q p) : ∀ (m : Msg), Fits L P m → Fits L Q m
  | .nil, hm | .error _, hm | .int _, hm | .simple _, hm => hm
  | .bulk _, hm => ⟨hm.1, hm.2.1, fun hs => h _ (hm.2.2 hs)⟩
  | .array ms, hm => ⟨hm.1, hm.2.1, fitsAll_mono h ms hm.2.2⟩
theorem fitsAll_mono {L P Q : Bytes → Prop} (h : ∀ p, P p → Q p) : ∀ (ms : List Msg), FitsAll L P ms → FitsAll L Q ms
  | [], _ => trivial
  | m :: ms, hm => ⟨fits_mono h m hm.1, fitsAll_mono h ms hm.2⟩
end

theorem carried_read {cut : Cut} {m : Msg} (hl : Lines m) (hf : (cut (ser m)).flatten = ser m)
    (h : ∃ r', readMessage ⟨[], [] ++ cut (ser m)⟩ = (.ok m, r') ∧ Rd.Quiet r') : Carried cut m := by
  obtain ⟨r', k1, k2⟩ := h
  refine ⟨hl, hf, (C46_message_exact m [] hl ⟨[], cut (ser m)⟩ (by simp [Rd.WF]) (by simp [Rd.flat, hf])).1 ?_⟩
  rw [List.nil_append] at k1
  rw [k1]
  exact ⟨rfl, k2.1⟩

/-- A reply cut between tokens. -/
theorem carried_token {cut : Cut} {m : Msg} (h : TokenCut cut m) : Carried cut m := by
  refine carried_read h.1 ?_ (read_pieces (r := ⟨[], []⟩) ⟨rfl, by simp [Rd.WF]⟩ (.inl h))
  obtain ⟨_, gs, h1, h2, _⟩ := h
  rw [h1, ← toks_flatten, ← h2, List.flatten_flatten]

/-- A reply without payloads of more than one byte, cut anywhere. -/
theorem carried_short {cut : Cut} {m : Msg}
    (h : Fits (fun l => l.length + 2 ≤ bufSize) (fun p => p.length ≤ 1) m ∧ (cut (ser m)).flatten = ser m) : Carried cut m :=
  carried_read (fits_mono (fun _ _ => trivial) m h.1) h.2 (read_pieces (r := ⟨[], []⟩) ⟨rfl, by simp [Rd.WF]⟩ (.inr h))

/-- A connection between calls. -/
def Conn.Ready (c : Conn) : Prop := c.up = true ∧ Rd.Quiet c.rd

theorem exchange_ready {s : Server} {c : Conn} {t : Int} {cmd : List Bytes} {cut : Cut} (hc : c.Ready)
    (hm : Carried cut (serve s c.login t cmd).2.2) :
    ∃ c', exchange s c t cmd cut = ((serve s c.login t cmd).1, c', .ok (serve s c.login t cmd).2.2) ∧
      c'.login = (serve s c.login t cmd).2.1 ∧ c'.Ready := by
  obtain ⟨r', h1, h2⟩ := read_quiet hc.2 hm
  have := C47_binary_safe cmd []
  rw [List.append_nil] at this
  refine ⟨⟨(serve s c.login t cmd).2.1, r', true⟩, ?_, rfl, rfl, h2⟩
  simp only [exchange, hc.1, if_true, this, h1]

/-- What the calls should answer: every call gets the reply to its own request. -/
def paired (bad : Bytes → F64) : Server → (Nat → Login) → List (Nat × Int × Req × Cut) → List (Option (Out Val))
  | _, _, [] => []
  | s, ls, (i, t, q, _) :: h =>
    let r := serve s (ls i) t (args q)
    result bad q (.ok r.2.2) :: paired bad r.1 (fun j => if j = i then r.2.1 else ls j) h

/-- All replies of a history can be read. -/
def CarriedRun : Server → (Nat → Login) → List (Nat × Int × Req × Cut) → Prop
  | _, _, [] => True
  | s, ls, (i, t, q, cut) :: h =>
    let r := serve s (ls i) t (args q)
    Carried cut r.2.2 ∧ CarriedRun r.1 (fun j => if j = i then r.2.1 else ls j) h

/-- C91 as far as it holds: on any number of connections, with calls interleaved in any way, every
call gets the reply to its own request, if the replies can be read as they arrive.  Missing:
replies the reader cannot join (`C91_violated`, `C91_run_exact`). -/
theorem C91_paired_partial (h : List (Nat × Int × Req × Cut)) (s : Server) (cs : Nat → Conn) (hc : ∀ i, (cs i).Ready)
    (hr : CarriedRun s (fun i => (cs i).login) h) :
    answersOn bad s cs h = paired bad s (fun i => (cs i).login) h := by
  induction h generalizing s cs with
  | nil => rfl
  | cons e h ih =>
    obtain ⟨i, t, q, cut⟩ := e
    obtain ⟨hr1, hr2⟩ := hr
    obtain ⟨c', e1, e2, e3⟩ := exchange_ready (t := t) (cmd := args q) (hc i) hr1
    have hl : (fun j => if j = i then (serve s (cs i).login t (args q)).2.1 else (cs j).login) =
        fun j => (if j = i then c' else cs j).login := by
      funext j; split <;> simp [e2]
    simp only [answersOn, paired, e1, hl]
    rw [ih]
    · intro j; by_cases h : j = i <;> simp [h, e3, hc]
    · simp only [hl] at hr2; exact hr2

mutual
/-- A decidable form of `Fits`; `one` asks for payloads of at most one byte. -/
def fitsB (one : Bool) : Msg → Bool
  | .nil => true
  | .array ms => ms.length < 2 ^ 63 && (natText ms.length).length + 2 ≤ bufSize && fitsAllB one ms
  | .bulk s => (s.length : Int) ≤ maxAlloc && (natText s.length).length + 2 ≤ bufSize && (!one || s.length ≤ 1)
  | .error s => !s.contains 10 && s.length + 2 ≤ bufSize
  | .int n => (itoa n).length + 2 ≤ bufSize
  | .simple s => !s.contains 10 && s.length + 2 ≤ bufSize
def fitsAllB (one : Bool) : List Msg → Bool
  | [] => true
  | m :: ms => fitsB one m && fitsAllB one ms
end

mutual
theorem fits_ofB' (one : Bool) : ∀ m : Msg, fitsB one m = true →
    Fits (fun l => l.length + 2 ≤ bufSize) (fun p => one = true → p.length ≤ 1) m
  | .nil, _ => by simp [Fits, bufSize]
  | .array ms, h => by
    simp only [fitsB, Bool.and_eq_true, decide_eq_true_eq] at h
    exact ⟨h.1.1, h.1.2, fitsAll_ofB' one ms h.2⟩
  | .bulk s, h => by
    simp only [fitsB, Bool.and_eq_true, decide_eq_true_eq, Bool.or_eq_true, Bool.not_eq_true'] at h
    exact ⟨h.1.1, h.1.2, fun _ ho => by rcases h.2 with h | h; · simp [h] at ho
                                        · exact h⟩
  | .error s, h => by simpa [fitsB, Fits] using h
  | .int n, h => by simpa [fitsB, Fits] using h
  | .simple s, h => by simpa [fitsB, Fits] using h
theorem fitsAll_ofB' (one : Bool) : ∀ ms : List Msg, fitsAllB one ms = true →
    FitsAll (fun l => l.length + 2 ≤ bufSize) (fun p => one = true → p.length ≤ 1) ms
  | [], _ => trivial
  | m :: ms, h => by
    simp only [fitsAllB, Bool.and_eq_true] at h
    exact ⟨fits_ofB' one m h.1, fitsAll_ofB' one ms h.2⟩
end

theorem fits_ofB {m : Msg} (h : fitsB false m = true) : Fits (fun l => l.length + 2 ≤ bufSize) (fun _ => True) m := by
  simpa using fits_ofB' false m h

theorem fits_ofB1 {m : Msg} (h : fitsB true m = true) : Fits (fun l => l.length + 2 ≤ bufSize) (fun p => p.length ≤ 1) m := by
  simpa using fits_ofB' true m h

/-- The hypotheses are met by a client of two connections whose calls alternate, with the replies of
the second connection arriving byte by byte. -/
def whole : Cut := fun b => [b]
def bytewise : Cut := fun b => b.map fun x => [x]

def openServer : Server := ⟨none, fun _ => Ref.empty⟩

def readyConns : Nat → Conn := fun _ => ⟨⟨0, false⟩, ⟨[], []⟩, true⟩

def twoGoroutines : List (Nat × Int × Req × Cut) :=
  [(0, 0, .set b!"k" b!"hello", whole), (1, 1, .append b!"k" b!"!", bytewise), (0, 2, .get b!"k", whole),
   (1, 3, .incr b!"n", bytewise), (1, 4, .select 3, bytewise), (1, 5, .strLen b!"k", bytewise),
   (0, 6, .mGet [b!"k", b!"x"], whole)]

theorem tokenCut_whole {m : Msg} (hf : Fits (fun l => l.length + 2 ≤ bufSize) (fun _ => True) m) (hl : (ser m).length ≤ bufSize) :
    TokenCut whole m :=
  ⟨hf, [toks m], by simp [whole, toks_flatten], by simp, fun g hg => by rw [List.mem_singleton.1 hg, toks_flatten]; exact hl⟩

theorem faithful_bytewise : Cut.Faithful bytewise := by
  intro b; induction b with
  | nil => rfl
  | cons x b ih => simpa [bytewise] using ih

example : (∀ i, (readyConns i).Ready) ∧ CarriedRun openServer (fun i => (readyConns i).login) twoGoroutines ∧
    answersOn (fun _ => F64.zero) openServer readyConns twoGoroutines =
      [some ⟨.text [], none⟩, some ⟨.int 6, none⟩, some ⟨.text b!"hello!", none⟩, some ⟨.int 1, none⟩,
       some ⟨.text [], none⟩, some ⟨.int 0, none⟩, some ⟨.list [.text b!"hello!", .error b!"Nil"], none⟩] := by
  have h1 : ∀ i, (readyConns i).Ready := fun i => ⟨rfl, rfl, by simp [readyConns, Rd.WF]⟩
  have h2 : CarriedRun openServer (fun i => (readyConns i).login) twoGoroutines := by
    refine ⟨carried_token (tokenCut_whole (fits_ofB ?_) ?_), carried_short ⟨fits_ofB1 ?_, faithful_bytewise _⟩, carried_token (tokenCut_whole (fits_ofB ?_) ?_), carried_short ⟨fits_ofB1 ?_, faithful_bytewise _⟩,
      carried_short ⟨fits_ofB1 ?_, faithful_bytewise _⟩, carried_short ⟨fits_ofB1 ?_, faithful_bytewise _⟩, carried_token (tokenCut_whole (fits_ofB ?_) ?_), trivial⟩ <;> decide +kernel
  refine ⟨h1, h2, ?_⟩
  rw [C91_paired_partial _ _ _ h1 h2]
  decide +kernel

/-- The stream holds exactly one message more than it should. -/
def Holding (m : Msg) (r : Rd) : Prop :=
  Fits (fun l => l.length + 2 ≤ bufSize) (fun _ => True) m ∧ Aligned [] (toks m) r

theorem read_holding {r : Rd} {cut : Cut} {m0 m : Msg} (hr : Holding m0 r) (hc : TokenCut cut m) :
    ∃ r', readMessage ⟨r.buf, r.net ++ cut (ser m)⟩ = (.ok m0, r') ∧ Holding m r' := by
  obtain ⟨hf0, b, gs0, h1, h2, h3, h4, h5, h6⟩ := hr
  obtain ⟨hf, gs, g1, g2, g3⟩ := hc
  have hA : Aligned [] (toks m0 ++ toks m) ⟨r.buf, r.net ++ cut (ser m)⟩ := by
    refine ⟨b, gs0 ++ gs, h1, by simp [h2, g1], ?_, ?_, ?_, h6⟩
    · rw [List.append_nil] at h3 ⊢; rw [h3, List.flatten_append, g2]; simp
    · intro g hg
      rcases List.mem_append.1 hg with hg | hg
      · exact h4 g hg
      · exact g3 g hg
    · intro t ht
      rw [List.append_nil] at ht
      rcases List.mem_append.1 ht with ht | ht
      · exact toks_ne m0 t ht
      · exact toks_ne m t ht
  obtain ⟨r', e1, e2⟩ := readMessage_at (aligned_reads []) (m := m0) (ts := toks m) hf0 hA
  exact ⟨r', e1, hf, e2⟩

/-- Every call is answered with the reply to the call before it. -/
def late (bad : Bytes → F64) : Server → Login → Msg → List (Nat × Int × Req × Cut) → List (Option (Out Val))
  | _, _, _, [] => []
  | s, l, m, (_, t, q, _) :: h =>
    let r := serve s l t (args q)
    result bad q (.ok m) :: late bad r.1 r.2.1 r.2.2 h

/-- All replies are cut between tokens. -/
def TokenRun : Server → Login → List (Nat × Int × Req × Cut) → Prop
  | _, _, [] => True
  | s, l, (_, t, q, cut) :: h =>
    let r := serve s l t (args q)
    TokenCut cut r.2.2 ∧ TokenRun r.1 r.2.1 h

/-- C91 is not regained: once a connection holds one message too many, every later call on it is
answered with the reply to the call before, for ever, even if the network is at its best. -/
theorem C91_late_violated (h : List (Nat × Int × Req × Cut)) (i : Nat) (hi : ∀ e ∈ h, e.1 = i) (s : Server) (cs : Nat → Conn)
    (m : Msg) (hu : (cs i).up = true) (hm : Holding m (cs i).rd) (hr : TokenRun s (cs i).login h) :
    answersOn bad s cs h = late bad s (cs i).login m h := by
  induction h generalizing s cs m with
  | nil => rfl
  | cons e h ih =>
    obtain ⟨j, t, q, cut⟩ := e
    obtain rfl : j = i := hi _ (List.mem_cons_self ..)
    obtain ⟨hr1, hr2⟩ := hr
    obtain ⟨r', e1, e2⟩ := read_holding hm hr1
    have := C47_binary_safe (args q) []
    rw [List.append_nil] at this
    simp only [answersOn, late, exchange, hu, if_true, this, e1]
    rw [ih (fun e he => hi e (List.mem_cons_of_mem _ he)) _ _ (serve s (cs j).login t (args q)).2.2]
    · simp
    · simp
    · simpa using e2
    · simpa using hr2

/-- How a connection comes to hold one message too many: a value that contains a newline followed by
the bytes of a message `m` (without its line end), whose reply is cut before that newline.  Whoever
chooses the value chooses the answer to the next call, and `C91_late_violated` applies from then on. -/
theorem C91_forged_violated (m : Msg) (p body : Bytes) (hb : ser m = body ++ crlf) (hp : p ≠ [])
    (hf : Fits (fun l => l.length + 2 ≤ bufSize) (fun _ => True) m)
    (hl : (p ++ [10] ++ body).length + 30 ≤ bufSize) :
    ∃ a b r', ser (.bulk (p ++ [10] ++ body)) = a ++ b ∧
      readMessage ⟨[], [a, b]⟩ = (.ok (.bulk (p ++ List.replicate (1 + body.length) 0)), r') ∧ Holding m r' := by
  obtain ⟨v, hv⟩ : ∃ v, v = p ++ [10] ++ body := ⟨_, rfl⟩
  have hvl : v.length = p.length + 1 + body.length := by rw [hv]; simp; omega
  rw [← hv] at hl ⊢
  have hbuf : bufSize = 4096 := rfl
  have hdig := natText_length (n := v.length) (k := 15) (by omega)
  refine ⟨36 :: (natText v.length ++ crlf ++ p), 10 :: ser m, ⟨ser m, [[]]⟩, ?_, ?_, ?_⟩
  · rw [hb, hv]; simp [ser]
  · obtain ⟨net', hnr⟩ : ∃ net', net' = [[], 10 :: ser m] := ⟨_, rfl⟩
    have h1 : readByte ⟨[], [36 :: (natText v.length ++ crlf ++ p), 10 :: ser m]⟩ = (.ok 36, ⟨natText v.length ++ crlf ++ p, net'⟩) := by
      have hlen : (36 :: (natText v.length ++ crlf ++ p)).length ≤ bufSize := by simp [crlf]; omega
      simp only [readByte, fill, List.length_nil, Nat.sub_zero, netRead, List.take_of_length_le hlen, List.drop_of_length_le hlen,
        Option.map_some, List.nil_append, hnr]
    obtain ⟨k, hk1, hk2⟩ := atoi_natText (n := v.length) (by omega)
    have hk3 : ¬ k.toInt = -1 := by omega
    have hk4 : ¬ (k.toInt < 0 ∨ maxAlloc < k.toInt) := by simp only [maxAlloc]; omega
    have hk5 : k.toInt.toNat = v.length := by omega
    have h2 : Resp.read v.length ⟨p, net'⟩ = (.ok p, ⟨[], net'⟩) := by
      cases p with
      | nil => exact absurd rfl hp
      | cons b p =>
        have hn : ¬ v.length = 0 := by omega
        simp only [Resp.read, if_neg hn]
        rw [List.take_of_length_le (by omega), List.drop_of_length_le (by omega)]
    have h3 : readLine ⟨[], net'⟩ = (.ok [], ⟨ser m, [[]]⟩) := by
      have hlen : (10 :: ser m).length ≤ bufSize := by rw [hb]; simp [crlf]; omega
      simp only [readLine, readSlice, hnr, splitNL, fill, List.length_nil, Nat.sub_zero, netRead, List.take_of_length_le hlen,
        List.drop_of_length_le hlen, Option.map_some, List.nil_append]
      rfl
    simp only [readMessage, readMsg, h1, andThen, readInt, readLine_buffered (natText_no_nl v.length), hk1,
      if_true, if_neg hk3, readBulk, if_neg hk4, hk5, h2, h3]
    have : v.length - p.length = 1 + body.length := by omega
    rw [this]
  · refine ⟨hf, toks m, [[]], by simp [toks_flatten], rfl, by simp, by simp, ?_, ?_⟩
    · intro t ht; exact toks_ne m t (by simpa using ht)
    · simp only [Rd.WF]; rw [hb]; simp [crlf]; omega

/-- The forged reply may be anything short enough, for instance a text or a list. -/
example : (∃ body, ser (.array [.bulk b!"x", .int 7]) = body ++ crlf ∧ (b!"a" ++ [10] ++ body).length + 30 ≤ bufSize) ∧
    Fits (fun l => l.length + 2 ≤ bufSize) (fun _ => True) (.array [.bulk b!"x", .int 7]) :=
  ⟨⟨b!"*2\r\n$1\r\nx\r\n:7", by decide +kernel, by decide +kernel⟩, fits_ofB (by decide +kernel)⟩

/-- The hypotheses of `C91_late_violated` are met after that: three calls, each answered late. -/
example : ∃ r, Holding (.bulk b!"EVIL") r ∧
    TokenRun openServer ⟨0, false⟩ [(0, 0, .set b!"k" b!"v", whole), (0, 1, .get b!"k", whole), (0, 2, .incr b!"n", whole)] := by
  obtain ⟨a, b, r, _, _, h⟩ := C91_forged_violated (.bulk b!"EVIL") b!"a" b!"$4\r\nEVIL" (by decide +kernel) (by decide)
    (fits_ofB (by decide +kernel)) (by decide +kernel)
  refine ⟨r, h, tokenCut_whole (fits_ofB ?_) ?_, tokenCut_whole (fits_ofB ?_) ?_, tokenCut_whole (fits_ofB ?_) ?_, trivial⟩ <;>
    decide +kernel

/-- C91 is false: the value stored at `k` decides what is read at another key. -/
theorem C91_violated :
    let evil : Bytes := b!"a\n$4\r\nEVIL"
    let cut : Cut := fun b => if b = ser (.bulk evil) then [b!"$10\r\na", b!"\n$4\r\nEVIL\r\n"] else [b]
    Cut.Faithful cut ∧
    answersOn (fun _ => F64.zero) openServer readyConns
      [(0, 0, .set b!"k" evil, cut), (0, 1, .get b!"k", cut), (0, 2, .get b!"nothing", cut), (0, 3, .strLen b!"k", cut)] =
      [some ⟨.text [], none⟩, some ⟨.text (b!"a" ++ List.replicate 9 0), none⟩, some ⟨.text b!"EVIL", none⟩,
       some ⟨.int 0, some (.reply b!"Nil")⟩] := by
  refine ⟨?_, by decide +kernel⟩
  intro b
  by_cases h : b = ser (.bulk b!"a\n$4\r\nEVIL")
  · simp only [h, if_true]; decide +kernel
  · simp [h]

end Verif.Client

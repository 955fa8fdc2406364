import Verif.Client.PropsRemote
import Verif.Resp.PropsExact
/-!
# C91, exactly: which cuts of a reply do harm
-/
namespace Verif.Client
open Verif.Resp

variable {bad : Bytes → F64}

/-- The part of a payload that has not arrived when the client reads it. -/
def behind (cut : Cut) (p : Bytes) : Bytes := p.drop (arrived p.length (behindHeader ⟨[], cut (ser (.bulk p))⟩))

/-- What the client reads of a bulk reply, in every case. -/
theorem exchange_bulk {s : Server} {c : Conn} {t : Int} {cmd : List Bytes} {cut : Cut} {p : Bytes} (hc : c.Ready)
    (hm : (serve s c.login t cmd).2.2 = .bulk p) (hp : (p.length : Int) ≤ maxAlloc) (hcut : cut.Faithful) :
    ((exchange s c t cmd cut).1 = (serve s c.login t cmd).1 ∧ (exchange s c t cmd cut).2.1.login = (serve s c.login t cmd).2.1) ∧
    ((exchange s c t cmd cut).2.2 = .ok (.bulk p) ↔ ∀ b ∈ behind cut p, b = 0) ∧
    ((exchange s c t cmd cut).2.1.Ready ↔ (10 : UInt8) ∉ behind cut p ∧ (behind cut p).length + 2 ≤ bufSize) := by
  obtain ⟨hb, hn⟩ := quiet_parts hc.2
  have hsafe := C47_binary_safe cmd []
  rw [List.append_nil] at hsafe
  have hwf : Rd.WF ⟨c.rd.buf, c.rd.net ++ cut (ser (.bulk p))⟩ := by simp [Rd.WF, hb]
  have hflat : Rd.flat ⟨c.rd.buf, c.rd.net ++ cut (ser (.bulk p))⟩ = ser (.bulk p) ++ [] := by
    have : c.rd.net.flatten = [] := List.flatten_eq_nil_iff.2 hn
    simp [Rd.flat, hb, this, hcut _]
  have hlate : p.drop (arrived p.length (behindHeader ⟨c.rd.buf, c.rd.net ++ cut (ser (.bulk p))⟩)) = behind cut p := by
    rw [hb, behindHeader_skip hn]; rfl
  have e : exchange s c t cmd cut = ((serve s c.login t cmd).1, ⟨(serve s c.login t cmd).2.1,
      (readMessage ⟨c.rd.buf, c.rd.net ++ cut (ser (.bulk p))⟩).2, true⟩, (readMessage ⟨c.rd.buf, c.rd.net ++ cut (ser (.bulk p))⟩).1) := by
    simp only [exchange, hc.1, if_true, hsafe, hm]
  have h1 := C46_exact p [] hp _ hwf hflat
  have h2 := C46_exact_place p [] hp _ hwf hflat
  rw [hlate] at h1 h2
  obtain ⟨n, hn1, hn2, hn3, hn4⟩ := header_at hp hwf hflat
  have hw' : (readMessage ⟨c.rd.buf, c.rd.net ++ cut (ser (.bulk p))⟩).2.WF := by
    rw [hn2]
    obtain ⟨r', k1, _⟩ := readBulk_result hp hn3 hn4 hn1
    rcases readBulk_any n _ hn3 with ⟨m, r2, k2, k3, _⟩ | ⟨e, r2, k2, _⟩ | ⟨r2, k2, _⟩
    · rw [k2]; exact k3
    · rw [k1] at k2; simp at k2
    · rw [k1] at k2; simp at k2
  rw [e]
  refine ⟨⟨rfl, rfl⟩, h1, ?_⟩
  rw [← h2]
  exact ⟨fun h => h.2.1, fun h => ⟨rfl, h, hw'⟩⟩

/-- C91, exactly, for one call whose reply carries one payload, on a connection that is in step: the call gets the reply the server gave to it if and only if
the part of the payload that had not arrived when it was read consists of zero bytes; and the connection is in step for the next call if and only if that part
has no newline in it and fits, with its line end, into the buffer. -/
theorem C91_bulk_exact (s : Server) (c : Conn) (t : Int) (q : Req) (cut : Cut) (p : Bytes) (hc : c.Ready)
    (hm : (serve s c.login t (args q)).2.2 = .bulk p) (hp : (p.length : Int) ≤ maxAlloc) (hcut : cut.Faithful) :
    ((exchange s c t (args q) cut).2.2 = .ok (.bulk p) ↔ ∀ b ∈ behind cut p, b = 0) ∧
    ((exchange s c t (args q) cut).2.1.Ready ↔ (10 : UInt8) ∉ behind cut p ∧ (behind cut p).length + 2 ≤ bufSize) :=
  (exchange_bulk hc hm hp hcut).2

/-- What a call gets on a connection that may be out of step. -/
theorem exchange_up {s : Server} {c : Conn} {t : Int} {cmd : List Bytes} {cut : Cut} (hc : c.up = true) :
    exchange s c t cmd cut = ((serve s c.login t cmd).1, ⟨(serve s c.login t cmd).2.1,
      (readMessage ⟨c.rd.buf, c.rd.net ++ cut (ser (serve s c.login t cmd).2.2)⟩).2, true⟩,
      (readMessage ⟨c.rd.buf, c.rd.net ++ cut (ser (serve s c.login t cmd).2.2)⟩).1) := by
  have hsafe := C47_binary_safe cmd []
  rw [List.append_nil] at hsafe
  simp only [exchange, hc, if_true, hsafe]

/-- A connection on which leftover bytes stand in front. -/
def Off (c : Conn) : Prop := c.up = true ∧ Astray [] c.rd

theorem off_call {s : Server} {c : Conn} {t : Int} {cmd : List Bytes} {cut : Cut} (h : Off c) : ∀ m, (exchange s c t cmd cut).2.2 ≠ .ok m := by
  obtain ⟨hu, hw, b, u, h1, h2⟩ := h
  intro m hm
  rw [exchange_up hu] at hm
  have hA : Astray [] ⟨c.rd.buf, c.rd.net ++ cut (ser (serve s c.login t cmd).2.2)⟩ := by
    refine ⟨by simpa [Rd.WF] using hw, b, u ++ (cut (ser (serve s c.login t cmd).2.2)).flatten, ?_, h2⟩
    have e : Rd.flat ⟨c.rd.buf, c.rd.net ++ cut (ser (serve s c.login t cmd).2.2)⟩ = c.rd.flat ++ (cut (ser (serve s c.login t cmd).2.2)).flatten := by
      simp [Rd.flat]
    rw [e, h1]; simp
  obtain ⟨e, r', k⟩ := astray_msg hA (2 * (Rd.flat ⟨c.rd.buf, c.rd.net ++ cut (ser (serve s c.login t cmd).2.2)⟩).length + 1)
  simp only [readMessage, k] at hm
  cases hm

/-- A reply the reader cannot join is misread, or leaves bytes in front. -/
theorem exchange_cases {s : Server} {c : Conn} {t : Int} {cmd : List Bytes} {cut : Cut} (hc : c.Ready)
    (hl : Lines (serve s c.login t cmd).2.2) (hcut : cut.Faithful)
    (hn : ¬ Carried cut (serve s c.login t cmd).2.2) (hr : (exchange s c t cmd cut).2.2 = .ok (serve s c.login t cmd).2.2) :
    Off (exchange s c t cmd cut).2.1 := by
  obtain ⟨h1, h2⟩ := quiet_flat (b := cut (ser (serve s c.login t cmd).2.2)) hc.2
  obtain ⟨hb, he⟩ := quiet_parts hc.2
  rw [hcut] at h1
  rw [exchange_up hc.1] at hr ⊢
  have hj : ¬ Joins (serve s c.login t cmd).2.2 ⟨c.rd.buf, c.rd.net ++ cut (ser (serve s c.login t cmd).2.2)⟩ := by
    rw [hb, joins_skip he]
    exact fun h => hn ⟨hl, hcut _, h⟩
  exact ⟨rfl, (join_msg _ _ [] _ hl (by rw [h1]; omega) h2 (by rw [h1]; simp)).2 hj _ (Prod.ext hr rfl)⟩

theorem off_not_ready {c : Conn} (h : Off c) : ¬ c.Ready := by
  obtain ⟨_, _, b, u, h1, _⟩ := h
  intro hr
  have := hr.2.1
  rw [h1] at this
  simp at this

/-- C91, exactly, for one call on a connection in step and any reply whose lines can be read, arrays included: the call gets the reply the server gave to it and
leaves the connection in step if and only if of each payload in the reply the part that has not arrived when it is read is zero and fits the buffer. -/
theorem C91_exact (s : Server) (c : Conn) (t : Int) (q : Req) (cut : Cut) (hc : c.Ready) (hl : Lines (serve s c.login t (args q)).2.2) (hcut : cut.Faithful) :
    ((exchange s c t (args q) cut).2.2 = .ok (serve s c.login t (args q)).2.2 ∧ (exchange s c t (args q) cut).2.1.Ready) ↔
      Carried cut (serve s c.login t (args q)).2.2 := by
  constructor
  · rintro ⟨h1, h2⟩
    exact Classical.byContradiction fun hn => off_not_ready (exchange_cases hc hl hcut hn h1) h2
  · intro h
    obtain ⟨c', e1, _, e3⟩ := exchange_ready hc h
    rw [e1]
    exact ⟨rfl, e3⟩

/-! ## Histories -/

/-- The messages the calls of a history read, and the connections behind them. -/
def readsOn : Server → (Nat → Conn) → List (Nat × Int × Req × Cut) → List (RRes Msg) × (Nat → Conn)
  | _, cs, [] => ([], cs)
  | s, cs, (i, t, q, cut) :: h =>
    let x := exchange s (cs i) t (args q) cut
    let y := readsOn x.1 (fun j => if j = i then x.2.1 else cs j) h
    (x.2.2 :: y.1, y.2)

/-- The replies of the server, each to its own request. -/
def repliesOf : Server → (Nat → Login) → List (Nat × Int × Req × Cut) → List Msg
  | _, _, [] => []
  | s, ls, (i, t, q, _) :: h =>
    let r := serve s (ls i) t (args q)
    r.2.2 :: repliesOf r.1 (fun j => if j = i then r.2.1 else ls j) h

/-- What the calls of a history show is made from what they read. -/
theorem answersOn_reads (h : List (Nat × Int × Req × Cut)) (s : Server) (cs : Nat → Conn) :
    answersOn bad s cs h = List.zipWith (fun e x => result bad e.2.2.1 x) h (readsOn s cs h).1 := by
  induction h generalizing s cs with
  | nil => rfl
  | cons e h ih => obtain ⟨i, t, q, cut⟩ := e; simp only [answersOn, readsOn, List.zipWith_cons_cons, ih]

/-- A connection with leftover bytes in front does not give a message any more, and is not in step at the end. -/
theorem off_reads (h : List (Nat × Int × Req × Cut)) (s : Server) (cs : Nat → Conn) (ms : List Msg) (i : Nat) (hi : Off (cs i))
    (hr : (readsOn s cs h).1 = ms.map .ok) : ¬ ((readsOn s cs h).2 i).Ready := by
  induction h generalizing s cs ms with
  | nil => exact off_not_ready hi
  | cons e h ih =>
    obtain ⟨j, t, q, cut⟩ := e
    cases ms with
    | nil => simp [readsOn] at hr
    | cons m ms =>
      simp only [readsOn, List.map_cons, List.cons.injEq] at hr
      by_cases hj : j = i
      · subst hj; exact absurd hr.1 (off_call hi m)
      · exact ih _ _ ms (by simp only [if_neg (Ne.symm hj)]; exact hi) hr.2

/-- C91, exactly, for histories on any number of connections, calls interleaved in any way: every call reads the server's reply to its own request and all
connections are in step at the end if and only if every reply comes in a way the reader can join. -/
theorem C91_run_exact (h : List (Nat × Int × Req × Cut)) (s : Server) (cs : Nat → Conn) (hc : ∀ i, (cs i).Ready) (hcut : ∀ e ∈ h, e.2.2.2.Faithful)
    (hl : ∀ m ∈ repliesOf s (fun i => (cs i).login) h, Lines m) :
    ((readsOn s cs h).1 = (repliesOf s (fun i => (cs i).login) h).map .ok ∧ ∀ i, ((readsOn s cs h).2 i).Ready) ↔
      CarriedRun s (fun i => (cs i).login) h := by
  induction h generalizing s cs with
  | nil => simpa [readsOn, repliesOf, CarriedRun] using hc
  | cons e h ih =>
    obtain ⟨i, t, q, cut⟩ := e
    have hl1 : Lines (serve s (cs i).login t (args q)).2.2 := hl _ (by simp [repliesOf])
    have hcut1 : cut.Faithful := hcut _ List.mem_cons_self
    simp only [readsOn, repliesOf, CarriedRun, List.map_cons, List.cons.injEq]
    by_cases hk : Carried cut (serve s (cs i).login t (args q)).2.2
    · obtain ⟨c', e1, e2, e3⟩ := exchange_ready (t := t) (cmd := args q) (hc i) hk
      have hlog : (fun j => if j = i then (serve s (cs i).login t (args q)).2.1 else (cs j).login) =
          fun j => (if j = i then c' else cs j).login := by
        funext j; split <;> simp [e2]
      have hx := ih (serve s (cs i).login t (args q)).1 (fun j => if j = i then c' else cs j)
        (by intro j; by_cases h : j = i <;> simp [h, e3, hc]) (fun e he => hcut e (List.mem_cons_of_mem _ he))
        (fun m hm => hl m (by simp only [repliesOf, hlog]; exact List.mem_cons_of_mem _ hm))
      rw [e1, hlog]
      simp only [true_and, hk]
      exact hx
    · refine ⟨fun ⟨⟨h1, h2⟩, h3⟩ => ?_, fun h => absurd h.1 hk⟩
      exfalso
      refine off_reads h _ _ _ i ?_ h2 (h3 i)
      simp only [if_true]
      exact exchange_cases (hc i) hl1 hcut1 hk h1

/-- A cut behind the fifth byte. -/
def fifth : Cut := fun b => [b.take 5, b.drop 5]

/-- A history that comes through though a payload is cut, and one that does not; the hypotheses of the theorems hold of both. -/
example : CarriedRun openServer (fun _ => ⟨0, true⟩) [(0, 0, .set b!"k" [97, 0], bytewise), (1, 1, .get b!"k", fifth)] ∧
    ¬ CarriedRun openServer (fun _ => ⟨0, true⟩) [(0, 0, .set b!"k" [97, 98], bytewise), (1, 1, .get b!"k", fifth)] ∧
    (∀ m ∈ repliesOf openServer (fun _ => ⟨0, true⟩) [(0, 0, .set b!"k" [97, 98], bytewise), (1, 1, .get b!"k", fifth)], Lines m) ∧
    fifth.Faithful := by
  refine ⟨⟨carried_short ⟨fits_ofB1 ?_, faithful_bytewise _⟩, ⟨fits_ofB ?_, by simp [fifth], ?_⟩, trivial⟩, ?_, ?_, fun b => by simp [fifth]⟩
  · decide +kernel
  · decide +kernel
  · have : (serve (serve openServer ⟨0, true⟩ 0 (args (.set b!"k" [97, 0]))).1 ⟨0, true⟩ 1 (args (.get b!"k"))).2.2 = .bulk [97, 0] := by decide +kernel
    simp only [show ¬ ((1 : Nat) = 0) by decide, if_false, this, Joins]
    decide +kernel
  · rintro ⟨_, ⟨_, _, h⟩, _⟩
    have : (serve (serve openServer ⟨0, true⟩ 0 (args (.set b!"k" [97, 98]))).1 ⟨0, true⟩ 1 (args (.get b!"k"))).2.2 = .bulk [97, 98] := by decide +kernel
    simp only [show ¬ ((1 : Nat) = 0) by decide, if_false, this, Joins] at h
    revert h
    decide +kernel
  · have : repliesOf openServer (fun _ => ⟨0, true⟩) [(0, 0, .set b!"k" [97, 98], bytewise), (1, 1, .get b!"k", fifth)] = [.simple b!"OK", .bulk [97, 98]] := by
      decide +kernel
    rw [this]
    intro m hm
    rcases List.mem_cons.1 hm with rfl | hm
    · exact fits_ofB (by decide +kernel)
    · rcases List.mem_cons.1 hm with rfl | hm
      · exact fits_ofB (by decide +kernel)
      · cases hm

/-- A payload cut behind its first byte: `ab` is answered wrongly but the connection stays in step, `a` and a zero byte come through, and a newline in the late
part puts the connection out of step. -/
example : behind fifth b!"ab" = b!"b" ∧ behind fifth [97, 0] = [0] ∧ behind fifth [97, 10] = [10] := by decide +kernel

end Verif.Client

import Verif.Resp.Lemmas
import Verif.Rdb.Model

/-!
# A file as a sequence of pieces, and as the blocks in which it is read

`Piece`s say how the loader takes the bytes; `segs` are the blocks a reader delivers.
-/

namespace Verif.Rdb

open Verif.Resp

/-- A byte, some bytes read by `io.ReadFull`, or some bytes read by a single `Read`. -/
inductive Piece where
  | one (b : UInt8)
  | full (bs : Bytes)
  | raw (bs : Bytes)

/-- The bytes of a piece. -/
def Piece.bytes : Piece → Bytes
  | .one b => [b]
  | .full bs => bs
  | .raw bs => bs

/-- The bytes of a file. -/
def bytes (ps : List Piece) : Bytes := ps.flatMap Piece.bytes

@[simp] theorem bytes_nil : bytes [] = [] := rfl
@[simp] theorem bytes_cons (p : Piece) (ps : List Piece) : bytes (p :: ps) = p.bytes ++ bytes ps := rfl
@[simp] theorem bytes_append (ps qs : List Piece) : bytes (ps ++ qs) = bytes ps ++ bytes qs := by simp [bytes]

/-- Put a segment in front, unless it is empty. -/
def consS (s : Bytes) (ss : List Bytes) : List Bytes := if s = [] then ss else s :: ss

/-- A chunk of the underlying file as it is read through a buffer of `bufSize`. -/
def blocks (c : Bytes) : List Bytes :=
  if _ : c = [] then [] else c.take bufSize :: blocks (c.drop bufSize)
termination_by c.length
decreasing_by
  have := List.length_pos_iff.mpr ‹_›
  simp [bufSize]; omega

/-- The blocks still to be read: what is buffered, then each chunk cut to the size of the buffer. -/
def segs (r : Rd) : List Bytes := consS r.buf (r.net.flatMap blocks)

/-- Dropping bytes from the front of a list of segments. -/
def sdrop : Nat → List Bytes → List Bytes
  | _, [] => []
  | n, s :: ss => if n < s.length then s.drop n :: ss else sdrop (n - s.length) ss

/-- No piece that is read by a single `Read` extends beyond the segment it starts in. -/
def Uncut : List Piece → List Bytes → Prop
  | [], _ => True
  | p :: ps, ss =>
    (match p with
      | .raw bs => bs.length ≤ (ss.headD []).length
      | _ => True) ∧ Uncut ps (sdrop p.bytes.length ss)

/-- The reader `r` is about to deliver the pieces `ps` and then `rest`.  (Requests of `bufSize` or more
bypass the buffer; for them the chunks must not be larger than the buffer.) -/
structure Holds (ps : List Piece) (rest : Bytes) (r : Rd) : Prop where
  wf : r.WF
  flat : r.flat = bytes ps ++ rest
  uncut : Uncut ps (segs r)
  small : (∀ c ∈ r.net, c.length ≤ bufSize) ∨ (∀ p ∈ ps, p.bytes.length < bufSize)

/-! ## Segments -/

theorem consS_flatten (s : Bytes) (ss : List Bytes) : (consS s ss).flatten = s ++ ss.flatten := by
  unfold consS; split
  · rename_i h; simp [h]
  · simp

theorem blocks_flatten (c : Bytes) : (blocks c).flatten = c := by
  induction h : c.length using Nat.strongRecOn generalizing c with
  | _ n ih =>
    rw [blocks]
    by_cases hc : c = []
    · simp [hc]
    · rw [dif_neg hc, List.flatten_cons]
      have hp := List.length_pos_iff.mpr hc
      rw [ih (c.drop bufSize).length (by simp [bufSize]; omega) _ rfl, List.take_append_drop]

theorem segs_flatten (r : Rd) : (segs r).flatten = r.flat := by
  unfold segs
  rw [consS_flatten, Rd.flat]
  congr 1
  induction r.net with
  | nil => rfl
  | cons c cs ih => simp [blocks_flatten, ih]

theorem blocks_small {c : Bytes} (h : c.length ≤ bufSize) : blocks c = consS c [] := by
  rw [blocks]
  unfold consS
  by_cases hc : c = []
  · simp [hc]
  · rw [dif_neg hc, if_neg hc, List.take_of_length_le h, List.drop_of_length_le h, blocks]
    simp

theorem blocks_ne {c : Bytes} (h : c ≠ []) : blocks c = c.take bufSize :: blocks (c.drop bufSize) := by
  conv => lhs; rw [blocks]
  rw [dif_neg h]

theorem sdrop_zero (ss : List Bytes) (h : ∀ s ∈ ss, s ≠ []) : sdrop 0 ss = ss := by
  cases ss with
  | nil => rfl
  | cons s ss =>
    have := List.length_pos_iff.mpr (h s (by simp))
    simp [sdrop, this]

theorem blocks_mem_ne {c s : Bytes} (h : s ∈ blocks c) : s ≠ [] := by
  induction hn : c.length using Nat.strongRecOn generalizing c with
  | _ n ih =>
    rw [blocks] at h
    by_cases hc : c = []
    · simp [hc] at h
    · rw [dif_neg hc] at h
      have hp := List.length_pos_iff.mpr hc
      rcases List.mem_cons.mp h with rfl | h
      · intro e; have := congrArg List.length e; rw [List.length_take] at this; simp only [bufSize, List.length_nil] at this; omega
      · exact ih _ (by simp [bufSize]; omega) h rfl

theorem segs_ne {r : Rd} : ∀ s ∈ segs r, s ≠ [] := by
  intro s hs
  unfold segs consS at hs
  split at hs
  · rw [List.mem_flatMap] at hs
    obtain ⟨c, _, h⟩ := hs
    exact blocks_mem_ne h
  · rename_i hb
    rcases List.mem_cons.mp hs with rfl | hs
    · exact hb
    · rw [List.mem_flatMap] at hs
      obtain ⟨c, _, h⟩ := hs
      exact blocks_mem_ne h

theorem sdrop_cons_of_lt {n : Nat} {s : Bytes} {ss : List Bytes} (h : n < s.length) :
    sdrop n (s :: ss) = s.drop n :: ss := by simp [sdrop, h]

theorem sdrop_cons {n : Nat} {s : Bytes} {ss : List Bytes} (h : n ≤ s.length) (hss : ∀ t ∈ ss, t ≠ []) :
    sdrop n (s :: ss) = consS (s.drop n) ss := by
  by_cases hlt : n < s.length
  · rw [sdrop_cons_of_lt hlt, consS, if_neg (by intro e; have := congrArg List.length e; simp at this; omega)]
  · have he : n = s.length := by omega
    subst he
    simp [sdrop, consS, sdrop_zero ss hss]

theorem sdrop_sdrop (a b : Nat) (ss : List Bytes) (h : ∀ s ∈ ss, s ≠ []) : sdrop b (sdrop a ss) = sdrop (a + b) ss := by
  induction ss generalizing a with
  | nil => simp [sdrop]
  | cons s ss ih =>
    have hp := List.length_pos_iff.mpr (h s (by simp))
    have h' : ∀ s ∈ ss, s ≠ [] := fun t ht => h t (by simp [ht])
    simp only [sdrop]
    by_cases ha : a < s.length
    · rw [if_pos ha]
      simp only [sdrop, List.length_drop]
      by_cases hb : b < s.length - a
      · rw [if_pos hb, if_pos (by omega), List.drop_drop]
      · rw [if_neg hb, if_neg (by omega)]
        congr 1; omega
    · rw [if_neg ha, if_neg (by omega), ih _ h']
      congr 1; omega

theorem sdrop_ne (n : Nat) {ss : List Bytes} (h : ∀ s ∈ ss, s ≠ []) : ∀ s ∈ sdrop n ss, s ≠ [] := by
  induction ss generalizing n with
  | nil => simp [sdrop]
  | cons s ss ih =>
    simp only [sdrop]
    split
    · rename_i hlt
      intro t ht
      rcases List.mem_cons.mp ht with rfl | ht
      · intro e; have := congrArg List.length e; simp at this; omega
      · exact h t (by simp [ht])
    · exact ih _ (fun t ht => h t (by simp [ht]))

theorem sdrop_flatten (n : Nat) (ss : List Bytes) : (sdrop n ss).flatten = ss.flatten.drop n := by
  induction ss generalizing n with
  | nil => simp [sdrop]
  | cons s ss ih =>
    simp only [sdrop]
    split
    · rw [List.flatten_cons, List.flatten_cons, List.drop_append_of_le_length (by omega)]
    · rw [ih, List.flatten_cons, List.drop_append, List.drop_of_length_le (l := s) (by omega)]; rfl

/-! ## Reading in terms of segments -/

/-- The chunk condition of a request for `n` bytes. -/
def Ready (n : Nat) (r : Rd) : Prop := (∀ c ∈ r.net, c.length ≤ bufSize) ∨ n < bufSize

theorem netRead_segs {cap : Nat} {net : List Bytes} (hc : (∀ c ∈ net, c.length ≤ bufSize) ∧ bufSize ≤ cap ∨ cap = bufSize)
    {s : Bytes} {ss : List Bytes} (h : net.flatMap blocks = s :: ss) :
    ∃ net', netRead cap net = some (s, net') ∧ net'.flatMap blocks = ss ∧ s.length ≤ bufSize ∧
      ((∀ c ∈ net, c.length ≤ bufSize) → ∀ c ∈ net', c.length ≤ bufSize) := by
  induction net with
  | nil => simp at h
  | cons c cs ih =>
    cases c with
    | nil =>
      have hb : blocks [] = [] := by rw [blocks]; simp
      simp only [List.flatMap_cons, hb, List.nil_append] at h
      obtain ⟨net', h1, h2, h3, h4⟩ := ih (by
        rcases hc with ⟨h1, h2⟩ | h1
        · exact .inl ⟨fun c hc => h1 c (by simp [hc]), h2⟩
        · exact .inr h1) h
      exact ⟨net', by simpa [netRead] using h1, h2, h3, fun ha => h4 (fun c hc => ha c (by simp [hc]))⟩
    | cons b bs =>
      simp only [List.flatMap_cons] at h
      rw [blocks_ne (by simp)] at h
      simp only [List.cons_append, List.cons.injEq] at h
      obtain ⟨h1, h2⟩ := h
      have htake : (b :: bs).take cap = s ∧ (b :: bs).drop cap = (b :: bs).drop bufSize := by
        rcases hc with ⟨ha, hb⟩ | rfl
        · have hl := ha (b :: bs) (by simp)
          rw [List.take_of_length_le (by omega), ← h1, List.take_of_length_le hl, List.drop_of_length_le (by omega),
            List.drop_of_length_le hl]
          exact ⟨rfl, rfl⟩
        · exact ⟨h1, rfl⟩
      refine ⟨(b :: bs).drop cap :: cs, ?_, ?_, ?_, ?_⟩
      · simp only [netRead, htake.1]
      · rw [List.flatMap_cons, htake.2]; exact h2
      · rw [← h1]; simp; omega
      · intro ha c hcm
        rcases List.mem_cons.mp hcm with rfl | hcm
        · have := ha (b :: bs) (by simp)
          simp only [List.length_drop]; omega
        · exact ha c (by simp [hcm])

theorem readByte_segs {r : Rd} (hw : r.WF) {b : UInt8} {s : Bytes} {ss : List Bytes} (h : segs r = (b :: s) :: ss) :
    ∃ r', readByte r = (.ok b, r') ∧ segs r' = consS s ss ∧ r'.WF ∧
      ((∀ c ∈ r.net, c.length ≤ bufSize) → ∀ c ∈ r'.net, c.length ≤ bufSize) := by
  obtain ⟨buf, net⟩ := r
  cases buf with
  | cons c bs =>
    simp only [segs, consS] at h
    rw [if_neg (by simp)] at h
    simp only [List.cons.injEq] at h
    obtain ⟨⟨rfl, rfl⟩, rfl⟩ := h
    refine ⟨⟨bs, net⟩, rfl, rfl, ?_, fun h => h⟩
    simp only [Rd.WF, List.length_cons] at hw ⊢; omega
  | nil =>
    simp only [segs, consS, if_true] at h
    obtain ⟨net', h1, h2, h3, h4⟩ := netRead_segs (.inr rfl) h
    refine ⟨⟨s, net'⟩, ?_, ?_, ?_, h4⟩
    · simp only [readByte, fill, List.length_nil, Nat.sub_zero, h1, Option.map_some, List.nil_append]
    · simp only [segs, h2]
    · simp only [Rd.WF, List.length_cons] at h3 ⊢; omega

theorem read_segs {r : Rd} (hw : r.WF) {n : Nat} (hn : 0 < n) (hr : Ready n r) {s : Bytes} {ss : List Bytes} (h : segs r = s :: ss) :
    ∃ r', read n r = (.ok (s.take n), r') ∧ segs r' = consS (s.drop n) ss ∧ r'.WF ∧
      ((∀ c ∈ r.net, c.length ≤ bufSize) → ∀ c ∈ r'.net, c.length ≤ bufSize) := by
  obtain ⟨buf, net⟩ := r
  have hn0 : ¬ n = 0 := by omega
  cases buf with
  | cons c bs =>
    simp only [segs, consS] at h
    rw [if_neg (by simp)] at h
    simp only [List.cons.injEq] at h
    obtain ⟨rfl, rfl⟩ := h
    refine ⟨⟨(c :: bs).drop n, net⟩, ?_, rfl, ?_, fun h => h⟩
    · simp only [Resp.read, if_neg hn0]
    · simp only [Rd.WF] at hw ⊢; simp only [List.length_drop]; omega
  | nil =>
    simp only [segs, consS, if_true] at h
    by_cases hb : bufSize ≤ n
    · have hsm : ∀ c ∈ net, c.length ≤ bufSize := by
        rcases hr with h | h
        · exact h
        · omega
      obtain ⟨net', h1, h2, h3, h4⟩ := netRead_segs (.inl ⟨hsm, hb⟩) h
      refine ⟨⟨[], net'⟩, ?_, ?_, by simp [Rd.WF], h4⟩
      · simp only [Resp.read, if_neg hn0, if_pos hb, h1]
        rw [List.take_of_length_le (by omega)]
      · rw [List.drop_of_length_le (by omega)]
        simp only [segs, h2]
    · obtain ⟨net', h1, h2, h3, h4⟩ := netRead_segs (.inr rfl) h
      refine ⟨⟨s.drop n, net'⟩, ?_, ?_, ?_, h4⟩
      · simp only [Resp.read, if_neg hn0, if_neg hb, h1]
      · simp only [segs, h2]
      · simp only [Rd.WF, List.length_drop]; omega

theorem readFull_segs {f n : Nat} {r : Rd} (hw : r.WF) (hf : n ≤ f) (hr : Ready n r) (hl : n ≤ r.flat.length) :
    ∃ r', readFullAux f n r = (.ok (r.flat.take n), r') ∧ segs r' = sdrop n (segs r) ∧ r'.WF ∧
      ((∀ c ∈ r.net, c.length ≤ bufSize) → ∀ c ∈ r'.net, c.length ≤ bufSize) := by
  induction f generalizing n r with
  | zero =>
    have : n = 0 := by omega
    subst this
    exact ⟨r, by simp [readFullAux], (sdrop_zero _ segs_ne).symm, hw, fun h => h⟩
  | succ f ih =>
    cases n with
    | zero => exact ⟨r, by simp [readFullAux], (sdrop_zero _ segs_ne).symm, hw, fun h => h⟩
    | succ n =>
      have hfl := segs_flatten r
      cases hs : segs r with
      | nil => rw [hs] at hfl; rw [← hfl] at hl; simp at hl
      | cons s ss =>
        have hne : s ≠ [] := segs_ne (r := r) s (by rw [hs]; simp)
        have hpos := List.length_pos_iff.mpr hne
        obtain ⟨r1, h1, h2, h3, h4⟩ := read_segs hw (by omega) hr hs
        have hss : ∀ t ∈ ss, t ≠ [] := fun t ht => segs_ne (r := r) t (by rw [hs]; simp [ht])
        have hr1 : Ready (n + 1 - (s.take (n + 1)).length) r1 := by
          rcases hr with h | h
          · exact .inl (h4 h)
          · exact .inr (by omega)
        have hfl1 : r1.flat = s.drop (n + 1) ++ ss.flatten := by rw [← segs_flatten, h2, consS_flatten]
        rw [hs] at hfl
        simp only [List.flatten_cons] at hfl
        have hlen : r.flat.length = s.length + ss.flatten.length := by rw [← hfl]; simp
        obtain ⟨r2, g1, g2, g3, g4⟩ := ih h3 (n := n + 1 - (s.take (n + 1)).length) (by rw [List.length_take]; omega) hr1
          (by rw [hfl1, List.length_append, List.length_drop, List.length_take]; omega)
        refine ⟨r2, ?_, ?_, g3, fun h => g4 (h4 h)⟩
        · simp only [readFullAux, h1, andThen, g1]
          congr 2
          rw [hfl1, ← hfl, List.take_append, List.length_take, List.take_append (l₁ := s)]
          congr 1
          by_cases hle : n + 1 ≤ s.length
          · have e1 : n + 1 - min (n + 1) s.length = 0 := by omega
            have e2 : n + 1 - s.length = 0 := by omega
            rw [e1, e2]; simp
          · have e1 : n + 1 - min (n + 1) s.length = n + 1 - s.length := by omega
            rw [e1, List.drop_of_length_le (by omega)]; simp
        · rw [g2, h2]
          by_cases hle : n + 1 ≤ s.length
          · rw [List.length_take, Nat.min_eq_left hle, Nat.sub_self, sdrop_zero, sdrop_cons hle hss]
            rw [← sdrop_cons hle hss]
            have : ∀ t ∈ s :: ss, t ≠ [] := by
              intro t ht
              rcases List.mem_cons.mp ht with rfl | ht
              · exact hne
              · exact hss t ht
            exact sdrop_ne _ this
          · rw [List.length_take, Nat.min_eq_right (by omega), List.drop_of_length_le (by omega)]
            simp [consS, sdrop]
            intro hlt; omega

/-! ## Reading pieces -/

theorem Holds.byte {b : UInt8} {ps : List Piece} {rest : Bytes} {r : Rd} (h : Holds (.one b :: ps) rest r) :
    ∃ r', readByte r = (.ok b, r') ∧ Holds ps rest r' := by
  obtain ⟨hw, hf, hu, hsm⟩ := h
  have hfl := segs_flatten r
  rw [hf] at hfl
  simp only [bytes_cons, Piece.bytes, List.cons_append, List.nil_append] at hfl
  cases hs : segs r with
  | nil => rw [hs] at hfl; simp at hfl
  | cons s ss =>
    have hne : s ≠ [] := segs_ne (r := r) s (by rw [hs]; simp)
    have hss : ∀ t ∈ ss, t ≠ [] := fun t ht => segs_ne (r := r) t (by rw [hs]; simp [ht])
    cases s with
    | nil => exact absurd rfl hne
    | cons c s =>
      rw [hs] at hfl
      simp only [List.flatten_cons, List.cons_append, List.cons.injEq] at hfl
      obtain ⟨rfl, hfl⟩ := hfl
      obtain ⟨r', h1, h2, h3, h4⟩ := readByte_segs hw hs
      refine ⟨r', h1, h3, ?_, ?_, ?_⟩
      · rw [← segs_flatten, h2, consS_flatten, hfl]
      · have hu2 := hu.2
        rw [hs] at hu2
        have : sdrop (Piece.one c).bytes.length ((c :: s) :: ss) = consS s ss := by
          rw [show (Piece.one c).bytes.length = 1 from rfl, sdrop_cons (by simp) hss]; rfl
        rw [this] at hu2
        rw [h2]; exact hu2
      · rcases hsm with h | h
        · exact .inl (h4 h)
        · exact .inr (fun p hp => h p (by simp [hp]))

theorem Holds.readFull {bs : Bytes} {ps : List Piece} {rest : Bytes} {r : Rd} (h : Holds (.full bs :: ps) rest r) :
    ∃ r', Rdb.readFull bs.length r = (.ok bs, r') ∧ Holds ps rest r' := by
  obtain ⟨hw, hf, hu, hsm⟩ := h
  have hr : Ready bs.length r := by
    rcases hsm with h | h
    · exact .inl h
    · exact .inr (h (.full bs) (by simp))
  obtain ⟨r', h1, h2, h3, h4⟩ := readFull_segs (f := bs.length) hw (Nat.le_refl _) hr (by rw [hf]; simp [Piece.bytes])
  have hflat : r'.flat = bytes ps ++ rest := by
    have e := segs_flatten r
    have e' := segs_flatten r'
    rw [h2] at e'
    rw [sdrop_flatten, e, hf] at e'
    rw [← e']
    simp [Piece.bytes]
  refine ⟨r', ?_, h3, hflat, by rw [h2]; exact hu.2, ?_⟩
  · rw [Rdb.readFull, h1, hf]
    simp [Piece.bytes]
  · rcases hsm with h | h
    · exact .inl (h4 h)
    · exact .inr (fun p hp => h p (by simp [hp]))

theorem Holds.read {bs : Bytes} {ps : List Piece} {rest : Bytes} {r : Rd} (h : Holds (.raw bs :: ps) rest r) :
    ∃ r', Resp.read bs.length r = (.ok bs, r') ∧ Holds ps rest r' := by
  obtain ⟨hw, hf, hu, hsm⟩ := h
  by_cases hbs : bs = []
  · subst hbs
    refine ⟨r, by simp [Resp.read], hw, by simpa [Piece.bytes] using hf, ?_, ?_⟩
    · have hu2 := hu.2
      rwa [show (Piece.raw []).bytes.length = 0 from rfl, sdrop_zero _ segs_ne] at hu2
    · rcases hsm with h | h
      · exact .inl h
      · exact .inr (fun p hp => h p (by simp [hp]))
  have hpos := List.length_pos_iff.mpr hbs
  have hr : Ready bs.length r := by
    rcases hsm with h | h
    · exact .inl h
    · exact .inr (h (.raw bs) (by simp))
  have hfl := segs_flatten r
  rw [hf] at hfl
  cases hs : segs r with
  | nil =>
    have hu1 := hu.1
    rw [hs] at hu1
    simp at hu1
    exact absurd hu1 hbs
  | cons s ss =>
    have hss : ∀ t ∈ ss, t ≠ [] := fun t ht => segs_ne (r := r) t (by rw [hs]; simp [ht])
    have hle : bs.length ≤ s.length := by
      have hu1 := hu.1
      rw [hs] at hu1
      exact hu1
    obtain ⟨r', h1, h2, h3, h4⟩ := read_segs hw hpos hr hs
    rw [hs] at hfl
    simp only [List.flatten_cons, bytes_cons, Piece.bytes] at hfl
    have ht : s.take bs.length = bs := by
      have := congrArg (List.take bs.length) hfl
      rw [List.take_append_of_le_length hle, List.append_assoc, List.take_left] at this
      exact this
    refine ⟨r', by rw [h1, ht], h3, ?_, ?_, ?_⟩
    · rw [← segs_flatten, h2, consS_flatten]
      have := congrArg (List.drop bs.length) hfl
      rw [List.drop_append_of_le_length hle, List.append_assoc, List.drop_left] at this
      exact this
    · have hu2 := hu.2
      rw [hs, show (Piece.raw bs).bytes.length = bs.length from rfl, sdrop_cons hle hss] at hu2
      rw [h2]; exact hu2
    · rcases hsm with h | h
      · exact .inl (h4 h)
      · exact .inr (fun p hp => h p (by simp [hp]))

/-! ## Readers that hold a file -/

theorem uncut_one (ps : List Piece) (s : Bytes) (rest : Bytes) (h : s = bytes ps ++ rest) : Uncut ps (consS s []) := by
  induction ps generalizing s with
  | nil => trivial
  | cons p ps ih =>
    have hle : p.bytes.length ≤ s.length := by rw [h]; simp
    have hd : sdrop p.bytes.length (consS s []) = consS (s.drop p.bytes.length) [] := by
      by_cases hs : s = []
      · subst hs; simp [consS, sdrop]
      · rw [consS, if_neg hs, sdrop_cons hle (by simp)]
    refine ⟨?_, ?_⟩
    · cases p with
      | raw bs =>
        simp only
        by_cases hs : s = []
        · subst hs
          have : bs = [] := by simpa [Piece.bytes] using hle
          simp [this]
        · rw [consS, if_neg hs]; exact hle
      | one b => trivial
      | full bs => trivial
    · rw [hd]
      apply ih
      rw [h, bytes_cons, List.append_assoc, List.drop_left]

/-- A file that fits the buffer is read in one block. -/
theorem holds_small (ps : List Piece) (rest : Bytes) (h : (bytes ps ++ rest).length ≤ bufSize) :
    Holds ps rest ⟨[], [bytes ps ++ rest]⟩ where
  wf := by simp [Rd.WF]
  flat := by simp [Rd.flat]
  uncut := by
    simp only [segs, List.flatMap_cons, List.flatMap_nil, List.append_nil]
    rw [blocks_small h]
    simp only [consS, if_true]
    exact uncut_one ps _ rest rfl
  small := .inl (by simpa using h)

/-- Where no string is longer than a byte, it does not matter how the file is cut into chunks. -/
theorem holds_tiny (ps : List Piece) (rest : Bytes) (r : Rd) (hw : r.WF) (hf : r.flat = bytes ps ++ rest)
    (h1 : ∀ bs, .raw bs ∈ ps → bs.length ≤ 1) (hp : ∀ p ∈ ps, p.bytes.length < bufSize) : Holds ps rest r where
  wf := hw
  flat := hf
  uncut := by
    have : ∀ (ps : List Piece) (ss : List Bytes), (∀ s ∈ ss, s ≠ []) → ss.flatten = bytes ps ++ rest →
        (∀ bs, .raw bs ∈ ps → bs.length ≤ 1) → Uncut ps ss := by
      intro ps
      induction ps with
      | nil => intros; trivial
      | cons p ps ih =>
        intro ss hss hfl h1
        refine ⟨?_, ih _ (sdrop_ne _ hss) ?_ (fun bs h => h1 bs (by simp [h]))⟩
        · cases p with
          | raw bs =>
            simp only
            have := h1 bs (by simp)
            cases ss with
            | nil => simp [Piece.bytes] at hfl; simp [hfl]
            | cons s ss =>
              have := List.length_pos_iff.mpr (hss s (by simp))
              simp only [List.headD_cons]; omega
          | one b => trivial
          | full bs => trivial
        · rw [sdrop_flatten, hfl, bytes_cons, List.append_assoc, List.drop_left]
    exact this ps _ segs_ne (by rw [segs_flatten, hf]) h1
  small := .inr hp

end Verif.Rdb

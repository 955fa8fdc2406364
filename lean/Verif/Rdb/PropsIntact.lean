import Verif.Rdb.PropsFault
/-!
# C139 for snapshots without any damage
-/
namespace Verif.Rdb
open Verif.Resp

theorem lenAt_pieces (l : LenEnc) (n : Nat) (hn : n < l.limit) (rest : Bytes) :
    lenAt (bytes (l.pieces n) ++ rest) = some (if l = .b6 ∨ l = .b14 then n else 0, rest) := by
  cases l with
  | b6 =>
    simp only [LenEnc.limit] at hn
    have h : (UInt8.ofNat n).toNat = n := by simp; omega
    simp only [LenEnc.pieces, bytes, List.flatMap_cons, List.flatMap_nil, Piece.bytes, List.append_nil, List.cons_append, List.nil_append]
    rw [lenAt_cons, h, if_pos (.inr (by omega)), Nat.mod_eq_of_lt hn]
    simp
  | b14 =>
    simp only [LenEnc.limit] at hn
    have h : (UInt8.ofNat (64 + n / 256)).toNat = 64 + n / 256 := by simp; omega
    have h2 : (UInt8.ofNat n).toNat = n % 256 := by simp
    simp only [LenEnc.pieces, bytes, List.flatMap_cons, List.flatMap_nil, Piece.bytes, List.append_nil, List.cons_append, List.nil_append]
    rw [lenAt_cons, h, if_neg (by omega), if_pos (by omega)]
    simp only [List.head?_cons, Option.map_some, List.drop_succ_cons, List.drop_zero, h2]
    simp; omega
  | b32 =>
    simp only [LenEnc.pieces, bytes, List.flatMap_cons, List.flatMap_nil, Piece.bytes, List.append_nil, List.cons_append, List.nil_append]
    rw [lenAt_cons, if_neg (by decide), if_neg (by decide), if_pos rfl, List.drop_left' (beInt_length 4 _)]
    simp
  | b64 =>
    simp only [LenEnc.pieces, bytes, List.flatMap_cons, List.flatMap_nil, Piece.bytes, List.append_nil, List.cons_append, List.nil_append]
    rw [lenAt_cons, if_neg (by decide), if_neg (by decide), if_neg (by decide), if_pos rfl, List.drop_left' (beInt_length 8 _)]
    simp

/-- No length that is all there is cut off. -/
theorem not_cut {f : Bytes} {x : Nat × Bytes} (h : lenAt f = some x) : ¬ CutLen f := by
  rintro ⟨b, rfl, hb⟩
  rw [lenAt_cons, if_neg (by omega), if_pos hb] at h
  cases h

theorem copyFrom_grows (out : Bytes) (d k : Nat) : (Lzf.copyFrom out d k).length = out.length + k := by
  induction k generalizing out with
  | zero => rfl
  | succ k ih => rw [Lzf.copyFrom, ih]; simp; omega

theorem denoteFrom_grows (out : Bytes) (ts : List Lzf.Tok) : out.length ≤ (Lzf.denoteFrom out ts).length := by
  induction ts generalizing out with
  | nil => exact Nat.le_refl _
  | cons t ts ih =>
    refine Nat.le_trans ?_ (ih _)
    cases t with
    | lit bs => simp [Lzf.apply]
    | ref d k => simp [Lzf.apply, copyFrom_grows]

theorem denote_pos {ts : List Lzf.Tok} (h : ts ≠ []) (hv : Lzf.ValidFrom [] ts) : 0 < (Lzf.denote ts).length := by
  cases ts with
  | nil => exact absurd rfl h
  | cons t ts =>
    refine Nat.lt_of_lt_of_le ?_ (denoteFrom_grows (Lzf.apply [] t) ts)
    have := hv.1
    cases t with
    | lit bs => simp only [Lzf.Valid] at this; simp only [Lzf.apply, List.nil_append]; omega
    | ref d k => simp only [Lzf.Valid] at this; simp only [Lzf.apply, copyFrom_grows]; omega

theorem encodeAll_pos {ts : List Lzf.Tok} (h : ts ≠ []) : 0 < (Lzf.encodeAll ts).length := by
  cases ts with
  | nil => exact absurd rfl h
  | cons t ts =>
    have : 0 < (Lzf.encode t).length := by
      cases t with
      | lit bs => simp [Lzf.encode]
      | ref d k => simp only [Lzf.encode]; split <;> simp
    simp only [Lzf.encodeAll, List.map_cons, List.flatten_cons, List.length_append]
    omega

/-- C139 for strings without damage, exactly: a string ends the process if and only if it is compressed and one of its two lengths
is written in four or eight bytes (Redis does so from 16384 bytes on). -/
theorem C139_string_exact (e : StrEnc) (hv : e.Valid) (rest : Bytes) : StrFault (bytes e.pieces ++ rest) ↔
    ∃ lc lu ts, e = .lzf lc lu ts ∧ ¬ ((lc = .b6 ∨ lc = .b14) ∧ (lu = .b6 ∨ lu = .b14)) := by
  cases e with
  | raw l s =>
    refine iff_of_false ?_ (by rintro ⟨_, _, _, h, _⟩; cases h)
    have hl := lenAt_pieces l s.length hv (s ++ rest)
    have hf : bytes (StrEnc.pieces (.raw l s)) ++ rest = bytes (l.pieces s.length) ++ (s ++ rest) := by
      simp [StrEnc.pieces, Piece.bytes]
    rw [hf]
    have first : ∀ (b : UInt8) (g : Bytes), b = 0xc2 ∨ b = 0xc3 → bytes (l.pieces s.length) ++ (s ++ rest) ≠ b :: g := by
      intro b g hb he
      have hh := congrArg List.head? he
      have : b.toNat = 194 ∨ b.toNat = 195 := by rcases hb with rfl | rfl <;> simp
      simp only [StrEnc.Valid] at hv
      cases l <;> simp [LenEnc.pieces, bytes, Piece.bytes, LenEnc.limit] at hh hv <;> subst hh <;> simp at this <;> omega
    rintro (h | ⟨g, h, _⟩ | ⟨g, h, _⟩)
    · exact not_cut hl h
    · exact first _ _ (.inl rfl) h
    · exact first _ _ (.inr rfl) h
  | int8 v =>
    refine iff_of_false ?_ (by rintro ⟨_, _, _, h, _⟩; cases h)
    rintro (⟨b, h, _⟩ | ⟨g, h, _⟩ | ⟨g, h, _⟩) <;> simp [StrEnc.pieces, bytes, Piece.bytes] at h
  | int16 v =>
    refine iff_of_false ?_ (by rintro ⟨_, _, _, h, _⟩; cases h)
    rintro (⟨b, h, h2⟩ | ⟨g, h, _⟩ | ⟨g, h, _⟩) <;> simp [StrEnc.pieces, bytes, Piece.bytes] at h
    obtain ⟨rfl, _⟩ := h
    simp at h2
  | int32 v =>
    refine iff_of_false ?_ (by rintro ⟨_, _, _, h, _⟩; cases h)
    rintro (⟨b, h, h2⟩ | ⟨g, h, h2⟩ | ⟨g, h, _⟩) <;> simp [StrEnc.pieces, bytes, Piece.bytes] at h
    · obtain ⟨rfl, _⟩ := h
      simp at h2
    · subst h
      simp [leInt_length] at h2
      omega
  | lzf lc lu ts =>
    obtain ⟨hne, hts, hc, hu⟩ := hv
    have he : 0 < (Lzf.encodeAll ts).length := encodeAll_pos hne
    have hd : 0 < (Lzf.denote ts).length := denote_pos hne hts
    have hf : bytes (StrEnc.pieces (.lzf lc lu ts)) ++ rest = 0xc3 :: (bytes (lc.pieces (Lzf.encodeAll ts).length) ++
        (bytes (lu.pieces (Lzf.denote ts).length) ++ (Lzf.encodeAll ts ++ rest))) := by
      simp [StrEnc.pieces, Piece.bytes]
    have l1 := lenAt_pieces lc _ hc (bytes (lu.pieces (Lzf.denote ts).length) ++ (Lzf.encodeAll ts ++ rest))
    have l2 := lenAt_pieces lu _ hu (Lzf.encodeAll ts ++ rest)
    rw [hf]
    constructor
    · rintro (⟨b, h, h2⟩ | ⟨g, h, _⟩ | ⟨g, h, h2⟩)
      · obtain ⟨rfl, _⟩ := List.cons.inj h; simp at h2
      · cases h
      · cases h
        refine ⟨lc, lu, ts, rfl, ?_⟩
        rintro ⟨h3, h4⟩
        rcases h2 with h2 | ⟨n, g, h2, h5⟩
        · exact not_cut l1 h2
        · rw [l1] at h2; cases h2
          rcases h5 with h5 | ⟨m, k, h5, _, h7⟩
          · exact not_cut l2 h5
          · rw [l2] at h5; cases h5
            rw [if_pos h3, if_pos h4] at h7
            omega
    · rintro ⟨_, _, _, h, h2⟩
      cases h
      refine .inr (.inr ⟨_, rfl, .inr ⟨_, _, l1, .inr ⟨_, _, l2, ?_, ?_⟩⟩⟩)
      · split <;> simp
      · by_cases h3 : lc = .b6 ∨ lc = .b14
        · right; rw [if_neg (fun h4 => h2 ⟨h3, h4⟩)]
        · left; rw [if_neg h3]

/-- Such a string (Redis would write this one's length in one byte; one of 16384 bytes looks the same). -/
example : ∃ ts, StrEnc.Valid (.lzf .b6 .b32 ts) ∧ StrFault (bytes (StrEnc.pieces (.lzf .b6 .b32 ts)) ++ []) := by
  have hv : StrEnc.Valid (.lzf .b6 .b32 [.lit b!"ab", .ref 2 7]) := by
    simp [StrEnc.Valid, LenEnc.limit, Lzf.ValidFrom, Lzf.Valid, Lzf.apply, Lzf.encodeAll, Lzf.encode, Lzf.denote, Lzf.denoteFrom,
      copyFrom_grows]
  exact ⟨_, hv, (C139_string_exact _ hv []).2 ⟨_, _, _, rfl, by simp⟩⟩

/-- C139 is false for snapshots without any damage: behind any supported records, a key that is such a string ends the process,
whatever its value and whatever follows. -/
theorem C139_violated_key (ord : MapOrd) (hord : ∀ n l, (ord n l).Perm l) (s : LState) (hdr : Bytes) (hh : hdr.length = 9)
    (items : List Item) (hs : ∀ i ∈ items, i.Supported) (hv : ∀ i ∈ items, i.Valid) (op : UInt8) (hop : op.toNat < 247)
    (lc lu : LenEnc) (ts : List Lzf.Tok) (hk : StrEnc.Valid (.lzf lc lu ts))
    (hw : ¬ ((lc = .b6 ∨ lc = .b14) ∧ (lu = .b6 ∨ lu = .b14))) (rest : Bytes) (r : Rd)
    (h : Holds (.raw hdr :: items.flatMap Item.pieces) (op :: (bytes (StrEnc.pieces (.lzf lc lu ts)) ++ rest)) r) :
    (load ord s r).1 = .panic :=
  C139_violated ord hord s hdr hh items hs hv op hop _ ((C139_string_exact _ hk rest).2 ⟨_, _, _, rfl, hw⟩) r h

/-- … and so does a value that is such a string, under any key. -/
theorem C139_violated_value (ord : MapOrd) (hord : ∀ n l, (ord n l).Perm l) (s : LState) (hdr : Bytes) (hh : hdr.length = 9)
    (items : List Item) (hs : ∀ i ∈ items, i.Supported) (hv : ∀ i ∈ items, i.Valid) (k : StrEnc) (hks : k.Supported) (hkv : k.Valid)
    (hk0 : k.value ≠ []) (lc lu : LenEnc) (ts : List Lzf.Tok) (hk : StrEnc.Valid (.lzf lc lu ts))
    (hw : ¬ ((lc = .b6 ∨ lc = .b14) ∧ (lu = .b6 ∨ lu = .b14))) (rest : Bytes) (r : Rd)
    (h : Holds (.raw hdr :: (items.flatMap Item.pieces ++ (.one 0 :: k.pieces))) (bytes (StrEnc.pieces (.lzf lc lu ts)) ++ rest) r) :
    (load ord s r).1 = .panic := by
  rw [C139_exact ord s r h.wf]
  obtain ⟨r0, h1, h⟩ := Holds.read h
  rw [hh] at h1
  obtain ⟨s1, r1, h2, h3⟩ := trace_items hord hs hv h { s with expires := 0 }
  obtain ⟨r2, h4, h5⟩ := Holds.byte h3
  obtain ⟨r3, h6, h7⟩ := loadString_at (ps := []) hks hkv (by simpa using h5)
  refine ⟨hdr, r0, s1, r1, h1, h2, 0, r2, h4, ?_⟩
  have hf : StrFault r3.flat := by
    rw [h7.flat]
    simpa [bytes] using (C139_string_exact _ hk rest).2 ⟨_, _, _, rfl, hw⟩
  unfold TailFault
  simp only [show ¬ ((0 : UInt8) = 253) by decide, show ¬ ((0 : UInt8) = 252) by decide, show ¬ ((0 : UInt8) = 249) by decide,
    show ¬ ((0 : UInt8) = 255) by decide, show ¬ ((0 : UInt8) = 248) by decide, show ¬ ((0 : UInt8) = 254) by decide,
    show ¬ ((0 : UInt8) = 251) by decide, show ¬ ((0 : UInt8) = 250) by decide, show ¬ ((0 : UInt8) = 247) by decide, or_self, if_false]
  exact .inr ⟨_, r3, h6, hk0, by unfold ObjFault; rw [if_pos rfl]; exact hf⟩

/-- Such a file. -/
example : (load idOrd .init (file (b!"REDIS0009" ++ [0, 1, 107] ++ [0xc3, 5, 0x80, 0, 0, 0, 9, 1, 97, 98, 0xa0, 1] ++ [255]))).1 = .panic := by
  decide +kernel

end Verif.Rdb

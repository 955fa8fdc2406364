import Verif.Lzf.Props
import Verif.Rdb.Spec
import Verif.Rdb.PropsPacked

/-! # Reading encoded values -/

namespace Verif.Rdb

open Verif.Resp

@[simp] theorem andThen_ok {α β : Type} (a : α) (r : Rd) (f : α → Rd → RRes β × Rd) : andThen (.ok a, r) f = f a r := rfl
@[simp] theorem andThen_err {α β : Type} (e : RErr) (r : Rd) (f : α → Rd → RRes β × Rd) : andThen (.err e, r) f = (.err e, r) := rfl
@[simp] theorem andThen_panic {α β : Type} (r : Rd) (f : α → Rd → RRes β × Rd) : andThen (.panic, r) f = (.panic, r) := rfl

/-- The encodings of lengths that the code reads. -/
def LenEnc.Supported (l : LenEnc) : Prop := l = .b6 ∨ l = .b14

/-- The encodings of strings that the code reads. -/
def StrEnc.Supported : StrEnc → Prop
  | .raw l _ => l.Supported
  | .int8 _ => True
  | .int16 v => 0 ≤ v
  | .int32 v => 0 ≤ v
  | .lzf lc lu _ => lc.Supported ∧ lu.Supported

/-! ## Lengths -/

theorem loadLen_at {l : LenEnc} (hl : l.Supported) {n : Nat} (hn : n < l.limit) {ps : List Piece} {rest : Bytes} {r : Rd}
    (h : Holds (l.pieces n ++ ps) rest r) : ∃ r', loadLen r = (.ok (n, false), r') ∧ Holds ps rest r' := by
  rcases hl with rfl | rfl
  · have hn : n < 64 := hn
    have hb := ofNat_toNat (n := n) (by omega)
    obtain ⟨r', h1, h2⟩ := Holds.byte h
    refine ⟨r', ?_, h2⟩
    simp only [loadLen, h1, andThen_ok, hb]
    rw [if_neg (by omega), if_pos (by omega), Nat.mod_eq_of_lt hn]
  · have hn : n < 16384 := hn
    have hb := ofNat_toNat (n := 64 + n / 256) (by omega)
    obtain ⟨r1, h1, h⟩ := Holds.byte h
    obtain ⟨r2, h2, h⟩ := Holds.byte h
    refine ⟨r2, ?_, h⟩
    simp only [loadLen, h1, andThen_ok, hb]
    rw [if_neg (by omega), if_neg (by omega), if_pos (by omega)]
    simp only [h2, UInt8.toNat_ofNat']
    congr 3
    omega

theorem loadLen_wide {l : LenEnc} (hl : ¬ l.Supported) {n : Nat} {ps : List Piece} {rest : Bytes} {r : Rd}
    (h : Holds (l.pieces n ++ ps) rest r) : ∃ r', loadLen r = (.ok (0, false), r') ∧ Holds ps rest r' := by
  cases l with
  | b6 => exact absurd (.inl rfl) hl
  | b14 => exact absurd (.inr rfl) hl
  | b32 =>
    obtain ⟨r1, h1, h⟩ := Holds.byte h
    obtain ⟨r2, h2, h⟩ := Holds.readFull h
    refine ⟨r2, ?_, h⟩
    rw [beInt_length] at h2
    simp only [loadLen, h1, andThen_ok]
    rw [if_neg (by decide), if_neg (by decide), if_neg (by decide), if_pos (by decide), h2]
  | b64 =>
    obtain ⟨r1, h1, h⟩ := Holds.byte h
    obtain ⟨r2, h2, h⟩ := Holds.readFull h
    refine ⟨r2, ?_, h⟩
    rw [beInt_length] at h2
    simp only [loadLen, h1, andThen_ok]
    rw [if_neg (by decide), if_neg (by decide), if_neg (by decide), if_neg (by decide), if_pos (by decide), h2]

theorem loadLen_tag {k : UInt8} (hk : k.toNat < 64) {ps : List Piece} {rest : Bytes} {r : Rd}
    (h : Holds (.one (0xc0 + k) :: ps) rest r) : ∃ r', loadLen r = (.ok (k.toNat, true), r') ∧ Holds ps rest r' := by
  obtain ⟨r1, h1, h⟩ := Holds.byte h
  refine ⟨r1, ?_, h⟩
  have : (0xc0 + k).toNat = 192 + k.toNat := by
    have h192 : (0xc0 : UInt8).toNat = 192 := rfl
    rw [UInt8.toNat_add, h192]; omega
  simp only [loadLen, h1, andThen_ok, this]
  rw [if_pos (by omega)]
  congr 3
  omega

/-! ## Strings -/

theorem goDecompress_at {ts : List Lzf.Tok} (hne : ts ≠ []) (hv : Lzf.ValidFrom [] ts) (h1 : (Lzf.encodeAll ts).length < 2 ^ 32)
    (h2 : (Lzf.denote ts).length < 2 ^ 32) : Lzf.goDecompress (Lzf.encodeAll ts) (Lzf.denote ts).length = .ok (Lzf.denote ts) := by
  have hpos : 0 < (Lzf.encodeAll ts).length := by
    cases ts with
    | nil => exact absurd rfl hne
    | cons t ts =>
      have := Lzf.encode_pos t
      simp only [Lzf.encodeAll, List.map_cons, List.flatten_cons, List.length_append]; omega
  have hdpos : 0 < (Lzf.denote ts).length := by
    have grow : ∀ (ts : List Lzf.Tok) (out : Bytes), out.length ≤ (Lzf.denoteFrom out ts).length := by
      intro ts
      induction ts with
      | nil => intro out; simp [Lzf.denoteFrom]
      | cons t ts ih =>
        intro out
        refine Nat.le_trans ?_ (ih _)
        cases t with
        | lit bs => simp [Lzf.apply]
        | ref d k =>
          simp only [Lzf.apply]
          have : ∀ (k : Nat) (o : Bytes), o.length ≤ (Lzf.copyFrom o d k).length := by
            intro k
            induction k with
            | zero => intro o; simp [Lzf.copyFrom]
            | succ k ih => intro o; exact Nat.le_trans (by simp) (ih _)
          exact this k out
    cases ts with
    | nil => exact absurd rfl hne
    | cons t ts =>
      have hv1 := hv.1
      refine Nat.lt_of_lt_of_le ?_ (grow ts (Lzf.apply [] t))
      cases t with
      | lit bs => simp only [Lzf.Valid, Lzf.apply] at hv1 ⊢; simp only [List.nil_append]; omega
      | ref d k =>
        simp only [Lzf.Valid, List.length_nil] at hv1
        omega
  obtain ⟨m, a1, a2⟩ := Lzf.C60_decodes ts hne hv (Lzf.denote ts).length (Nat.le_refl _)
  have hene : Lzf.encodeAll ts ≠ [] := List.length_pos_iff.mp hpos
  simp only [Lzf.goDecompress, Int.toNat_natCast]
  rw [if_neg (by simp only [hene, false_or]; omega), Nat.mod_eq_of_lt h1, Nat.mod_eq_of_lt h2, List.take_length, a1]
  obtain ⟨j, hj⟩ : ∃ j, (Lzf.denote ts).length = j + 1 := ⟨(Lzf.denote ts).length - 1, by omega⟩
  rw [hj] at a2 ⊢
  simp only [a2]

theorem toInt8_ofNat {v : Int} (h : Signed 1 v) : (UInt8.ofNat (v % 256).toNat).toInt8.toInt = v := by
  unfold Signed at h
  have h' : -128 ≤ v ∧ v < 128 := h
  have : (UInt8.ofNat (v % 256).toNat).toInt8 = Int8.ofNat (v % 256).toNat := rfl
  rw [this, Int8.toInt_ofNat']
  have hsz : (Int8.size : Int) = 256 := rfl
  simp only [Int.bmod_def, hsz]
  omega

theorem natText_le {w : Nat} {v : Int} (h : Signed w v) (h0 : 0 ≤ v) (hw : 0 < w) : natText (le (leInt w v)) = itoaInt v := by
  have hl := le_leInt w v
  have hb : v < 256 ^ w := by
    have h1 := h.2
    have h2 : (2 ^ (8 * w - 1) : Nat) ≤ 256 ^ w := by
      rw [show (256 : Nat) = 2 ^ 8 from rfl, ← Nat.pow_mul]
      exact Nat.pow_le_pow_right (by omega) (by omega)
    have h3 : ((256 ^ w : Nat) : Int) = 256 ^ w := by simp
    omega
  rw [Int.emod_eq_of_lt h0 hb] at hl
  unfold itoaInt
  rw [if_neg (by omega)]
  congr 1
  omega

theorem limit_lt {l : LenEnc} (hl : l.Supported) : l.limit ≤ 16384 := by
  rcases hl with rfl | rfl <;> simp [LenEnc.limit]

theorem loadString_at {e : StrEnc} (hs : e.Supported) (hv : e.Valid) {ps : List Piece} {rest : Bytes} {r : Rd}
    (h : Holds (e.pieces ++ ps) rest r) : ∃ r', loadString r = (.ok e.value, r') ∧ Holds ps rest r' := by
  cases e with
  | raw l s =>
    simp only [StrEnc.pieces, List.append_assoc] at h
    obtain ⟨r1, h1, h⟩ := loadLen_at hs hv h
    obtain ⟨r2, h2, h⟩ := Holds.read h
    refine ⟨r2, ?_, h⟩
    simp [loadString, h1, h2, StrEnc.value]
  | int8 v =>
    obtain ⟨r1, h1, h⟩ := loadLen_tag (k := 0) (by decide) h
    obtain ⟨r2, h2, h⟩ := Holds.byte h
    refine ⟨r2, ?_, h⟩
    simp only [loadString, h1, andThen_ok, h2, StrEnc.value]
    simp only [show UInt8.toNat 0 = 0 from rfl]
    exact congrArg (fun x => (GoRes.ok (itoaInt x), r2)) (toInt8_ofNat (show Signed 1 v from hv))
  | int16 v =>
    obtain ⟨r1, h1, h⟩ := loadLen_tag (k := 1) (by decide) h
    obtain ⟨r2, h2, h⟩ := Holds.readFull h
    rw [leInt_length] at h2
    refine ⟨r2, ?_, h⟩
    simp [loadString, h1, h2, StrEnc.value, natText_le (show Signed 2 v from hv) hs]
  | int32 v =>
    obtain ⟨r1, h1, h⟩ := loadLen_tag (k := 2) (by decide) h
    obtain ⟨r2, h2, h⟩ := Holds.readFull h
    rw [leInt_length] at h2
    refine ⟨r2, ?_, h⟩
    simp [loadString, h1, h2, StrEnc.value, natText_le (show Signed 4 v from hv) hs]
  | lzf lc lu ts =>
    obtain ⟨hv1, hv2, hv3, hv4⟩ := hv
    simp only [StrEnc.pieces, List.cons_append, List.append_assoc] at h
    obtain ⟨r1, h1, h⟩ := loadLen_tag (k := 3) (by decide) h
    obtain ⟨r2, h2, h⟩ := loadLen_at hs.1 hv3 h
    obtain ⟨r3, h3, h⟩ := loadLen_at hs.2 hv4 h
    obtain ⟨r4, h4, h⟩ := Holds.readFull h
    have l1 := limit_lt hs.1
    have l2 := limit_lt hs.2
    refine ⟨r4, ?_, h⟩
    have hd := goDecompress_at hv1 hv2 (by omega) (by omega)
    simp [loadString, h1, loadLzf, h2, h3, h4, hd, StrEnc.value]

theorem loadStrings_at {vs : List StrEnc} (hs : ∀ v ∈ vs, v.Supported) (hv : ∀ v ∈ vs, v.Valid) {ps : List Piece} {rest : Bytes} {r : Rd}
    (h : Holds (vs.flatMap (·.pieces) ++ ps) rest r) :
    ∃ r', loadStrings vs.length r = (.ok (vs.map (·.value)), r') ∧ Holds ps rest r' := by
  induction vs generalizing r with
  | nil => exact ⟨r, rfl, h⟩
  | cons v vs ih =>
    simp only [List.flatMap_cons, List.append_assoc] at h
    obtain ⟨r1, h1, h⟩ := loadString_at (hs v (by simp)) (hv v (by simp)) h
    obtain ⟨r2, h2, h⟩ := ih (fun v h => hs v (by simp [h])) (fun v h => hv v (by simp [h])) h
    exact ⟨r2, by simp [loadStrings, h1, h2], h⟩

theorem loadPairs_at {vs : List (StrEnc × StrEnc)} (hs : ∀ v ∈ vs, v.1.Supported ∧ v.2.Supported)
    (hv : ∀ v ∈ vs, v.1.Valid ∧ v.2.Valid) {ps : List Piece} {rest : Bytes} {r : Rd}
    (h : Holds ((vs.flatMap fun p => p.1.pieces ++ p.2.pieces) ++ ps) rest r) :
    ∃ r', loadPairs vs.length r = (.ok (vs.flatMap fun p => [p.1.value, p.2.value]), r') ∧ Holds ps rest r' := by
  induction vs generalizing r with
  | nil => exact ⟨r, rfl, h⟩
  | cons v vs ih =>
    simp only [List.flatMap_cons, List.append_assoc] at h
    have s1 := hs v (by simp)
    have v1 := hv v (by simp)
    obtain ⟨r1, h1, h⟩ := loadString_at s1.1 v1.1 h
    obtain ⟨r2, h2, h⟩ := loadString_at s1.2 v1.2 h
    obtain ⟨r3, h3, h⟩ := ih (fun v h => hs v (by simp [h])) (fun v h => hv v (by simp [h])) h
    exact ⟨r3, by simp [loadPairs, h1, h2, h3], h⟩

theorem loadDouble_text {t : Bytes} (hl : t.length < 253) {ps : List Piece} {rest : Bytes} {r : Rd}
    (h : Holds (.one (UInt8.ofNat t.length) :: .full t :: ps) rest r) :
    ∃ r', loadDouble r = ((match parseFloat t with | some x => .ok x | none => .err .syntaxErr), r') ∧ Holds ps rest r' := by
  obtain ⟨r1, h1, h⟩ := Holds.byte h
  obtain ⟨r2, h2, h⟩ := Holds.readFull h
  refine ⟨r2, ?_, h⟩
  have hb := ofNat_toNat (n := t.length) (by omega)
  have hn : ∀ k : UInt8, 253 ≤ k.toNat → ¬ UInt8.ofNat t.length = k := by
    intro k hk e; rw [e] at hb; omega
  simp only [loadDouble, h1, andThen_ok]
  rw [if_neg (hn 255 (by decide)), if_neg (by intro e; rcases e with e | e; exact hn 254 (by decide) e; exact hn 253 (by decide) e), hb, h2]
  simp only [andThen_ok]
  cases parseFloat t <;> rfl

theorem loadScored_at {vs : List (StrEnc × Bytes)} (hs : ∀ v ∈ vs, v.1.Supported)
    (hv : ∀ v ∈ vs, v.1.Valid ∧ v.2.length < 253 ∧ (parseFloat v.2).isSome) {ps : List Piece} {rest : Bytes} {r : Rd}
    (h : Holds ((vs.flatMap fun p => p.1.pieces ++ [.one (UInt8.ofNat p.2.length), .full p.2]) ++ ps) rest r) :
    ∃ r', loadScored false vs.length r =
      (.ok (vs.flatMap fun p => [p.1.value, formatFloat ((parseFloat p.2).getD F64.nan)]), r') ∧ Holds ps rest r' := by
  induction vs generalizing r with
  | nil => exact ⟨r, rfl, h⟩
  | cons v vs ih =>
    simp only [List.flatMap_cons, List.append_assoc, List.cons_append, List.nil_append] at h
    obtain ⟨v1, v2, v3⟩ := hv v (by simp)
    obtain ⟨r1, h1, h⟩ := loadString_at (hs v (by simp)) v1 h
    obtain ⟨r2, h2, h⟩ := loadDouble_text v2 h
    obtain ⟨r3, h3, h⟩ := ih (fun v h => hs v (by simp [h])) (fun v h => hv v (by simp [h])) h
    obtain ⟨x, hx⟩ := Option.isSome_iff_exists.mp v3
    rw [hx] at h2
    refine ⟨r3, ?_, h⟩
    simp [loadScored, h1, h2, h3, hx]

/-- Ziplist elements that the code reads right. -/
def ZShort (z : List (Bytes × ZVal)) : Prop := ∀ e ∈ z, (∃ s, e.2 = .str6 s) ∨ (∃ n, e.2 = .imm n)

theorem loadNodes_at {ns : List (StrEnc × Bytes × List (Bytes × ZVal))} (hs : ∀ n ∈ ns, n.1.Supported ∧ ZShort n.2.2)
    (hv : ∀ n ∈ ns, n.1.Valid ∧ n.1.value = encZiplist n.2.1 n.2.2 ∧ ZlValid n.2.1 n.2.2) {ps : List Piece} {rest : Bytes} {r : Rd}
    (h : Holds (ns.flatMap (·.1.pieces) ++ ps) rest r) :
    ∃ r', loadNodes ns.length r = (.ok (ns.flatMap fun n => n.2.2.map (·.2.value)), r') ∧ Holds ps rest r' := by
  induction ns generalizing r with
  | nil => exact ⟨r, rfl, h⟩
  | cons n ns ih =>
    simp only [List.flatMap_cons, List.append_assoc] at h
    obtain ⟨v1, v2, v3⟩ := hv n (by simp)
    have s1 := hs n (by simp)
    obtain ⟨r1, h1, h⟩ := loadString_at s1.1 v1 h
    obtain ⟨r2, h2, h⟩ := ih (fun v h => hs v (by simp [h])) (fun v h => hv v (by simp [h])) h
    refine ⟨r2, ?_, h⟩
    have hz := C71_short_partial _ _ v3 s1.2
    simp [loadNodes, h1, v2, hz, h2]

/-! ## Values -/

/-- Integer sets that the code reads right. -/
def IntsOk (w : Nat) (xs : List Int) : Prop := w = 8 ∨ ∀ x ∈ xs, 0 ≤ x

/-- The values that the code recreates by the right command. -/
def Val.Supported : Val → Prop
  | .str v => v.Supported
  | .set l vs => l.Supported ∧ ∀ v ∈ vs, v.Supported
  | .quicklist l ns => l.Supported ∧ ∀ n ∈ ns, n.1.Supported ∧ ZShort n.2.2
  | .zipmap e _ m => e.Supported ∧ m.length ≤ 1
  | .ziplist e _ z => e.Supported ∧ ZShort z
  | .intset e w xs => e.Supported ∧ IntsOk w xs
  | .hashZiplist e _ z => e.Supported ∧ ZShort z
  | .list _ _ | .zset _ _ | .zset2 _ _ | .hash _ _ | .zsetZiplist _ _ _ => False

theorem intset_texts {w : Nat} {xs : List Int} (hw : w = 2 ∨ w = 4 ∨ w = 8) (hl : xs.length < 2 ^ 32) (hx : ∀ x ∈ xs, Signed w x)
    (ho : IntsOk w xs) : ∃ ys, intsetLoad (encIntset w xs) = some ys ∧ ys.map itoa = xs.map itoaInt := by
  have key : (intsetLoad (encIntset w xs)).map (·.map Int64.toInt) = some xs := by
    rcases hw with rfl | rfl | rfl
    · exact C70_small_partial 2 (.inl rfl) xs hl hx (by rcases ho with h | h; exact absurd h (by omega); exact h)
    · exact C70_small_partial 4 (.inr rfl) xs hl hx (by rcases ho with h | h; exact absurd h (by omega); exact h)
    · exact C70_int64_partial xs hl hx
  rw [Option.map_eq_some_iff] at key
  obtain ⟨ys, h1, h2⟩ := key
  refine ⟨ys, h1, ?_⟩
  rw [← h2, List.map_map]
  rfl

theorem pairs_flat {α : Type} (l : List α) (h : l.length % 2 = 0) : ((pairs l).flatMap fun p => [p.1, p.2]) = l := by
  induction hn : l.length using Nat.strongRecOn generalizing l with
  | _ n ih =>
    match l with
    | [] => rfl
    | [a] => simp at h
    | a :: b :: l =>
      simp only [pairs, List.flatMap_cons, List.cons_append, List.nil_append]
      rw [ih l.length (by simp at hn; omega) l (by simp at h; omega) rfl]

theorem loadObj_at {ord : MapOrd} (hord : ∀ n l, (ord n l).Perm l) (n : Nat) {key : Bytes} {v : Val} (hs : v.Supported) (hv : v.Valid)
    {ps : List Piece} {rest : Bytes} {r : Rd} (h : Holds (v.pieces ++ ps) rest r) :
    ∃ r', loadObj ord n v.tag key r = (.ok (.cmd (recreate key v.data)), r') ∧ Holds ps rest r' := by
  cases v with
  | str v =>
    obtain ⟨r1, h1, h⟩ := loadString_at hs hv h
    exact ⟨r1, by simp [loadObj, Val.tag, h1, recreate, Val.data], h⟩
  | set l vs =>
    obtain ⟨v1, v2, v3⟩ := hv
    simp only [Val.pieces, List.append_assoc] at h
    obtain ⟨r1, h1, h⟩ := loadLen_at hs.1 v2 h
    obtain ⟨r2, h2, h⟩ := loadStrings_at hs.2 v3 h
    exact ⟨r2, by simp [loadObj, Val.tag, h1, h2, recreate, Val.data], h⟩
  | quicklist l ns =>
    obtain ⟨v1, v2, v3⟩ := hv
    simp only [Val.pieces, List.append_assoc] at h
    obtain ⟨r1, h1, h⟩ := loadLen_at hs.1 v1 h
    obtain ⟨r2, h2, h⟩ := loadNodes_at hs.2 v3 h
    exact ⟨r2, by simp [loadObj, Val.tag, h1, h2, recreate, Val.data], h⟩
  | zipmap e cnt m =>
    obtain ⟨v1, v2, v3, v4⟩ := hv
    obtain ⟨r1, h1, h⟩ := loadString_at hs.1 v2 h
    refine ⟨r1, ?_, h⟩
    have hz := C72_one_partial cnt m v4 hs.2
    have ho : ord n (m.map fun e => (e.1, e.2.1)) = m.map fun e => (e.1, e.2.1) := by
      have hp := hord n (m.map fun e => (e.1, e.2.1))
      have hl : m.length ≤ 1 := hs.2
      match m, hl, hp with
      | [], _, hp => exact List.perm_nil.mp hp
      | [x], _, hp => exact List.perm_singleton.mp hp
    simp [loadObj, Val.tag, h1, v3, hz, orPanic, ho, recreate, Val.data]
  | ziplist e hdr z =>
    obtain ⟨v1, v2, v3, v4⟩ := hv
    obtain ⟨r1, h1, h⟩ := loadString_at hs.1 v2 h
    have hz := C71_short_partial hdr z v4 hs.2
    exact ⟨r1, by simp [loadObj, Val.tag, h1, v3, hz, orPanic, recreate, Val.data], h⟩
  | intset e w xs =>
    obtain ⟨v1, v2, v3, v4, v5, v6⟩ := hv
    obtain ⟨r1, h1, h⟩ := loadString_at hs.1 v2 h
    obtain ⟨ys, hy, hy2⟩ := intset_texts v4 v5 v6 hs.2
    exact ⟨r1, by simp [loadObj, Val.tag, h1, v3, hy, orPanic, recreate, Val.data, hy2], h⟩
  | hashZiplist e hdr z =>
    obtain ⟨v1, v2, v3, v4, v5⟩ := hv
    obtain ⟨r1, h1, h⟩ := loadString_at hs.1 v3 h
    have hz := C71_short_partial hdr z v5 hs.2
    have hp := pairs_flat (z.map (·.2.value)) (by simpa using v2)
    exact ⟨r1, by simp [loadObj, Val.tag, h1, v4, hz, orPanic, recreate, Val.data, hp], h⟩
  | list l vs => exact absurd hs (by simp [Val.Supported])
  | zset l vs => exact absurd hs (by simp [Val.Supported])
  | zset2 l vs => exact absurd hs (by simp [Val.Supported])
  | hash l vs => exact absurd hs (by simp [Val.Supported])
  | zsetZiplist e hdr z => exact absurd hs (by simp [Val.Supported])

/-! ## Records -/

/-- The records that the code reads right. -/
def Item.Supported : Item → Prop
  | .expireS t => 1000 * t < 2 ^ 32
  | .expireMs _ => True
  | .freq _ => True
  | .idle l _ => l.Supported
  | .select l _ => l.Supported
  | .resize l1 _ l2 _ => l1.Supported ∧ l2.Supported
  | .aux k v => k.Supported ∧ v.Supported
  | .entry k v => k.Supported ∧ k.value ≠ [] ∧ v.Supported

/-- What the loop reads for a record. -/
def recOf : Item → Rec
  | .expireS t => .expire (UInt64.ofNat (1000 * t))
  | .expireMs t => .expire (UInt64.ofNat t)
  | .freq _ => .ignored
  | .idle _ _ => .ignored
  | .select _ db => .select db
  | .resize _ _ _ _ => .ignored
  | .aux k v => .aux k.value v.value
  | .entry k v => .entry k.value (.cmd (recreate k.value v.data))

theorem tag_lt (v : Val) : v.tag.toNat < 247 := by cases v <;> simp [Val.tag]

theorem loadRec_at {ord : MapOrd} (hord : ∀ n l, (ord n l).Perm l) (n : Nat) {it : Item} (hs : it.Supported) (hv : it.Valid)
    {ps : List Piece} {rest : Bytes} {r : Rd} (h : Holds (it.pieces ++ ps) rest r) :
    ∃ r', loadRec ord n r = (.ok (recOf it), r') ∧ Holds ps rest r' := by
  cases it with
  | expireS t =>
    obtain ⟨r1, h1, h⟩ := Holds.byte h
    obtain ⟨r2, h2, h⟩ := Holds.readFull h
    rw [leInt_length] at h2
    refine ⟨r2, ?_, h⟩
    have hl := le_leInt 4 (t : Int)
    have hs : 1000 * t < 2 ^ 32 := hs
    have : le (leInt 4 (t : Int)) * 1000 % 2 ^ 32 = 1000 * t := by omega
    simp only [loadRec, h1, andThen_ok, if_true, h2, this, recOf]
  | expireMs t =>
    obtain ⟨r1, h1, h⟩ := Holds.byte h
    obtain ⟨r2, h2, h⟩ := Holds.readFull h
    rw [leInt_length] at h2
    refine ⟨r2, ?_, h⟩
    have hl := le_leInt 8 (t : Int)
    have hv : 0 < t ∧ t < 2 ^ 63 := hv
    have : le (leInt 8 (t : Int)) = t := by omega
    simp [loadRec, h1, h2, this, recOf]
  | freq b =>
    obtain ⟨r1, h1, h⟩ := Holds.byte h
    obtain ⟨r2, h2, h⟩ := Holds.byte h
    exact ⟨r2, by simp [loadRec, h1, h2, recOf], h⟩
  | idle l k =>
    obtain ⟨r1, h1, h⟩ := Holds.byte h
    obtain ⟨r2, h2, h⟩ := loadLen_at hs hv h
    exact ⟨r2, by simp [loadRec, h1, h2, recOf], h⟩
  | select l db =>
    obtain ⟨r1, h1, h⟩ := Holds.byte h
    obtain ⟨r2, h2, h⟩ := loadLen_at hs hv h
    exact ⟨r2, by simp [loadRec, h1, h2, recOf], h⟩
  | resize l1 n1 l2 n2 =>
    simp only [Item.pieces, List.cons_append, List.append_assoc] at h
    obtain ⟨r1, h1, h⟩ := Holds.byte h
    obtain ⟨r2, h2, h⟩ := loadLen_at hs.1 hv.1 h
    obtain ⟨r3, h3, h⟩ := loadLen_at hs.2 hv.2 h
    exact ⟨r3, by simp [loadRec, h1, h2, h3, recOf], h⟩
  | aux k v =>
    simp only [Item.pieces, List.cons_append, List.append_assoc] at h
    obtain ⟨r1, h1, h⟩ := Holds.byte h
    obtain ⟨r2, h2, h⟩ := loadString_at hs.1 hv.1 h
    obtain ⟨r3, h3, h⟩ := loadString_at hs.2 hv.2.1 h
    exact ⟨r3, by simp [loadRec, h1, h2, h3, recOf], h⟩
  | entry k v =>
    simp only [Item.pieces, List.cons_append, List.append_assoc] at h
    obtain ⟨r1, h1, h⟩ := Holds.byte h
    obtain ⟨r2, h2, h⟩ := loadString_at hs.1 hv.1 h
    obtain ⟨r3, h3, h⟩ := loadObj_at hord n (key := k.value) hs.2.2 hv.2 h
    refine ⟨r3, ?_, h⟩
    have ht := tag_lt v
    have hne : ∀ b : UInt8, 247 ≤ b.toNat → ¬ v.tag = b := by intro b hb e; rw [e] at ht; omega
    simp only [loadRec, h1, andThen_ok]
    rw [if_neg (hne _ (by decide)), if_neg (hne _ (by decide)), if_neg (hne _ (by decide)), if_neg (hne _ (by decide)),
      if_neg (hne _ (by decide)), if_neg (hne _ (by decide)), if_neg (hne _ (by decide)), if_neg (hne _ (by decide)),
      if_neg (hne _ (by decide)), h2]
    simp only [andThen_ok, if_neg hs.2.1, h3, recOf]

/-! ## The loop -/

/-- The commands of a key of a snapshot, as this code base sends them. -/
def keyCmds (k : KeyRec) : List Sent :=
  (Int64.ofNat k.db, recreate k.key k.data) ::
    (match k.deadline with
     | some t => [(Int64.ofNat k.db, [b!"pExpire", k.key, natText t])]
     | none => [])

/-- The pending deadline as the loop holds it. -/
def pend : Option Nat → UInt64
  | some t => UInt64.ofNat t
  | none => 0

theorem sendExpire_some {s : LState} {t : Nat} (h0 : 0 < t) (h1 : t < 2 ^ 63) (he : s.expires = UInt64.ofNat t) (key : Bytes) :
    s.sendExpire key = { s with out := s.out ++ [(s.db, [b!"pExpire", key, natText t])], expires := 0 } := by
  have hn : (UInt64.ofNat t).toNat = t := by rw [UInt64.toNat_ofNat']; omega
  have hpos : 0 < s.expires := by rw [he, UInt64.lt_iff_toNat_lt, hn]; exact h0
  have hi : itoa s.expires.toInt64 = natText t := by
    rw [he]
    have : (UInt64.ofNat t).toInt64 = Int64.ofNat t := rfl
    rw [this, itoa, Int64.toInt_ofNat_of_lt h1, itoaInt, if_neg (by omega), Int.natAbs_natCast]
  simp only [LState.sendExpire, if_pos hpos, LState.send, hi]

theorem loop_at {ord : MapOrd} (hord : ∀ n l, (ord n l).Perm l) {items : List Item} (hs : ∀ i ∈ items, i.Supported)
    (hv : ∀ i ∈ items, i.Valid) {rest : Bytes} {r : Rd} (h : Holds (items.flatMap Item.pieces ++ [.one 255]) rest r)
    {fuel : Nat} (hf : items.length < fuel) {s : LState} {e : Option Nat} {db : Nat}
    (hp : ∀ t, e = some t → 0 < t ∧ t < 2 ^ 63) (he : s.expires = pend e) (hdb : s.db = Int64.ofNat db) :
    ∃ s', loadLoop ord fuel s r = (.ok (), s') ∧ s'.out = s.out ++ (meaning e db items).flatMap keyCmds := by
  induction items generalizing r fuel s e db with
  | nil =>
    cases fuel with
    | zero => simp at hf
    | succ fuel =>
      obtain ⟨r1, h1, h⟩ := Holds.byte h
      exact ⟨s, by simp [loadLoop, loadRec, h1, LState.apply], by simp [meaning]⟩
  | cons it items ih =>
    cases fuel with
    | zero => simp at hf
    | succ fuel =>
      simp only [List.flatMap_cons, List.append_assoc] at h
      obtain ⟨r1, h1, g⟩ := loadRec_at hord s.out.length (hs it (by simp)) (hv it (by simp)) h
      have hs1 := hs it (by simp)
      have hv1 := hv it (by simp)
      have hs' := fun i h => hs i (List.mem_cons_of_mem _ h)
      have hv' := fun i h => hv i (List.mem_cons_of_mem _ h)
      have hf' : items.length < fuel := by simp at hf; omega
      simp only [loadLoop, h1]
      cases it with
      | expireS t =>
        have hv1 : 0 < t ∧ t < 2 ^ 32 := hv1
        exact ih hs' hv' g hf' (s := { s with expires := UInt64.ofNat (1000 * t) }) (e := some (1000 * t))
          (by intro x hx; simp at hx; subst hx; exact ⟨by omega, by omega⟩) rfl hdb
      | expireMs t =>
        exact ih hs' hv' g hf' (s := { s with expires := UInt64.ofNat t }) (e := some t)
          (by intro x hx; simp at hx; subst hx; exact hv1) rfl hdb
      | freq b => exact ih hs' hv' g hf' hp he hdb
      | idle l k => exact ih hs' hv' g hf' hp he hdb
      | select l k => exact ih hs' hv' g hf' (s := { s with db := Int64.ofNat k }) hp he rfl
      | resize l1 n1 l2 n2 => exact ih hs' hv' g hf' hp he hdb
      | aux k v =>
        simp only [recOf, LState.apply]
        by_cases hk : k.value = b!"repl-id"
        · rw [if_pos hk]
          exact ih hs' hv' g hf' (s := { s with id := v.value }) hp he hdb
        · rw [if_neg hk]
          by_cases hk2 : k.value = b!"repl-offset"
          · rw [if_pos hk2]
            obtain ⟨x, hx⟩ := Option.isSome_iff_exists.mp (hv1.2.2 hk2)
            simp only [hx]
            exact ih hs' hv' g hf' (s := { s with offset := x }) hp he hdb
          · rw [if_neg hk2]
            exact ih hs' hv' g hf' hp he hdb
      | entry k v =>
        simp only [recOf, LState.apply]
        cases e with
        | none =>
          have h0 : (s.send (recreate k.value v.data)).sendExpire k.value = s.send (recreate k.value v.data) := by
            have he0 : s.expires = 0 := he
            simp only [LState.sendExpire, LState.send, he0]
            rw [if_neg (by decide)]
          rw [h0]
          obtain ⟨s', g1, g2⟩ := ih hs' hv' g hf' (s := s.send (recreate k.value v.data)) (e := none) (db := db) (by simp) he hdb
          refine ⟨s', g1, ?_⟩
          rw [g2]
          simp [LState.send, meaning, keyCmds, hdb]
        | some t =>
          obtain ⟨t1, t2⟩ := hp t rfl
          rw [sendExpire_some t1 t2 (by exact he)]
          obtain ⟨s', g1, g2⟩ := ih hs' hv' g hf' (s := ⟨s.db, 0, s.id, s.offset,
            (s.send (recreate k.value v.data)).out ++ [(s.db, [b!"pExpire", k.value, natText t])]⟩) (e := none) (db := db) (by simp) rfl hdb
          refine ⟨s', g1, ?_⟩
          rw [g2]
          simp [LState.send, meaning, keyCmds, hdb]

end Verif.Rdb

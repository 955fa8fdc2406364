import Verif.Rdb.Packed
import Verif.Rdb.PackedSpec

/-! # Lemmas on the packed containers -/

namespace Verif.Rdb

theorem slice_mid {pre x post : Bytes} {a b : Nat} (ha : a = pre.length) (hb : b = pre.length + x.length) :
    slice (pre ++ x ++ post) a b = some x := by
  subst ha; subst hb
  unfold slice
  rw [if_pos (by simp), List.append_assoc, List.drop_left]
  simp

theorem get_mid {pre post : Bytes} {b : UInt8} {a : Nat} (ha : a = pre.length) :
    (pre ++ b :: post)[a]? = some b := by
  subst ha; simp

/-! ## Little endian -/

theorem leInt_zero (v : Int) : leInt 0 v = [] := rfl

theorem leInt_succ (n : Nat) (v : Int) : leInt (n + 1) v = UInt8.ofNat (v % 256).toNat :: leInt n (v / 256) := by
  unfold leInt
  rw [List.range_succ_eq_map]
  simp only [List.map_cons, List.map_map, Int.pow_zero, Int.ediv_one, List.cons.injEq, true_and]
  apply List.map_congr_left
  intro i _
  simp only [Function.comp_apply]
  rw [Int.pow_succ, Int.mul_comm, Int.ediv_ediv_of_nonneg (by omega)]

@[simp] theorem leInt_length (n : Nat) (v : Int) : (leInt n v).length = n := by simp [leInt]

@[simp] theorem beInt_length (n : Nat) (v : Int) : (beInt n v).length = n := by simp [beInt]

theorem le_leInt (n : Nat) (v : Int) : (le (leInt n v) : Int) = v % 256 ^ n := by
  induction n generalizing v with
  | zero => simp [leInt_zero, le, Int.emod_one]
  | succ n ih =>
    rw [leInt_succ, le]
    have h := ih (v / 256)
    have h0 : 0 ≤ v % 256 := Int.emod_nonneg _ (by omega)
    have h1 : v % 256 < 256 := Int.emod_lt_of_pos _ (by omega)
    have hb : (UInt8.ofNat (v % 256).toNat).toNat = (v % 256).toNat := by
      rw [UInt8.toNat_ofNat']; omega
    rw [Int.natCast_add, Int.natCast_mul, h, hb, Int.toNat_of_nonneg h0, Int.pow_succ]
    have hp : (0 : Int) < 256 ^ n := Int.pow_pos (by omega)
    have : (v / 256) % 256 ^ n = v / 256 - 256 ^ n * (v / 256 / 256 ^ n) := Int.emod_def _ _
    rw [this, Int.emod_def v (256 ^ n * 256), Int.mul_comm (256 ^ n) 256, ← Int.ediv_ediv_of_nonneg (by omega)]
    rw [Int.emod_def v 256, Int.mul_sub, Int.mul_assoc]
    show v - 256 * (v / 256) + (256 * (v / 256) - _) = _
    omega

theorem le_lt (bs : Bytes) : le bs < 256 ^ bs.length := by
  induction bs with
  | nil => simp [le]
  | cons b bs ih =>
    simp only [le, List.length_cons, Nat.pow_succ]
    have := b.toNat_lt
    omega

/-! ## Integer sets -/

theorem intsetElems_enc (w : Nat) (pre : Bytes) (done xs : List Int) (hpre : pre.length = 8) :
    intsetElems (pre ++ (done ++ xs).flatMap (leInt w)) w xs.length done.length =
      some (xs.map fun x => Int64.ofNat (le (leInt w x))) := by
  induction xs generalizing done with
  | nil => rfl
  | cons x xs ih =>
    have hlen : ∀ l : List Int, (l.flatMap (leInt w)).length = w * l.length := by
      intro l
      induction l with
      | nil => simp
      | cons a l ih => simp [ih, Nat.mul_succ]; omega
    have hs : slice (pre ++ (done ++ x :: xs).flatMap (leInt w)) (8 + w * done.length) (8 + w * (done.length + 1)) =
        some (leInt w x) := by
      have : pre ++ (done ++ x :: xs).flatMap (leInt w) =
          (pre ++ done.flatMap (leInt w)) ++ leInt w x ++ xs.flatMap (leInt w) := by simp
      rw [this]
      apply slice_mid
      · simp only [List.length_append, hlen, hpre]
      · simp only [List.length_append, hlen, hpre, leInt_length, Nat.mul_succ]; omega
    have hr := ih (done ++ [x])
    simp only [List.append_assoc, List.singleton_append, List.length_append, List.length_singleton] at hr
    simp only [List.length_cons, intsetElems, hs, hr, Option.bind_eq_bind, Option.bind_some, Option.pure_def,
      List.map_cons]

/-- What the code computes: every element read as an unsigned number (and cut to 64 bits). -/
theorem intsetLoad_enc {w : Nat} (hw : w = 2 ∨ w = 4 ∨ w = 8) {xs : List Int} (hl : xs.length < 2 ^ 32) :
    intsetLoad (encIntset w xs) = some (xs.map fun x => Int64.ofNat (x % 256 ^ w).toNat) := by
  have h1 : slice (encIntset w xs) 0 4 = some (leInt 4 w) := by
    have : encIntset w xs = [] ++ leInt 4 w ++ (leInt 4 xs.length ++ xs.flatMap (leInt w)) := by simp [encIntset]
    rw [this]; exact slice_mid rfl (by simp)
  have h2 : slice (encIntset w xs) 4 8 = some (leInt 4 xs.length) := by
    unfold encIntset
    exact slice_mid (by simp) (by simp)
  have e1 : le (leInt 4 w) = w := by
    have := le_leInt 4 (w : Int)
    omega
  have e2 : le (leInt 4 (xs.length : Int)) = xs.length := by
    have := le_leInt 4 (xs.length : Int)
    omega
  have h3 := intsetElems_enc w (leInt 4 w ++ leInt 4 xs.length) [] xs (by simp)
  simp only [intsetLoad, h1, h2, Option.bind_eq_bind, Option.bind_some, e1, e2, if_pos hw]
  simp only [List.nil_append, List.length_nil] at h3
  rw [encIntset, h3]
  congr 1
  apply List.map_congr_left
  intro x _
  congr 1
  have := le_leInt w x
  omega

/-! ## Packed lists -/

/-- What the code makes of an element: texts up to 63 bytes and immediate integers are right, other
integers come out as their raw bytes, longer texts are shifted by one byte. -/
def seen : ZVal → Bytes
  | .str6 s => s
  | .imm n => natText n
  | .str14 s => (UInt8.ofNat s.length :: s).take s.length
  | .str32 s => (beInt 4 s.length ++ s).take s.length
  | .int8 v => leInt 1 v
  | .int16 v => leInt 2 v
  | .int24 v => leInt 3 v
  | .int32 v => leInt 4 v
  | .int64 v => leInt 8 v

/-- Elements behind which the code finds the next one. -/
def Aligned : ZVal → Prop
  | .str14 s => s.length < 256
  | .str32 s => s.length < 256
  | .int64 _ => False
  | _ => True

theorem prev_size {pre p post : Bytes} (hp : PrevField p) {pos : Nat} (h : pos = pre.length) :
    zlPrevSize (pre ++ p ++ post) pos = some p.length ∧ (pre ++ p ++ post)[pos]? ≠ some 255 ∧
      ((pre ++ p ++ post)[pos]?).isSome := by
  rcases hp with ⟨b, hb, rfl⟩ | ⟨n, hn, rfl⟩
  · have hg : (pre ++ [b] ++ post)[pos]? = some b := by rw [List.append_assoc]; exact get_mid h
    refine ⟨?_, ?_, by rw [hg]; rfl⟩
    · simp only [zlPrevSize, hg, Option.bind_eq_bind, Option.bind_some]
      rw [if_neg (by omega)]; rfl
    · rw [hg]; intro e; simp at e; subst e; simp at hb
  · have hg : (pre ++ 254 :: n ++ post)[pos]? = some 254 := by rw [List.append_assoc]; exact get_mid h
    have hs : slice (pre ++ 254 :: n ++ post) (pos + 1) (pos + 5) = some n := by
      have : pre ++ 254 :: n ++ post = (pre ++ [254]) ++ n ++ post := by simp
      rw [this]; exact slice_mid (by simp [h]) (by simp [h, hn])
    refine ⟨?_, ?_, by rw [hg]; rfl⟩
    · simp only [zlPrevSize, hg, Option.bind_eq_bind, Option.bind_some]
      rw [if_pos (by decide), hs]
      simp [hn]
    · rw [hg]; simp

theorem ofNat_toNat {n : Nat} (h : n < 256) : (UInt8.ofNat n).toNat = n := by
  rw [UInt8.toNat_ofNat']; omega

theorem getElem?_pre {pre l : Bytes} {k : Nat} : (pre ++ l)[pre.length + k]? = l[k]? := by
  rw [List.getElem?_append_right (by omega)]; congr 1; omega

theorem slice_pre {pre l post : Bytes} {a b : Nat} : slice (pre ++ l ++ post) (pre.length + a) (pre.length + b) = slice (l ++ post) a b := by
  unfold slice
  simp only [List.append_assoc, List.length_append]
  rw [List.drop_append, List.drop_of_length_le (by omega)]
  have e : pre.length + a - pre.length = a := by omega
  have e2 : pre.length + b - (pre.length + a) = b - a := by omega
  rw [e, e2]
  simp only [List.nil_append]
  by_cases h : a ≤ b ∧ b ≤ l.length + post.length
  · rw [if_pos h, if_pos (by omega)]
  · rw [if_neg h, if_neg (by omega)]

theorem entry_at {pre post : Bytes} {v : ZVal} (hv : v.Valid) (ha : Aligned v) :
    ∃ size length, zlEntry (pre ++ v.enc ++ post) pre.length = some (size, length, seen v) ∧ length + size = v.enc.length := by
  have key : ∀ (size length : Nat) (imm : Bytes) (b : UInt8) (tl : Bytes), v.enc = b :: tl →
      (b.toNat < 0xc0 → b.toNat / 64 = 0 → size = 1 ∧ length = b.toNat % 64 ∧ imm = []) →
      (b.toNat < 0xc0 → b.toNat / 64 = 1 → ∃ b1, (tl ++ post)[0]? = some b1 ∧ size = 2 ∧ length = b1.toNat ∧ imm = []) →
      (b.toNat < 0xc0 → b.toNat / 64 = 2 → ∃ b1 b2 b3 b4, (tl ++ post)[0]? = some b1 ∧ (tl ++ post)[1]? = some b2 ∧
        (tl ++ post)[2]? = some b3 ∧ (tl ++ post)[3]? = some b4 ∧ size = 5 ∧ length = b4.toNat ∧ imm = []) →
      (0xc0 ≤ b.toNat → size = 1 ∧ (b.toNat = 0xfe ∧ length = 1 ∧ imm = [] ∨ b.toNat = 0xc0 ∧ length = 2 ∧ imm = [] ∨
        b.toNat = 0xf0 ∧ length = 3 ∧ imm = [] ∨ b.toNat = 0xd0 ∧ length = 4 ∧ imm = [] ∨
        (0xf1 ≤ b.toNat ∧ b.toNat ≤ 0xfd) ∧ length = 0 ∧ imm = natText (b.toNat % 16 - 1))) →
      zlEntry (pre ++ v.enc ++ post) pre.length =
        if 0 < length then (slice (v.enc ++ post) 1 (length + 1)).map (fun str => (size, length, str)) else some (size, length, imm) := by
    intro size length imm b tl he h0 h1 h2 h3
    have g0 : (pre ++ v.enc ++ post)[pre.length]? = some b := by
      rw [he, List.append_assoc]; exact get_mid rfl
    have g : ∀ k, (pre ++ v.enc ++ post)[pre.length + (k + 1)]? = (tl ++ post)[k]? := by
      intro k; rw [List.append_assoc, getElem?_pre, he]; rfl
    have hsl : slice (pre ++ v.enc ++ post) (pre.length + 1) (pre.length + length + 1) = slice (v.enc ++ post) 1 (length + 1) := by
      rw [Nat.add_assoc]; exact slice_pre
    have hbind : ∀ o : Option Bytes, (o.bind fun str => some (size, length, str)) = o.map fun str => (size, length, str) := by
      intro o; cases o <;> rfl
    have hb := b.toNat_lt
    have hif : ∀ (x y : Option (Nat × Nat × Bytes)), (if 0 < length then x else y) = if 0 < length then x else y := fun _ _ => rfl
    unfold zlEntry
    simp only [g0, Option.bind_eq_bind, Option.bind_some, Option.pure_def]
    by_cases hc : b.toNat < 0xc0
    · rw [if_pos hc]
      by_cases c0 : b.toNat / 64 = 0
      · rw [if_pos c0]
        obtain ⟨rfl, rfl, rfl⟩ := h0 hc c0
        simp only [Option.bind_some, hsl, hbind]
      · rw [if_neg c0]
        by_cases c1 : b.toNat / 64 = 1
        · rw [if_pos c1]
          obtain ⟨b1, e1, rfl, rfl, rfl⟩ := h1 hc c1
          have := g 0
          simp only [this, e1, Option.bind_some, hsl, hbind]
        · rw [if_neg c1]
          obtain ⟨b1, b2, b3, b4, e1, e2, e3, e4, rfl, rfl, rfl⟩ := h2 hc (by omega)
          have p0 := g 0
          have p1 := g 1
          have p2 := g 2
          have p3 := g 3
          simp only [p0, p1, p2, p3, e1, e2, e3, e4, Option.bind_some, hsl, hbind]
    · rw [if_neg hc]
      obtain ⟨rfl, h4⟩ := h3 (by omega)
      rcases h4 with ⟨e, rfl, rfl⟩ | ⟨e, rfl, rfl⟩ | ⟨e, rfl, rfl⟩ | ⟨e, rfl, rfl⟩ | ⟨e, rfl, rfl⟩
      · rw [if_pos e]; simp only [Option.bind_some, hsl, hbind]
      · rw [if_neg (by omega), if_pos e]; simp only [Option.bind_some, hsl, hbind]
      · rw [if_neg (by omega), if_neg (by omega), if_pos e]; simp only [Option.bind_some, hsl, hbind]
      · rw [if_neg (by omega), if_neg (by omega), if_neg (by omega), if_pos e]; simp only [Option.bind_some, hsl, hbind]
      · rw [if_neg (by omega), if_neg (by omega), if_neg (by omega), if_neg (by omega), if_neg (by omega), if_pos e]
        simp only [Option.bind_some, hsl, hbind]
  have sl : ∀ (b : UInt8) (x y : Bytes), slice (b :: x ++ y) 1 (x.length + 1) = some x := by
    intro b x y
    exact slice_mid (pre := [b]) rfl (by simp; omega)
  cases v with
  | str6 s =>
    have hv : s.length < 64 := hv
    have hb := ofNat_toNat (n := s.length) (by omega)
    refine ⟨1, s.length, ?_, by simp [ZVal.enc]⟩
    rw [key 1 s.length [] _ s rfl (by intros; rw [hb]; exact ⟨rfl, by omega, rfl⟩) (by intros; omega) (by intros; omega) (by intros; omega)]
    split
    · rw [show (ZVal.str6 s).enc = UInt8.ofNat s.length :: s from rfl, sl]; rfl
    · have : s = [] := List.length_eq_zero_iff.mp (by omega)
      subst this; rfl
  | str14 s =>
    have hv : s.length < 256 := ha
    have hb := ofNat_toNat (n := 64 + s.length / 256) (by omega)
    have hb1 := ofNat_toNat hv
    refine ⟨2, s.length, ?_, by simp [ZVal.enc]⟩
    rw [key 2 s.length [] _ (UInt8.ofNat s.length :: s) rfl (by intros; omega)
      (by intros; exact ⟨_, rfl, rfl, hb1.symm, rfl⟩) (by intros; omega) (by intros; omega)]
    split
    · have h := sl (UInt8.ofNat (64 + s.length / 256)) ((UInt8.ofNat s.length :: s).take s.length)
        ((UInt8.ofNat s.length :: s).drop s.length ++ post)
      rw [List.cons_append, ← List.append_assoc, List.take_append_drop] at h
      have e : ((UInt8.ofNat s.length :: s).take s.length).length = s.length := by simp
      rw [e] at h
      rw [show (ZVal.str14 s).enc ++ post = UInt8.ofNat (64 + s.length / 256) :: (UInt8.ofNat s.length :: s ++ post) from rfl, h]
      rfl
    · have : s = [] := List.length_eq_zero_iff.mp (by omega)
      subst this; rfl
  | str32 s =>
    have hv : s.length < 256 := ha
    have hlast : (beInt 4 (s.length : Int))[3]? = some (UInt8.ofNat s.length) := by
      unfold beInt
      rw [List.getElem?_reverse (by simp), leInt_length, leInt_succ]
      have : ((s.length : Int) % 256).toNat = s.length := by omega
      rw [this]; rfl
    obtain ⟨b1, b2, b3, b4, hbe⟩ : ∃ b1 b2 b3 b4, beInt 4 (s.length : Int) = [b1, b2, b3, b4] := by
      have := beInt_length 4 (s.length : Int)
      match h : beInt 4 (s.length : Int), this with
      | [b1, b2, b3, b4], _ => exact ⟨_, _, _, _, rfl⟩
    rw [hbe] at hlast
    simp only [List.getElem?_cons_succ, List.getElem?_cons_zero, Option.some.injEq] at hlast
    subst hlast
    have hb4 := ofNat_toNat hv
    refine ⟨5, s.length, ?_, by simp [ZVal.enc]; omega⟩
    rw [key 5 s.length [] 0x80 (beInt 4 s.length ++ s) rfl (by intro _ h; exact absurd h (by decide)) (by intro _ h; exact absurd h (by decide))
      (by intros; exact ⟨b1, b2, b3, UInt8.ofNat s.length, by rw [hbe]; exact ⟨rfl, rfl, rfl, rfl, rfl, hb4.symm, rfl⟩⟩) (by intro h; exact absurd h (by decide))]
    split
    · have h := sl 0x80 ((beInt 4 s.length ++ s).take s.length) ((beInt 4 s.length ++ s).drop s.length ++ post)
      rw [List.cons_append, ← List.append_assoc, List.take_append_drop] at h
      have e : ((beInt 4 (s.length : Int) ++ s).take s.length).length = s.length := by simp
      rw [e] at h
      rw [show (ZVal.str32 s).enc ++ post = 0x80 :: (beInt 4 s.length ++ s ++ post) from rfl, h]
      rfl
    · have : s = [] := List.length_eq_zero_iff.mp (by omega)
      subst this; rfl
  | imm n =>
    have hv : n ≤ 12 := hv
    have hb := ofNat_toNat (n := 0xf1 + n) (by omega)
    refine ⟨1, 0, ?_, by simp [ZVal.enc]⟩
    rw [key 1 0 (natText n) _ [] rfl (by intros; omega) (by intros; omega) (by intros; omega)
      (by intro _; refine ⟨rfl, ?_⟩; rw [hb]; have : (0xf1 + n) % 16 - 1 = n := by omega
          rw [this]; right; right; right; right; exact ⟨by omega, rfl, rfl⟩)]
    rfl
  | int8 v =>
    refine ⟨1, 1, ?_, by simp [ZVal.enc]⟩
    rw [key 1 1 [] 0xfe (leInt 1 v) rfl (by intro h; exact absurd h (by decide)) (by intro h; exact absurd h (by decide)) (by intro h; exact absurd h (by decide)) (by intro _; exact ⟨rfl, .inl ⟨rfl, rfl, rfl⟩⟩)]
    have := sl 0xfe (leInt 1 v) post
    rw [leInt_length] at this
    rw [if_pos (by omega), show (ZVal.int8 v).enc = 0xfe :: leInt 1 v from rfl, this]; rfl
  | int16 v =>
    refine ⟨1, 2, ?_, by simp [ZVal.enc]⟩
    rw [key 1 2 [] 0xc0 (leInt 2 v) rfl (by intro h; exact absurd h (by decide)) (by intro h; exact absurd h (by decide)) (by intro h; exact absurd h (by decide)) (by intro _; exact ⟨rfl, .inr (.inl ⟨rfl, rfl, rfl⟩)⟩)]
    have := sl 0xc0 (leInt 2 v) post
    rw [leInt_length] at this
    rw [if_pos (by omega), show (ZVal.int16 v).enc = 0xc0 :: leInt 2 v from rfl, this]; rfl
  | int24 v =>
    refine ⟨1, 3, ?_, by simp [ZVal.enc]⟩
    rw [key 1 3 [] 0xf0 (leInt 3 v) rfl (by intro h; exact absurd h (by decide)) (by intro h; exact absurd h (by decide)) (by intro h; exact absurd h (by decide)) (by intro _; exact ⟨rfl, .inr (.inr (.inl ⟨rfl, rfl, rfl⟩))⟩)]
    have := sl 0xf0 (leInt 3 v) post
    rw [leInt_length] at this
    rw [if_pos (by omega), show (ZVal.int24 v).enc = 0xf0 :: leInt 3 v from rfl, this]; rfl
  | int32 v =>
    refine ⟨1, 4, ?_, by simp [ZVal.enc]⟩
    rw [key 1 4 [] 0xd0 (leInt 4 v) rfl (by intro h; exact absurd h (by decide)) (by intro h; exact absurd h (by decide)) (by intro h; exact absurd h (by decide)) (by intro _; exact ⟨rfl, .inr (.inr (.inr (.inl ⟨rfl, rfl, rfl⟩)))⟩)]
    have := sl 0xd0 (leInt 4 v) post
    rw [leInt_length] at this
    rw [if_pos (by omega), show (ZVal.int32 v).enc = 0xd0 :: leInt 4 v from rfl, this]; rfl
  | int64 v => exact absurd ha (by simp [Aligned])

theorem prevField_pos {p : Bytes} (h : PrevField p) : 1 ≤ p.length := by
  rcases h with ⟨b, _, rfl⟩ | ⟨n, _, rfl⟩ <;> simp

theorem zlLoop_at {es : List (Bytes × ZVal)} (he : ∀ e ∈ es, PrevField e.1 ∧ e.2.Valid ∧ Aligned e.2) {pre post : Bytes}
    {fuel : Nat} (hf : es.length < fuel) :
    zlLoop (pre ++ (encZEnts es ++ 255 :: post)) fuel pre.length = some (es.map fun e => seen e.2) := by
  induction es generalizing pre fuel with
  | nil =>
    cases fuel with
    | zero => simp at hf
    | succ fuel => simp [zlLoop, encZEnts]
  | cons e es ih =>
    obtain ⟨p, v⟩ := e
    cases fuel with
    | zero => simp at hf
    | succ fuel =>
      obtain ⟨hp, hv, ha⟩ := he (p, v) (by simp)
      simp only at hp hv ha
      have hrest := fun e h => he e (List.mem_cons_of_mem _ h)
      have e1 : pre ++ (encZEnts ((p, v) :: es) ++ 255 :: post) = pre ++ p ++ (v.enc ++ (encZEnts es ++ 255 :: post)) := by
        simp [encZEnts]
      have e2 : pre ++ (encZEnts ((p, v) :: es) ++ 255 :: post) = (pre ++ p) ++ v.enc ++ (encZEnts es ++ 255 :: post) := by
        simp [encZEnts]
      have e3 : pre ++ (encZEnts ((p, v) :: es) ++ 255 :: post) = (pre ++ p ++ v.enc) ++ (encZEnts es ++ 255 :: post) := by
        simp [encZEnts]
      obtain ⟨h1, h2, h3⟩ := prev_size (pre := pre) (post := v.enc ++ (encZEnts es ++ 255 :: post)) hp rfl
      obtain ⟨size, length, h4, h5⟩ := entry_at (pre := pre ++ p) (post := encZEnts es ++ 255 :: post) hv ha
      have h6 := ih hrest (pre := pre ++ p ++ v.enc) (fuel := fuel) (by simp at hf; omega)
      rw [← e1] at h1 h2 h3
      rw [← e2] at h4
      rw [← e3] at h6
      obtain ⟨b, hb⟩ := Option.isSome_iff_exists.mp h3
      have hb' : b ≠ 255 := by intro e; rw [hb, e] at h2; exact h2 rfl
      simp only [zlLoop, hb, Option.bind_eq_bind, Option.bind_some, if_neg hb', h1]
      simp only [List.length_append] at h4 h6
      simp only [h4, Option.bind_some, h5, h6, Option.pure_def, List.map_cons]

theorem ziplistLoad_at {hdr : Bytes} {es : List (Bytes × ZVal)} (hv : ZlValid hdr es) (ha : ∀ e ∈ es, Aligned e.2) :
    ziplistLoad (encZiplist hdr es) = some (es.map fun e => seen e.2) := by
  obtain ⟨h1, h2⟩ := hv
  have hlen : es.length ≤ (encZEnts es).length := by
    clear ha
    induction es with
    | nil => simp
    | cons e es ih =>
      have := ih (fun e h => h2 e (List.mem_cons_of_mem _ h))
      have hp := prevField_pos (h2 e (by simp)).1
      simp only [encZEnts, List.flatMap_cons, List.length_append, List.length_cons] at this ⊢
      omega
  have h := zlLoop_at (es := es) (fun e h => ⟨(h2 e h).1, (h2 e h).2, ha e h⟩) (pre := hdr) (post := [])
    (fuel := (encZiplist hdr es).length + 1) (by simp [encZiplist]; omega)
  rw [h1] at h
  unfold ziplistLoad
  rw [← h]
  simp [encZiplist]

/-! ## Packed maps -/

theorem zmLen_at {pre post spare : Bytes} {n : Nat} (hn : n < 2 ^ 32) {i : Nat} (hi : i = pre.length) :
    zmLen (pre ++ (encZmLen n ++ post)) spare i = some (n, (pre ++ encZmLen n).length) := by
  unfold encZmLen
  by_cases h : n < 254
  · rw [if_pos h]
    have hg : (pre ++ ([UInt8.ofNat n] ++ post))[i]? = some (UInt8.ofNat n) := get_mid hi
    have hb := ofNat_toNat (n := n) (by omega)
    simp only [zmLen, hg, Option.bind_eq_bind, Option.bind_some]
    rw [if_neg (by omega), hb]
    simp [hi]
  · rw [if_neg h]
    have hg : (pre ++ (254 :: leInt 4 n ++ post))[i]? = some 254 := get_mid hi
    have hs : slice (pre ++ (254 :: leInt 4 n ++ post) ++ spare) (i + 1) (i + 5) = some (leInt 4 n) := by
      have : pre ++ (254 :: leInt 4 n ++ post) ++ spare = (pre ++ [254]) ++ leInt 4 n ++ (post ++ spare) := by simp
      rw [this]; exact slice_mid (by simp [hi]) (by simp [hi])
    simp only [zmLen, hg, Option.bind_eq_bind, Option.bind_some]
    rw [if_pos (by decide), hs]
    have := le_leInt 4 (n : Int)
    simp only [Option.bind_some, Option.pure_def, Option.some.injEq, Prod.mk.injEq, List.length_append, List.length_cons, leInt_length]
    omega

theorem zmLenBytes_eq {n : Nat} (hn : n < 2 ^ 32) : zmLenBytes n = encZmLen n := by
  have h : ∀ k m : Nat, leBytes k m = leInt k m := by
    intro k
    induction k with
    | zero => intro m; rfl
    | succ k ih =>
      intro m
      rw [leBytes, leInt_succ, ih]
      have : ((m : Int) / 256) = ((m / 256 : Nat) : Int) := by omega
      rw [this]
      congr 1
      apply UInt8.toNat_inj.mp
      rw [UInt8.toNat_ofNat', UInt8.toNat_ofNat']
      omega
  unfold zmLenBytes encZmLen
  by_cases h' : n < 254
  · rw [if_neg (by omega), if_pos h']
  · rw [if_pos (by omega), if_neg h', h]

end Verif.Rdb

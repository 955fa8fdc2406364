import Verif.Rdb.PropsEnds
import Verif.Lzf.Props
/-!
# C139: damage in a snapshot is reported, not fatal

Where `Load` panics or calls `log.Fatal`, exactly, for all files in any blocks.
-/
namespace Verif.Rdb
open Verif.Resp

/-! ## Sequencing -/

theorem panic_andThen {α β : Type} {x : RRes α × Rd} {f : α → Rd → RRes β × Rd} :
    (andThen x f).1 = .panic ↔ x.1 = .panic ∨ ∃ a r, x = (.ok a, r) ∧ (f a r).1 = .panic := by
  obtain ⟨y, r⟩ := x
  cases y with
  | ok a =>
    simp only [andThen, reduceCtorEq, false_or, Prod.mk.injEq, GoRes.ok.injEq]
    exact ⟨fun h => ⟨a, r, ⟨rfl, rfl⟩, h⟩, fun ⟨_, _, ⟨h1, h2⟩, h⟩ => h1 ▸ h2 ▸ h⟩
  | err e => simp [andThen]
  | panic => simp [andThen]

theorem readByte_calm (r : Rd) (hw : r.WF) : (readByte r).1 ≠ .panic := by
  intro h
  have h1 := congrArg Prod.fst (readByte_flat r hw).1
  simp only at h1
  rw [h] at h1
  cases hf : r.flat <;> rw [hf] at h1 <;> cases h1

theorem readFull_calm (n : Nat) (r : Rd) (hw : r.WF) : (readFull n r).1 ≠ .panic := by
  obtain ⟨a1, a2⟩ := readFullAux_flat (n := n) hw (Nat.le_refl n)
  unfold readFull
  by_cases h : n ≤ r.flat.length
  · obtain ⟨r', e, _⟩ := a1 h; rw [e]; simp
  · obtain ⟨r', e, _⟩ := a2 (by omega); rw [e]; simp

theorem read_calm (n : Nat) (r : Rd) : (Resp.read n r).1 ≠ .panic := by
  unfold Resp.read
  split
  · simp
  · split
    · simp
    · split
      · split <;> simp
      · split <;> simp

theorem readByte_end {r : Rd} (hw : r.WF) (h : r.flat = []) : ∃ r', readByte r = (.err .eof, r') := by
  have h1 := congrArg Prod.fst (readByte_flat r hw).1
  rw [h] at h1
  exact ⟨_, Prod.ext h1 rfl⟩

/-! ## Lengths and strings -/

/-- A length of two bytes of which only the first is there. -/
def CutLen (f : Bytes) : Prop := ∃ b, f = [b] ∧ b.toNat / 64 = 1

/-- Reading a length from a file that goes on with `f`, as `LoadLen` does (rdb.go:41-91). -/
def lenAt : Bytes → Option (Nat × Bytes)
  | [] => none
  | b :: f =>
    if b.toNat / 64 = 3 ∨ b.toNat / 64 = 0 then some (b.toNat % 64, f)
    else if b.toNat / 64 = 1 then f.head?.map fun b1 => (b.toNat % 64 * 256 + b1.toNat, f.drop 1)
    else if b = 0x80 then some (0, f.drop 4)
    else if b = 0x81 then some (0, f.drop 8)
    else none

theorem lenAt_cons (b : UInt8) (f : Bytes) : lenAt (b :: f) =
    if b.toNat / 64 = 3 ∨ b.toNat / 64 = 0 then some (b.toNat % 64, f)
    else if b.toNat / 64 = 1 then f.head?.map fun b1 => (b.toNat % 64 * 256 + b1.toNat, f.drop 1)
    else if b = 0x80 then some (0, f.drop 4)
    else if b = 0x81 then some (0, f.drop 8)
    else none := rfl

theorem loadLen_panic {r : Rd} (hw : r.WF) : (loadLen r).1 = .panic ↔ CutLen r.flat := by
  unfold loadLen
  cases hf : r.flat with
  | nil =>
    obtain ⟨r', e⟩ := readByte_end hw hf
    simp [e, andThen, CutLen]
  | cons b f =>
    obtain ⟨r1, e, h1, h2⟩ := readByte_at hw hf
    rw [e, andThen_ok]
    by_cases h3 : b.toNat / 64 = 3
    · rw [if_pos h3]; simp [CutLen]; intros; subst_vars; omega
    rw [if_neg h3]
    by_cases h0 : b.toNat / 64 = 0
    · rw [if_pos h0]; simp [CutLen]; intros; subst_vars; omega
    rw [if_neg h0]
    by_cases h4 : b.toNat / 64 = 1
    · rw [if_pos h4]
      cases f with
      | nil =>
        obtain ⟨r', e⟩ := readByte_end h2 h1
        rw [e]; simp [CutLen, h4]
      | cons b1 f =>
        obtain ⟨r', e, _⟩ := readByte_at h2 h1
        rw [e]; simp [CutLen]
    rw [if_neg h4]
    have hn : ¬ CutLen (b :: f) := by rintro ⟨b', h, h'⟩; cases h; exact h4 h'
    split
    · simpa using hn
    · split <;> simpa using hn

theorem loadLen_ok {r : Rd} (hw : r.WF) {l : Nat × Bool} {r1 : Rd} (h : loadLen r = (.ok l, r1)) :
    lenAt r.flat = some (l.1, r1.flat) ∧ r1.WF ∧ l.1 < 16384 := by
  have hwf := nice_loadLen.wf r hw
  rw [h] at hwf
  suffices hs : lenAt r.flat = some (l.1, r1.flat) ∧ l.1 < 16384 from ⟨hs.1, hwf, hs.2⟩
  unfold loadLen at h
  cases hf : r.flat with
  | nil =>
    obtain ⟨r', e⟩ := readByte_end hw hf
    rw [e] at h; cases h
  | cons b f =>
    obtain ⟨r0, e, h1, h2⟩ := readByte_at hw hf
    rw [e, andThen_ok] at h
    have hb := b.toNat_lt
    rw [lenAt_cons]
    by_cases h3 : b.toNat / 64 = 3
    · rw [if_pos h3] at h; cases h; rw [if_pos (.inl h3), h1]; exact ⟨rfl, by simp only; omega⟩
    rw [if_neg h3] at h
    by_cases h0 : b.toNat / 64 = 0
    · rw [if_pos h0] at h; cases h; rw [if_pos (.inr h0), h1]; exact ⟨rfl, by simp only; omega⟩
    rw [if_neg h0] at h
    rw [if_neg (by omega)]
    by_cases h4 : b.toNat / 64 = 1
    · rw [if_pos h4] at h ⊢
      cases f with
      | nil =>
        obtain ⟨r', e⟩ := readByte_end h2 h1
        rw [e] at h; cases h
      | cons b1 f =>
        obtain ⟨r', e, h5, _⟩ := readByte_at h2 h1
        have hb1 := b1.toNat_lt
        rw [e] at h; cases h; rw [h5]; exact ⟨rfl, by simp only; omega⟩
    rw [if_neg h4] at h ⊢
    have full : ∀ n, (readFull n r0).2.flat = f.drop n := by
      intro n
      obtain ⟨a1, a2⟩ := readFullAux_flat (n := n) h2 (Nat.le_refl n)
      unfold readFull
      by_cases h : n ≤ r0.flat.length
      · obtain ⟨r', e, h6, _⟩ := a1 h; rw [e, h6, h1]
      · obtain ⟨r', e, h6, _⟩ := a2 (by omega); rw [e, h6, ← h1, List.drop_eq_nil_of_le (by omega)]
    split at h
    · rename_i hb; cases h; rw [if_pos hb, full]; simp
    · rename_i hb
      rw [if_neg hb]
      split at h
      · rename_i hb; cases h; rw [if_pos hb, full]; simp
      · cases h

theorem loadLen_some {r : Rd} (hw : r.WF) {n : Nat} {f : Bytes} (h : lenAt r.flat = some (n, f)) :
    ∃ t r1, loadLen r = (.ok (n, t), r1) ∧ r1.flat = f ∧ r1.WF := by
  rcases hx : loadLen r with ⟨y, r1⟩
  cases y with
  | ok l =>
    obtain ⟨h1, h2, _⟩ := loadLen_ok hw hx
    rw [h] at h1; cases h1
    exact ⟨l.2, r1, rfl, rfl, h2⟩
  | err e =>
    exfalso
    unfold loadLen at hx
    cases hf : r.flat with
    | nil => rw [hf] at h; cases h
    | cons b g =>
      obtain ⟨r0, e, h1, h2⟩ := readByte_at hw hf
      rw [e, andThen_ok] at hx
      rw [hf] at h
      rw [lenAt_cons] at h
      by_cases h3 : b.toNat / 64 = 3
      · rw [if_pos h3] at hx; cases hx
      rw [if_neg h3] at hx
      by_cases h0 : b.toNat / 64 = 0
      · rw [if_pos h0] at hx; cases hx
      rw [if_neg h0] at hx
      rw [if_neg (by omega)] at h
      by_cases h4 : b.toNat / 64 = 1
      · rw [if_pos h4] at hx
        split at hx <;> cases hx
      rw [if_neg h4] at h hx
      split at hx
      · cases hx
      · rename_i hb
        rw [if_neg hb] at h
        split at hx
        · cases hx
        · rename_i hb; rw [if_neg hb] at h; cases h
  | panic =>
    exfalso
    obtain ⟨b, e, h1⟩ := (loadLen_panic hw).1 (by rw [hx])
    rw [e] at h
    simp only [lenAt, h1] at h
    simp at h

/-- A compressed string (behind its first byte) that ends the process: a length cut off, or one of the two lengths is
read as zero (as those of four and eight bytes are) and the compressed bytes are all there. -/
def LzfFault (f : Bytes) : Prop :=
  CutLen f ∨ ∃ n g, lenAt f = some (n, g) ∧ (CutLen g ∨ ∃ l h, lenAt g = some (l, h) ∧ n ≤ h.length ∧ (n = 0 ∨ l = 0))

/-- A string at which `LoadString` ends the process. -/
def StrFault (f : Bytes) : Prop :=
  CutLen f ∨ (∃ g, f = 0xc2 :: g ∧ g.length < 4) ∨ ∃ g, f = 0xc3 :: g ∧ LzfFault g

theorem loadLzf_panic {r : Rd} (hw : r.WF) : (loadLzf r).1 = .panic ↔ LzfFault r.flat := by
  unfold loadLzf LzfFault
  rw [panic_andThen, loadLen_panic hw]
  refine or_congr Iff.rfl ?_
  have last : ∀ {n l : Nat × Bool} {r2 : Rd}, r2.WF → n.1 < 16384 →
      ((andThen (readFull n.1 r2) fun c r => match Lzf.goDecompress c l.1 with
        | .ok s => (.ok s, r)
        | .err e => e.elim
        | .panic => (.panic, r) : RRes Bytes × Rd).1 = .panic ↔ n.1 ≤ r2.flat.length ∧ (n.1 = 0 ∨ l.1 = 0)) := by
    intro n l r2 hw2 hn
    obtain ⟨a1, a2⟩ := readFullAux_flat (n := n.1) hw2 (Nat.le_refl n.1)
    by_cases h : n.1 ≤ r2.flat.length
    · obtain ⟨r', e, _⟩ := a1 h
      rw [show readFull n.1 r2 = _ from e, andThen_ok]
      simp only [h, true_and]
      have hlen : (r2.flat.take n.1).length = n.1 := by simp; omega
      generalize hc : r2.flat.take n.1 = c at *
      by_cases h0 : c = [] ∨ (l.1 : Int) ≤ 0
      · have : Lzf.goDecompress c l.1 = .panic := by unfold Lzf.goDecompress; rw [if_pos h0]
        rw [this]
        refine iff_of_true rfl ?_
        rcases h0 with h0 | h0
        · left; rw [← hlen, h0]; rfl
        · right; omega
      · have hne : ¬ (n.1 = 0 ∨ l.1 = 0) := by
          rintro (h1 | h1)
          · exact h0 (.inl (List.length_eq_zero_iff.1 (by omega)))
          · exact h0 (.inr (by omega))
        refine iff_of_false ?_ hne
        unfold Lzf.goDecompress
        rw [if_neg h0, Nat.mod_eq_of_lt (by omega), List.take_length]
        have := Lzf.C59_stays_inside c (fun h => h0 (.inl h)) ((l.1 : Int).toNat % 2 ^ 32)
        split
        · simp
        · rename_i e _; exact e.elim
        · rename_i hp
          split at hp
          · rename_i hd; exact absurd hd this
          · cases hp
          · cases hp
          · cases hp
    · obtain ⟨r', e, _⟩ := a2 (by omega)
      rw [show readFull n.1 r2 = _ from e]
      simp [andThen, h]
  constructor
  · rintro ⟨n, r1, h1, h2⟩
    obtain ⟨h3, w1, hn⟩ := loadLen_ok hw h1
    refine ⟨n.1, r1.flat, h3, ?_⟩
    rw [panic_andThen, loadLen_panic w1] at h2
    refine h2.imp id ?_
    rintro ⟨l, r2, h4, h5⟩
    obtain ⟨h6, w2, hl⟩ := loadLen_ok w1 h4
    exact ⟨l.1, r2.flat, h6, (last w2 hn).1 h5⟩
  · rintro ⟨n, g, h1, h2⟩
    obtain ⟨t, r1, h3, rfl, w1⟩ := loadLen_some hw h1
    have hn := (loadLen_ok hw h3).2.2
    refine ⟨_, r1, h3, ?_⟩
    rw [panic_andThen, loadLen_panic w1]
    refine h2.imp id ?_
    rintro ⟨l, h, h4, h5⟩
    obtain ⟨t', r2, h6, rfl, w2⟩ := loadLen_some w1 h4
    exact ⟨_, r2, h6, (last w2 hn).2 h5⟩

theorem loadString_panic {r : Rd} (hw : r.WF) : (loadString r).1 = .panic ↔ StrFault r.flat := by
  unfold loadString StrFault
  rw [panic_andThen, loadLen_panic hw]
  refine or_congr Iff.rfl ?_
  constructor
  · rintro ⟨⟨l, t⟩, r1, h1, h2⟩
    have w1 := (loadLen_ok hw h1).2.1
    cases t with
    | false =>
      simp only [Bool.false_eq_true, if_false] at h2
      rw [panic_andThen] at h2
      rcases h2 with h2 | ⟨_, _, _, h2⟩
      · exact absurd h2 (read_calm _ _)
      · cases h2
    | true =>
      simp only [if_true] at h2
      obtain ⟨b, f, h3, h4, h5, h6⟩ : ∃ b f, r.flat = b :: f ∧ b.toNat / 64 = 3 ∧ l = b.toNat % 64 ∧ r1.flat = f := by
        unfold loadLen at h1
        cases hf : r.flat with
        | nil => obtain ⟨r', e⟩ := readByte_end hw hf; rw [e] at h1; cases h1
        | cons b f =>
          obtain ⟨r0, e, h3, h4⟩ := readByte_at hw hf
          rw [e, andThen_ok] at h1
          by_cases h5 : b.toNat / 64 = 3
          · rw [if_pos h5] at h1; cases h1; exact ⟨b, f, rfl, h5, rfl, h3⟩
          · rw [if_neg h5] at h1
            split at h1
            · cases h1
            · split at h1
              · split at h1 <;> cases h1
              · split at h1
                · cases h1
                · split at h1 <;> cases h1
      have hb := b.toNat_lt
      split at h2
      · rw [panic_andThen] at h2
        rcases h2 with h2 | ⟨_, _, _, h2⟩
        · exact absurd h2 (readByte_calm _ w1)
        · cases h2
      split at h2
      · rw [panic_andThen] at h2
        rcases h2 with h2 | ⟨_, _, _, h2⟩
        · exact absurd h2 (readFull_calm _ _ w1)
        · cases h2
      split at h2
      · rename_i hl
        left
        have hb2 : b = 0xc2 := UInt8.toNat_inj.1 (by show b.toNat = 194; omega)
        refine ⟨f, by rw [h3, hb2], ?_⟩
        obtain ⟨a1, _⟩ := readFullAux_flat (n := 4) w1 (Nat.le_refl 4)
        refine Nat.lt_of_not_le fun hle => ?_
        obtain ⟨r', e, _⟩ := a1 (by rw [h6]; exact hle)
        rw [show readFull 4 r1 = _ from e] at h2
        cases h2
      split at h2
      · rename_i hl
        right
        have hb2 : b = 0xc3 := UInt8.toNat_inj.1 (by show b.toNat = 195; omega)
        exact ⟨f, by rw [h3, hb2], h6 ▸ (loadLzf_panic w1).1 h2⟩
      · cases h2
  · rintro (⟨g, h1, h2⟩ | ⟨g, h1, h2⟩)
    · obtain ⟨r0, e, h3, h4⟩ := readByte_at hw h1
      refine ⟨(2, true), r0, by simp [loadLen, e, andThen], ?_⟩
      obtain ⟨_, a2⟩ := readFullAux_flat (n := 4) h4 (Nat.le_refl 4)
      obtain ⟨r', e', _⟩ := a2 (by rw [h3]; exact h2)
      simp [show readFull 4 r0 = _ from e']
    · obtain ⟨r0, e, h3, h4⟩ := readByte_at hw h1
      refine ⟨(3, true), r0, by simp [loadLen, e, andThen], ?_⟩
      simpa using (loadLzf_panic h4).2 (h3 ▸ h2)

theorem loadString_wf {r r1 : Rd} {s : Bytes} (hw : r.WF) (h : loadString r = (.ok s, r1)) : r1.WF := by
  have := nice_loadString.wf r hw
  rwa [h] at this

theorem loadDouble_calm {r : Rd} (hw : r.WF) : (loadDouble r).1 ≠ .panic := by
  unfold loadDouble
  intro h
  rw [panic_andThen] at h
  rcases h with h | ⟨l, r1, h1, h⟩
  · exact readByte_calm _ hw h
  have w1 := nice_readByte.wf r hw
  rw [h1] at w1
  split at h
  · cases h
  split at h
  · cases h
  rw [panic_andThen] at h
  rcases h with h | ⟨_, _, _, h⟩
  · exact readFull_calm _ _ w1 h
  · split at h <;> cases h

theorem loadBinaryDouble_calm {r : Rd} (hw : r.WF) : (loadBinaryDouble r).1 ≠ .panic := by
  unfold loadBinaryDouble
  intro h
  rw [panic_andThen] at h
  rcases h with h | ⟨_, _, _, h⟩
  · exact readFull_calm _ _ hw h
  · cases h

/-! ## Values -/

/-- One of `n` strings ends the process, those before it being read. -/
def StrsFault (n : Nat) (r : Rd) : Prop := ∃ i < n, ∃ ss r1, loadStrings i r = (.ok ss, r1) ∧ StrFault r1.flat

theorem loadStrings_panic {n : Nat} {r : Rd} (hw : r.WF) : (loadStrings n r).1 = .panic ↔ StrsFault n r := by
  induction n generalizing r with
  | zero => simp [loadStrings, StrsFault]
  | succ n ih =>
    rw [loadStrings, panic_andThen, loadString_panic hw]
    constructor
    · rintro (h | ⟨s, r1, h1, h⟩)
      · exact ⟨0, by omega, [], r, rfl, h⟩
      · rw [panic_andThen] at h
        rcases h with h | ⟨_, _, _, h⟩
        · obtain ⟨i, hi, ss, r2, h2, h3⟩ := (ih (loadString_wf hw h1)).1 h
          exact ⟨i + 1, by omega, s :: ss, r2, by simp [loadStrings, h1, h2, andThen], h3⟩
        · cases h
    · rintro ⟨i, hi, ss, r2, h1, h2⟩
      cases i with
      | zero => cases h1; exact .inl h2
      | succ i =>
        rw [loadStrings] at h1
        obtain ⟨s, r1, h3, h1⟩ := andThen_eq_ok h1
        obtain ⟨ss', r3, h4, h1⟩ := andThen_eq_ok h1
        cases h1
        refine .inr ⟨s, r1, h3, ?_⟩
        rw [panic_andThen]
        exact .inl ((ih (loadString_wf hw h3)).2 ⟨i, by omega, ss', _, h4, h2⟩)

/-- The pairs of a hash are read as twice as many strings. -/
theorem loadPairs_panic {n : Nat} {r : Rd} (hw : r.WF) : (loadPairs n r).1 = .panic ↔ StrsFault (2 * n) r := by
  rw [← loadStrings_panic hw]
  induction n generalizing r with
  | zero => simp [loadStrings, loadPairs]
  | succ n ih =>
    rw [loadPairs, show 2 * (n + 1) = 2 * n + 1 + 1 by omega, loadStrings, panic_andThen, panic_andThen]
    refine or_congr Iff.rfl ⟨?_, ?_⟩
    all_goals
      rintro ⟨s, r1, h1, h⟩
      refine ⟨s, r1, h1, ?_⟩
      have w1 := loadString_wf hw h1
    · rw [panic_andThen] at h ⊢
      rw [loadStrings, panic_andThen]
      rcases h with h | ⟨s2, r2, h2, h⟩
      · exact .inl (.inl h)
      · rw [panic_andThen] at h
        rcases h with h | ⟨_, _, _, h⟩
        · refine .inl (.inr ⟨s2, r2, h2, ?_⟩)
          rw [panic_andThen]
          exact .inl ((ih (loadString_wf w1 h2)).1 h)
        · cases h
    · rw [panic_andThen] at h ⊢
      rcases h with h | ⟨_, _, _, h⟩
      · rw [loadStrings, panic_andThen] at h
        rcases h with h | ⟨s2, r2, h2, h⟩
        · exact .inl h
        · rw [panic_andThen] at h
          rcases h with h | ⟨_, _, _, h⟩
          · refine .inr ⟨s2, r2, h2, ?_⟩
            rw [panic_andThen]
            exact .inl ((ih (loadString_wf w1 h2)).2 h)
          · cases h
      · cases h

/-- The member of one of `n` scored members ends the process; scores never do. -/
def ScoredFault (binary : Bool) (n : Nat) (r : Rd) : Prop :=
  ∃ i < n, ∃ ss r1, loadScored binary i r = (.ok ss, r1) ∧ StrFault r1.flat

theorem score_calm {binary : Bool} {r : Rd} (hw : r.WF) : (if binary then loadBinaryDouble r else loadDouble r).1 ≠ .panic := by
  cases binary
  · simpa using loadDouble_calm hw
  · simpa using loadBinaryDouble_calm hw

theorem score_wf {binary : Bool} {r r1 : Rd} {x : F64} (hw : r.WF)
    (h : (if binary then loadBinaryDouble r else loadDouble r) = (.ok x, r1)) : r1.WF := by
  cases binary
  · have := nice_loadDouble.wf r hw
    simp only [Bool.false_eq_true, if_false] at h
    rwa [h] at this
  · have := nice_loadBinaryDouble.wf r hw
    simp only [if_true] at h
    rwa [h] at this

theorem loadScored_panic {binary : Bool} {n : Nat} {r : Rd} (hw : r.WF) :
    (loadScored binary n r).1 = .panic ↔ ScoredFault binary n r := by
  induction n generalizing r with
  | zero => simp [loadScored, ScoredFault]
  | succ n ih =>
    rw [loadScored, panic_andThen, loadString_panic hw]
    constructor
    · rintro (h | ⟨s, r1, h1, h⟩)
      · exact ⟨0, by omega, [], r, rfl, h⟩
      · have w1 := loadString_wf hw h1
        rw [panic_andThen] at h
        rcases h with h | ⟨x, r2, h2, h⟩
        · exact absurd h (score_calm w1)
        · rw [panic_andThen] at h
          rcases h with h | ⟨_, _, _, h⟩
          · obtain ⟨i, hi, ss, r3, h3, h4⟩ := (ih (score_wf w1 h2)).1 h
            exact ⟨i + 1, by omega, s :: formatFloat x :: ss, r3, by simp only [loadScored, h1, h2, h3, andThen], h4⟩
          · cases h
    · rintro ⟨i, hi, ss, r2, h1, h2⟩
      cases i with
      | zero => cases h1; exact .inl h2
      | succ i =>
        rw [loadScored] at h1
        obtain ⟨s, r1, h3, h1⟩ := andThen_eq_ok h1
        obtain ⟨x, r3, h4, h1⟩ := andThen_eq_ok h1
        obtain ⟨ss', r4, h5, h1⟩ := andThen_eq_ok h1
        cases h1
        refine .inr ⟨s, r1, h3, ?_⟩
        rw [panic_andThen]
        refine .inr ⟨x, r3, h4, ?_⟩
        rw [panic_andThen]
        exact .inl ((ih (score_wf (loadString_wf hw h3) h4)).2 ⟨i, by omega, ss', _, h5, h2⟩)

/-- The string of a packed value ends the process, or it is read and unpacking it does. -/
def PackedFault {α : Type} (unpack : Bytes → Option α) (r : Rd) : Prop :=
  StrFault r.flat ∨ ∃ s r1, loadString r = (.ok s, r1) ∧ unpack s = none

/-- One of `n` nodes of a list ends the process. -/
def NodesFault (n : Nat) (r : Rd) : Prop := ∃ i < n, ∃ ss r1, loadNodes i r = (.ok ss, r1) ∧ PackedFault ziplistLoad r1

theorem loadNodes_panic {n : Nat} {r : Rd} (hw : r.WF) : (loadNodes n r).1 = .panic ↔ NodesFault n r := by
  induction n generalizing r with
  | zero => simp [loadNodes, NodesFault]
  | succ n ih =>
    rw [loadNodes, panic_andThen, loadString_panic hw]
    constructor
    · rintro (h | ⟨s, r1, h1, h⟩)
      · exact ⟨0, by omega, [], r, rfl, .inl h⟩
      · cases hz : ziplistLoad s with
        | none => exact ⟨0, by omega, [], r, rfl, .inr ⟨s, r1, h1, hz⟩⟩
        | some xs =>
          simp only [hz] at h
          rw [panic_andThen] at h
          rcases h with h | ⟨_, _, _, h⟩
          · obtain ⟨i, hi, ss, r3, h3, h4⟩ := (ih (loadString_wf hw h1)).1 h
            exact ⟨i + 1, by omega, xs ++ ss, r3, by simp only [loadNodes, h1, hz, h3, andThen], h4⟩
          · cases h
    · rintro ⟨i, hi, ss, r2, h1, h2⟩
      cases i with
      | zero =>
        cases h1
        refine h2.imp id ?_
        rintro ⟨s, r1, h3, h4⟩
        exact ⟨s, r1, h3, by simp only [h4]⟩
      | succ i =>
        rw [loadNodes] at h1
        obtain ⟨s, r1, h3, h1⟩ := andThen_eq_ok h1
        cases hz : ziplistLoad s with
        | none => rw [hz] at h1; cases h1
        | some xs =>
          simp only [hz] at h1
          obtain ⟨ss', r4, h5, h1⟩ := andThen_eq_ok h1
          cases h1
          refine .inr ⟨s, r1, h3, ?_⟩
          simp only [hz]
          rw [panic_andThen]
          exact .inl ((ih (loadString_wf hw h3)).2 ⟨i, by omega, ss', _, h5, h2⟩)

theorem packed_panic {α β : Type} {unpack : Bytes → Option α} {g : α → β} {r : Rd} (hw : r.WF) :
    (andThen (loadString r) fun s r => andThen (orPanic (unpack s) r) fun x r => (.ok (g x), r) : RRes β × Rd).1 = .panic ↔
      PackedFault unpack r := by
  rw [panic_andThen, loadString_panic hw]
  refine or_congr Iff.rfl ⟨?_, ?_⟩
  · rintro ⟨s, r1, h1, h⟩
    refine ⟨s, r1, h1, ?_⟩
    cases hu : unpack s with
    | none => rfl
    | some x => rw [hu] at h; cases h
  · rintro ⟨s, r1, h1, h⟩
    exact ⟨s, r1, h1, by rw [h]; rfl⟩

/-- A length is cut off, or it is read and what follows ends the process. -/
def LenFault (fault : Nat → Rd → Prop) (r : Rd) : Prop :=
  CutLen r.flat ∨ ∃ l r1, loadLen r = (.ok l, r1) ∧ fault l.1 r1

theorem counted_panic {α β : Type} {read : Nat → Rd → RRes α × Rd} {fault : Nat → Rd → Prop} {g : α → β} {r : Rd} (hw : r.WF)
    (hr : ∀ {n : Nat} {r : Rd}, r.WF → ((read n r).1 = .panic ↔ fault n r)) :
    (andThen (loadLen r) fun l r => andThen (read l.1 r) fun x r => (.ok (g x), r) : RRes β × Rd).1 = .panic ↔ LenFault fault r := by
  rw [panic_andThen, loadLen_panic hw]
  refine or_congr Iff.rfl ⟨?_, ?_⟩
  · rintro ⟨l, r1, h1, h⟩
    rw [panic_andThen] at h
    rcases h with h | ⟨_, _, _, h⟩
    · exact ⟨l, r1, h1, (hr (loadLen_ok hw h1).2.1).1 h⟩
    · cases h
  · rintro ⟨l, r1, h1, h⟩
    refine ⟨l, r1, h1, ?_⟩
    rw [panic_andThen]
    exact .inl ((hr (loadLen_ok hw h1).2.1).2 h)

/-- The value of a record of type `op` ends the process. -/
def ObjFault (op : UInt8) (r : Rd) : Prop :=
  if op = 0 then StrFault r.flat
  else if op = 1 ∨ op = 2 then LenFault StrsFault r
  else if op = 3 then LenFault (ScoredFault false) r
  else if op = 5 then LenFault (ScoredFault true) r
  else if op = 4 then LenFault (fun n => StrsFault (2 * n)) r
  else if op = 14 then LenFault NodesFault r
  else if op = 9 then PackedFault zipmapLoad r
  else if op = 11 then PackedFault intsetLoad r
  else if op = 10 ∨ op = 12 ∨ op = 13 then PackedFault ziplistLoad r
  else if op = 15 then CutLen r.flat
  else False

theorem loadObj_panic {ord : MapOrd} {n : Nat} {op : UInt8} {key : Bytes} {r : Rd} (hw : r.WF) :
    (loadObj ord n op key r).1 = .panic ↔ ObjFault op r := by
  unfold loadObj ObjFault
  by_cases h0 : op = 0
  · rw [if_pos h0, if_pos h0, panic_andThen, loadString_panic hw]
    exact or_iff_left (by rintro ⟨_, _, _, h⟩; cases h)
  rw [if_neg h0, if_neg h0]
  by_cases h1 : op = 1
  · rw [if_pos h1, if_pos (.inl h1)]; exact counted_panic hw loadStrings_panic
  rw [if_neg h1]
  by_cases h2 : op = 2
  · rw [if_pos h2, if_pos (.inr h2)]; exact counted_panic hw loadStrings_panic
  rw [if_neg h2, if_neg (show ¬ (op = 1 ∨ op = 2) by simp [h1, h2])]
  by_cases h3 : op = 3
  · rw [if_pos (.inl h3), if_pos h3]; subst h3; exact counted_panic hw loadScored_panic
  rw [if_neg h3]
  by_cases h5 : op = 5
  · rw [if_pos (.inr h5), if_pos h5]; subst h5; exact counted_panic hw loadScored_panic
  rw [if_neg h5, if_neg (show ¬ (op = 3 ∨ op = 5) by simp [h3, h5])]
  by_cases h4 : op = 4
  · rw [if_pos h4, if_pos h4]; exact counted_panic (read := loadPairs) hw loadPairs_panic
  rw [if_neg h4, if_neg h4]
  by_cases h14 : op = 14
  · rw [if_pos h14, if_pos h14]; exact counted_panic hw loadNodes_panic
  rw [if_neg h14, if_neg h14]
  by_cases h9 : op = 9
  · rw [if_pos h9, if_pos h9]; exact packed_panic hw
  rw [if_neg h9, if_neg h9]
  by_cases h11 : op = 11
  · rw [if_pos h11, if_pos h11]; exact packed_panic hw
  rw [if_neg h11, if_neg h11]
  by_cases h12 : op = 12
  · rw [if_pos h12, if_pos (.inr (.inl h12))]; exact packed_panic hw
  rw [if_neg h12]
  by_cases h13 : op = 13
  · rw [if_pos h13, if_pos (.inr (.inr h13))]; exact packed_panic hw
  rw [if_neg h13]
  by_cases h10 : op = 10
  · rw [if_pos h10, if_pos (.inl h10)]; exact packed_panic hw
  rw [if_neg h10, if_neg (show ¬ (op = 10 ∨ op = 12 ∨ op = 13) by simp [h10, h12, h13])]
  by_cases h15 : op = 15
  · rw [if_pos h15, if_pos h15, panic_andThen, loadLen_panic hw]
    exact or_iff_left (by rintro ⟨_, _, _, h⟩; cases h)
  rw [if_neg h15, if_neg h15]
  split <;> simp

/-! ## Records -/

/-- Behind its first byte, a record of type `op` ends the process. -/
def TailFault (op : UInt8) (r : Rd) : Prop :=
  if op = 253 ∨ op = 252 ∨ op = 249 ∨ op = 255 then False
  else if op = 248 ∨ op = 254 then CutLen r.flat
  else if op = 251 then LenFault (fun _ r => CutLen r.flat) r
  else if op = 250 then StrsFault 2 r
  else if op = 247 then
    LenFault (fun _ => LenFault fun w r => w = 2 ∧ LenFault (fun _ r => CutLen r.flat) r) r
  else StrFault r.flat ∨ ∃ key r1, loadString r = (.ok key, r1) ∧ key ≠ [] ∧ ObjFault op r1

/-- A record ends the process. -/
def RecFault (r : Rd) : Prop := ∃ op r1, readByte r = (.ok op, r1) ∧ TailFault op r1

theorem len_panic {β : Type} {g : Nat × Bool → β} {r : Rd} (hw : r.WF) :
    (andThen (loadLen r) fun l r => (.ok (g l), r) : RRes β × Rd).1 = .panic ↔ CutLen r.flat := by
  rw [panic_andThen, loadLen_panic hw]
  exact or_iff_left (by rintro ⟨_, _, _, h⟩; cases h)

theorem lenThen_panic {β : Type} {f : Nat × Bool → Rd → RRes β × Rd} {fault : Nat → Rd → Prop} {r : Rd} (hw : r.WF)
    (hf : ∀ {l : Nat × Bool} {r : Rd}, r.WF → ((f l r).1 = .panic ↔ fault l.1 r)) :
    (andThen (loadLen r) f).1 = .panic ↔ LenFault fault r := by
  rw [panic_andThen, loadLen_panic hw]
  refine or_congr Iff.rfl ⟨?_, ?_⟩
  · rintro ⟨l, r1, h1, h⟩; exact ⟨l, r1, h1, (hf (loadLen_ok hw h1).2.1).1 h⟩
  · rintro ⟨l, r1, h1, h⟩; exact ⟨l, r1, h1, (hf (loadLen_ok hw h1).2.1).2 h⟩

theorem recTail_panic {ord : MapOrd} {n : Nat} {op : UInt8} {r : Rd} (hw : r.WF) :
    (recTail ord n op r).1 = .panic ↔ TailFault op r := by
  have calm : ∀ {α β : Type} {x : RRes α × Rd} {g : α → β}, x.1 ≠ .panic →
      (andThen x fun a r => (.ok (g a), r) : RRes β × Rd).1 ≠ .panic := by
    intro α β x g hx h
    rw [panic_andThen] at h
    rcases h with h | ⟨_, _, _, h⟩
    · exact hx h
    · cases h
  unfold recTail TailFault
  by_cases h1 : op = 253
  · rw [if_pos h1, if_pos (.inl h1)]
    exact iff_of_false (calm (readFull_calm _ _ hw)) id
  rw [if_neg h1]
  by_cases h2 : op = 252
  · rw [if_pos h2, if_pos (.inr (.inl h2))]
    exact iff_of_false (calm (readFull_calm _ _ hw)) id
  rw [if_neg h2]
  by_cases h3 : op = 249
  · rw [if_pos h3, if_pos (.inr (.inr (.inl h3)))]
    exact iff_of_false (calm (g := fun _ => Rec.ignored) (readByte_calm _ hw)) id
  rw [if_neg h3]
  by_cases h4 : op = 248
  · subst h4; simp only [if_true]; exact len_panic hw
  rw [if_neg h4]
  by_cases h5 : op = 255
  · subst h5; simp
  rw [if_neg h5, if_neg (show ¬ (op = 253 ∨ op = 252 ∨ op = 249 ∨ op = 255) by simp [h1, h2, h3, h5])]
  by_cases h6 : op = 254
  · rw [if_pos h6, if_pos (.inr h6)]; exact len_panic hw
  rw [if_neg h6, if_neg (show ¬ (op = 248 ∨ op = 254) by simp [h4, h6])]
  by_cases h7 : op = 251
  · rw [if_pos h7, if_pos h7]; exact lenThen_panic hw len_panic
  rw [if_neg h7, if_neg h7]
  by_cases h8 : op = 250
  · rw [if_pos h8, if_pos h8, ← loadStrings_panic hw, loadStrings, panic_andThen, panic_andThen]
    refine or_congr Iff.rfl ⟨?_, ?_⟩
    all_goals
      rintro ⟨k, r1, e, h⟩
      refine ⟨k, r1, e, ?_⟩
      rw [panic_andThen] at h ⊢
    · rcases h with h | ⟨_, _, _, h⟩
      · rw [loadStrings, panic_andThen]; exact .inl (.inl h)
      · cases h
    · rcases h with h | ⟨_, _, _, h⟩
      · rw [loadStrings, panic_andThen] at h
        rcases h with h | ⟨_, _, _, h⟩
        · exact .inl h
        · cases h
      · cases h
  rw [if_neg h8, if_neg h8]
  by_cases h9 : op = 247
  · rw [if_pos h9, if_pos h9]
    refine lenThen_panic hw fun w1 => lenThen_panic w1 fun {l r} w2 => ?_
    by_cases hl : l.1 = 2
    · rw [if_pos hl]
      simp only [hl, true_and]
      refine lenThen_panic w2 fun w3 => ?_
      rw [panic_andThen, loadLen_panic w3]
      exact or_iff_left (by rintro ⟨_, _, _, h⟩; split at h <;> cases h)
    · rw [if_neg hl]; simp [hl]
  rw [if_neg h9, if_neg h9, panic_andThen, loadString_panic hw]
  refine or_congr Iff.rfl ⟨?_, ?_⟩
  · rintro ⟨k, r1, e, h⟩
    refine ⟨k, r1, e, ?_⟩
    by_cases hk : k = []
    · rw [if_pos hk] at h; cases h
    · rw [if_neg hk, panic_andThen] at h
      rcases h with h | ⟨_, _, _, h⟩
      · exact ⟨hk, (loadObj_panic (loadString_wf hw e)).1 h⟩
      · cases h
  · rintro ⟨k, r1, e, hk, h⟩
    refine ⟨k, r1, e, ?_⟩
    rw [if_neg hk, panic_andThen]
    exact .inl ((loadObj_panic (loadString_wf hw e)).2 h)

theorem loadRec_panic {ord : MapOrd} {n : Nat} {r : Rd} (hw : r.WF) : (loadRec ord n r).1 = .panic ↔ RecFault r := by
  have e : loadRec ord n r = andThen (readByte r) (recTail ord n) := rfl
  rw [e, panic_andThen, or_iff_right (readByte_calm r hw)]
  unfold RecFault
  refine ⟨?_, ?_⟩
  all_goals
    rintro ⟨op, r1, h1, h⟩
    have w1 := nice_readByte.wf r hw
    rw [h1] at w1
  · exact ⟨op, r1, h1, (recTail_panic w1).1 h⟩
  · exact ⟨op, r1, h1, (recTail_panic w1).2 h⟩

theorem loadLoop_panic {ord : MapOrd} {fuel : Nat} {s : LState} {r : Rd} (hw : r.WF) (hf : r.flat.length < fuel) :
    (loadLoop ord fuel s r).1 = .panic ↔ ∃ s1 r1, Trace ord s r s1 r1 ∧ RecFault r1 := by
  constructor
  · intro h
    clear hf
    induction fuel generalizing s r with
    | zero => cases h
    | succ fuel ih =>
      rw [loadLoop] at h
      rcases hx : loadRec ord s.out.length r with ⟨y, r1⟩
      rw [hx] at h
      cases y with
      | err e => cases h
      | panic => exact ⟨s, r, .nil _ _, (loadRec_panic (ord := ord) (n := s.out.length) hw).1 (by rw [hx])⟩
      | ok x =>
        simp only at h
        cases ha : s.apply x with
        | next s1 =>
          rw [ha] at h
          obtain ⟨s2, r2, h1, h2⟩ := ih (loadRec_shrinks hw hx).2 h
          exact ⟨s2, r2, .cons hx ha h1, h2⟩
        | ret s1 => rw [ha] at h; cases h
        | fail s1 e => rw [ha] at h; cases h
  · rintro ⟨s1, r1, h, h1⟩
    induction h generalizing fuel with
    | nil s r =>
      cases fuel with
      | zero => omega
      | succ fuel =>
        have := (loadRec_panic (ord := ord) (n := s.out.length) hw).2 h1
        rw [loadLoop]
        rcases hx : loadRec ord s.out.length r with ⟨y, r1⟩
        rw [hx] at this
        cases this; rfl
    | cons h2 h3 _ ih =>
      cases fuel with
      | zero => omega
      | succ fuel =>
        obtain ⟨h4, h5⟩ := loadRec_shrinks hw h2
        rw [loadLoop, h2]
        simp only [h3]
        exact ih h5 (by omega) h1

/-- Reading whole records, the loop of `Load` came to one that ends the process. -/
def FaultReached (ord : MapOrd) (s : LState) (r : Rd) : Prop :=
  ∃ hdr r0 s1 r1, Resp.read 9 r = (.ok hdr, r0) ∧ Trace ord { s with expires := 0 } r0 s1 r1 ∧ RecFault r1

/-- C139, exactly: loading ends the process if and only if, after whole records, a length or a 32-bit number is cut off, a
compressed string has a length read as zero, or a packed value cannot be unpacked. Every other damage is reported as an error (or
not noticed). -/
theorem C139_exact (ord : MapOrd) (s : LState) (r : Rd) (hw : r.WF) : (load ord s r).1 = .panic ↔ FaultReached ord s r := by
  have w0 := (nice_read 9).wf r hw
  unfold load FaultReached
  rcases hx : Resp.read 9 r with ⟨y, r0⟩
  rw [hx] at w0
  cases y with
  | err e => simp
  | panic => exact absurd (by rw [hx]) (read_calm 9 r)
  | ok hdr =>
    simp only
    rw [loadLoop_panic w0 (Nat.lt_succ_self _)]
    constructor
    · rintro ⟨s1, r1, h1, h2⟩; exact ⟨hdr, r0, s1, r1, rfl, h1, h2⟩
    · rintro ⟨hdr', r0', s1, r1, h, h1, h2⟩; cases h; exact ⟨s1, r1, h1, h2⟩

/-! ## Which damage, item by item -/

theorem trace_items {ord : MapOrd} (hord : ∀ n l, (ord n l).Perm l) {items : List Item} (hs : ∀ i ∈ items, i.Supported)
    (hv : ∀ i ∈ items, i.Valid) {ps : List Piece} {rest : Bytes} {r : Rd} (h : Holds (items.flatMap Item.pieces ++ ps) rest r)
    (s : LState) : ∃ s1 r1, Trace ord s r s1 r1 ∧ Holds ps rest r1 := by
  induction items generalizing r s with
  | nil => exact ⟨s, r, .nil _ _, by simpa using h⟩
  | cons it items ih =>
    simp only [List.flatMap_cons, List.append_assoc] at h
    obtain ⟨r1, h1, g⟩ := loadRec_at hord s.out.length (hs it (by simp)) (hv it (by simp)) h
    have hn : ∃ s1, s.apply (recOf it) = .next s1 := by
      have hv1 := hv it (by simp)
      cases it with
      | aux k v =>
        simp only [recOf, LState.apply]
        by_cases hk : k.value = b!"repl-id"
        · rw [if_pos hk]; exact ⟨_, rfl⟩
        · rw [if_neg hk]
          by_cases hk2 : k.value = b!"repl-offset"
          · rw [if_pos hk2]
            obtain ⟨x, hx⟩ := Option.isSome_iff_exists.mp (hv1.2.2 hk2)
            simp only [hx]
            exact ⟨_, rfl⟩
          · rw [if_neg hk2]; exact ⟨_, rfl⟩
      | expireS t => exact ⟨_, rfl⟩
      | expireMs t => exact ⟨_, rfl⟩
      | freq b => exact ⟨_, rfl⟩
      | idle l k => exact ⟨_, rfl⟩
      | select l k => exact ⟨_, rfl⟩
      | resize l1 n1 l2 n2 => exact ⟨_, rfl⟩
      | entry k v => exact ⟨_, rfl⟩
    obtain ⟨s1, hs1⟩ := hn
    obtain ⟨s2, r2, t1, t2⟩ := ih (fun i h => hs i (List.mem_cons_of_mem _ h)) (fun i h => hv i (List.mem_cons_of_mem _ h)) g s1
    exact ⟨s2, r2, .cons h1 hs1 t1, t2⟩

/-- What ends the process if a file goes on with it behind whole records, and then ends or not: a record of a value with a key
that does. -/
theorem key_fault {op : UInt8} (hop : op.toNat < 247) {f : Bytes} (hf : StrFault f) {r : Rd} (hw : r.WF) (h : r.flat = op :: f) :
    RecFault r := by
  obtain ⟨r1, h1, h2, h3⟩ := readByte_at hw h
  have ne : ∀ k : UInt8, 247 ≤ k.toNat → op ≠ k := by rintro k hk rfl; omega
  refine ⟨op, r1, h1, ?_⟩
  unfold TailFault
  rw [if_neg (by simp [ne 253 (by decide), ne 252 (by decide), ne 249 (by decide), ne 255 (by decide)]),
    if_neg (by simp [ne 248 (by decide), ne 254 (by decide)]), if_neg (ne 251 (by decide)), if_neg (ne 250 (by decide)),
    if_neg (ne 247 (by decide))]
  exact .inl (h2 ▸ hf)

/-- C139 is false: behind any supported records, a record of any type whose key is cut off within its two-byte length, is a 32-bit
number cut off, or is a compressed string with no bytes or no length ends the process. -/
theorem C139_violated (ord : MapOrd) (hord : ∀ n l, (ord n l).Perm l) (s : LState) (hdr : Bytes) (hh : hdr.length = 9)
    (items : List Item) (hs : ∀ i ∈ items, i.Supported) (hv : ∀ i ∈ items, i.Valid) (op : UInt8) (hop : op.toNat < 247)
    (f : Bytes) (hf : StrFault f) (r : Rd) (h : Holds (.raw hdr :: items.flatMap Item.pieces) (op :: f) r) :
    (load ord s r).1 = .panic := by
  rw [C139_exact ord s r h.wf]
  obtain ⟨r0, h1, h⟩ := Holds.read h
  rw [hh] at h1
  obtain ⟨s1, r1, h2, h3⟩ := trace_items (ps := []) hord hs hv (by simpa using h) { s with expires := 0 }
  exact ⟨hdr, r0, s1, r1, h1, h2, key_fault hop hf h3.wf (by simpa [bytes] using h3.flat)⟩

/-- The damages there are: a first byte 40 to 7F at the end of the file, fewer than four bytes behind C2, and behind C3 a length
of zero. -/
example (b : UInt8) (hb : b.toNat / 64 = 1) (g : Bytes) (hg : g.length < 4) (rest : Bytes) :
    StrFault [b] ∧ StrFault (0xc2 :: g) ∧ StrFault (0xc3 :: 0 :: 5 :: rest) ∧ StrFault (0xc3 :: 1 :: 0 :: 9 :: rest) :=
  ⟨.inl ⟨b, rfl, hb⟩, .inr (.inl ⟨g, rfl, hg⟩),
    .inr (.inr ⟨_, rfl, .inr ⟨0, 5 :: rest, rfl, .inr ⟨5, rest, rfl, Nat.zero_le _, .inl rfl⟩⟩⟩),
    .inr (.inr ⟨_, rfl, .inr ⟨1, 0 :: 9 :: rest, rfl, .inr ⟨0, 9 :: rest, rfl, by simp, .inr rfl⟩⟩⟩)⟩

example : (load idOrd .init (file (b!"REDIS0009" ++ [0, 0x41]))).1 = .panic :=
  C139_violated idOrd (fun _ _ => .refl _) .init b!"REDIS0009" rfl [] (by simp) (by simp) 0 (by decide) [0x41]
    (.inl ⟨_, rfl, by decide⟩) _ (holds_small [.raw b!"REDIS0009"] [0, 0x41] (by simp [bytes, Piece.bytes, bufSize]))

/-- When an integer set cannot be unpacked: its header is cut off, or it has a known width and fewer bytes than its header says. -/
theorem intsetElems_none {s : Bytes} {w k i : Nat} : intsetElems s w k i = none ↔ 0 < k ∧ s.length < 8 + w * (i + k) := by
  induction k generalizing i with
  | zero => simp [intsetElems]
  | succ k ih =>
    have hm : w * i ≤ w * (i + 1) := Nat.mul_le_mul_left w (by omega)
    have hm2 : w * (i + 1) ≤ w * (i + (k + 1)) := Nat.mul_le_mul_left w (by omega)
    rw [intsetElems]
    unfold slice
    by_cases hl : 8 + w * (i + 1) ≤ s.length
    · rw [if_pos ⟨by omega, hl⟩]
      have e : (intsetElems s w k (i + 1) = none) ↔ s.length < 8 + w * (i + (k + 1)) := by
        rw [ih, show i + 1 + k = i + (k + 1) by omega]
        constructor
        · exact fun h => h.2
        · intro h
          refine ⟨Nat.pos_of_ne_zero ?_, h⟩
          rintro rfl
          exact absurd hl (by simpa using h)
      rw [and_iff_right (Nat.succ_pos k), ← e]
      cases intsetElems s w k (i + 1) <;> simp
    · rw [if_neg (by omega)]
      simp; omega

theorem intset_fault (s : Bytes) : intsetLoad s = none ↔ s.length < 8 ∨
    ((le (s.take 4) = 2 ∨ le (s.take 4) = 4 ∨ le (s.take 4) = 8) ∧
      s.length < 8 + le (s.take 4) * le ((s.drop 4).take 4)) := by
  unfold intsetLoad
  by_cases h : s.length < 8
  · simp only [h, true_or, iff_true]
    unfold slice
    by_cases h4 : 4 ≤ s.length
    · rw [if_pos ⟨by omega, h4⟩, if_neg (by omega)]; rfl
    · rw [if_neg (by omega)]; rfl
  · simp only [h, false_or]
    unfold slice
    rw [if_pos ⟨by omega, by omega⟩, if_pos ⟨by omega, by omega⟩]
    simp only [Option.bind_eq_bind, Option.bind_some, List.drop_zero, Nat.sub_zero, Nat.reduceSub]
    generalize le (s.take 4) = w
    generalize le ((s.drop 4).take 4) = k
    by_cases hw : w = 2 ∨ w = 4 ∨ w = 8
    · rw [if_pos hw, intsetElems_none]
      simp only [hw, true_and, Nat.zero_add]
      constructor
      · exact fun h => h.2
      · intro h1
        refine ⟨Nat.pos_of_ne_zero ?_, h1⟩
        rintro rfl
        simp at h1; omega
    · rw [if_neg hw]; simp [hw]

example : intsetLoad [2, 0, 0, 0, 1, 0, 0, 0, 7] = none := (intset_fault _).2 (.inr (by decide))

/-- Records are read one way only: a fault that is reached is reached behind the records that are whole. -/
theorem fault_behind {ord : MapOrd} {s s1 s2 : LState} {r r1 r2 : Rd} (hw : r.WF) (h : Trace ord s r s1 r1) (g : Trace ord s r s2 r2)
    (hf : RecFault r2) : Trace ord s1 r1 s2 r2 := by
  induction h with
  | nil => exact g
  | cons h1 h2 _ ih =>
    cases g with
    | nil =>
      have := (loadRec_panic (ord := ord) (n := s2.out.length) hw).2 hf
      rw [h1] at this; cases this
    | cons g1 g2 g3 =>
      rw [h1] at g1; cases g1
      rw [h2] at g2; cases g2
      exact ih (loadRec_shrinks hw h1).2 g3

theorem cutLen_nil : ¬ CutLen [] := by rintro ⟨b, h, _⟩; cases h

theorem strFault_nil : ¬ StrFault [] := by
  rintro (h | ⟨g, h, _⟩ | ⟨g, h, _⟩)
  · exact cutLen_nil h
  · cases h
  · cases h

theorem loadLen_nil {r : Rd} (hw : r.WF) (h : r.flat = []) {l : Nat × Bool} {r1 : Rd} : loadLen r ≠ (.ok l, r1) := by
  intro e
  have := (loadLen_ok hw e).1
  rw [h] at this; cases this

theorem loadString_nil {r : Rd} (hw : r.WF) (h : r.flat = []) {s : Bytes} {r1 : Rd} : loadString r ≠ (.ok s, r1) := by
  intro e
  unfold loadString at e
  obtain ⟨l, r2, e1, _⟩ := andThen_eq_ok e
  exact loadLen_nil hw h e1

/-- Nothing shorter than two bytes ends the process. -/
theorem recFault_short {r : Rd} (hw : r.WF) (h : r.flat.length ≤ 1) : ¬ RecFault r := by
  rintro ⟨op, r1, h1, h2⟩
  have w1 := nice_readByte.wf r hw
  rw [h1] at w1
  have hf : r1.flat = [] := by
    cases hr : r.flat with
    | nil => obtain ⟨r', e⟩ := readByte_end hw hr; rw [e] at h1; cases h1
    | cons b f =>
      obtain ⟨r', e, e1, _⟩ := readByte_at hw hr
      rw [e] at h1; cases h1
      rw [e1]
      rw [hr] at h
      exact List.length_eq_zero_iff.1 (by simpa using h)
  have hl : ∀ {fault : Nat → Rd → Prop}, ¬ LenFault fault r1 := by
    rintro fault (h | ⟨l, r2, h, _⟩)
    · exact cutLen_nil (hf ▸ h)
    · exact loadLen_nil w1 hf h
  unfold TailFault at h2
  split at h2
  · exact h2
  split at h2
  · exact cutLen_nil (hf ▸ h2)
  split at h2
  · exact hl h2
  split at h2
  · obtain ⟨i, hi, ss, r2, h3, h4⟩ := h2
    cases i with
    | zero => cases h3; exact strFault_nil (hf ▸ h4)
    | succ i =>
      rw [loadStrings] at h3
      obtain ⟨_, _, h3, _⟩ := andThen_eq_ok h3
      exact loadString_nil w1 hf h3
  split at h2
  · exact hl h2
  rcases h2 with h2 | ⟨k, r2, h2, _⟩
  · exact strFault_nil (hf ▸ h2)
  · exact loadString_nil w1 hf h2

/-- C139 for files with the end marker behind whole records, and for files that end between two records or behind the first byte of
one: whatever the records, in any blocks, these do not end the process. -/
theorem C139_boundary_partial (ord : MapOrd) (s s1 : LState) (r r0 r1 : Rd) (hdr : Bytes) (hw : r.WF)
    (h1 : Resp.read 9 r = (.ok hdr, r0)) (h2 : Trace ord { s with expires := 0 } r0 s1 r1)
    (h3 : r1.flat.length ≤ 1 ∨ ∃ rest, r1.flat = 255 :: rest) : (load ord s r).1 ≠ .panic := by
  have w0 := (nice_read 9).wf r hw
  rw [h1] at w0
  rw [Ne, C139_exact ord s r hw]
  rintro ⟨hdr', r0', s2, r2, g1, g2, g3⟩
  rw [h1] at g1; cases g1
  have g := fault_behind w0 h2 g2 g3
  have w1 := trace_wf h2 w0
  rcases h3 with h3 | ⟨rest, h3⟩
  case inr =>
    obtain ⟨q, e⟩ := loadRec_marker (ord := ord) (n := s1.out.length) w1 h3
    cases g with
    | nil =>
      have := (loadRec_panic (ord := ord) (n := s1.out.length) w1).2 g3
      rw [e] at this; cases this
    | cons k1 k2 _ => rw [e] at k1; cases k1; cases k2
  cases g with
  | nil => exact recFault_short w1 h3 g3
  | cons k1 _ k3 =>
    obtain ⟨k4, w2⟩ := loadRec_shrinks w1 k1
    have : ∀ {t t' : LState} {q q' : Rd}, Trace ord t q t' q' → q.WF → q'.flat.length ≤ q.flat.length := by
      intro t t' q q' h
      induction h with
      | nil => exact fun _ => Nat.le_refl _
      | cons h1 _ _ ih =>
        intro hw
        obtain ⟨a, b⟩ := loadRec_shrinks hw h1
        have := ih b
        omega
    have := this k3 w2
    exact recFault_short (trace_wf k3 w2) (by omega) g3

/-- Supported records, and then nothing, one byte, or the end marker and anything. -/
theorem C139_supported_partial (ord : MapOrd) (hord : ∀ n l, (ord n l).Perm l) (s : LState) (hdr : Bytes) (hh : hdr.length = 9)
    (items : List Item) (hs : ∀ i ∈ items, i.Supported) (hv : ∀ i ∈ items, i.Valid) (rest : Bytes)
    (hr : rest.length ≤ 1 ∨ ∃ l, rest = 255 :: l) (r : Rd) (h : Holds (.raw hdr :: items.flatMap Item.pieces) rest r) : (load ord s r).1 ≠ .panic := by
  have hw := h.wf
  obtain ⟨r0, h1, h⟩ := Holds.read h
  rw [hh] at h1
  obtain ⟨s1, r1, h2, h3⟩ := trace_items (ps := []) hord hs hv (by simpa using h) { s with expires := 0 }
  exact C139_boundary_partial ord s s1 r r0 r1 hdr hw h1 h2 (by simpa [h3.flat, bytes] using hr)

example : (load idOrd .init (file (b!"REDIS0009" ++ [254]))).1 ≠ .panic :=
  C139_supported_partial idOrd (fun _ _ => .refl _) .init b!"REDIS0009" rfl [] (by simp) (by simp) [254] (.inl (by decide)) _
    (holds_small [.raw b!"REDIS0009"] [254] (by simp [bytes, Piece.bytes, bufSize]))

end Verif.Rdb

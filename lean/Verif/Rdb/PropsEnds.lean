import Verif.Rdb.PropsExact
/-!
# C67, exactly: where a load that succeeds ended
-/
namespace Verif.Rdb
open Verif.Resp

/-- Reading whole records, the loop of `Load` came to the end marker. -/
def MarkerReached (ord : MapOrd) (s : LState) (r : Rd) : Prop :=
  ∃ hdr r0 s1 r1 rest, Resp.read 9 r = (.ok hdr, r0) ∧ Trace ord { s with expires := 0 } r0 s1 r1 ∧ r1.flat = 255 :: rest

/-- Reading whole records, the loop of `Load` came to a record of a module (types 6, 7) or of a stream (15), and read its key and,
of a stream, its length. -/
def StopReached (ord : MapOrd) (s : LState) (r : Rd) : Prop :=
  ∃ hdr r0 s1 r1 b rest key r2, Resp.read 9 r = (.ok hdr, r0) ∧ Trace ord { s with expires := 0 } r0 s1 r1 ∧ r1.flat = b :: rest ∧
    (b = 6 ∨ b = 7 ∨ b = 15) ∧ loadRec ord s1.out.length r1 = (.ok (.entry key .stop), r2)

theorem loadRec_marker {ord : MapOrd} {n : Nat} {r : Rd} {rest : Bytes} (hw : r.WF) (h : r.flat = 255 :: rest) :
    ∃ r', loadRec ord n r = (.ok .eof, r') := by
  obtain ⟨r1, h1, _⟩ := readByte_at hw h
  exact ⟨r1, by simp [loadRec, h1, andThen]⟩

theorem loop_of_trace {ord : MapOrd} {s s1 s2 : LState} {r r1 r2 : Rd} {x : Rec} (h : Trace ord s r s1 r1) (hw : r.WF)
    (hx : loadRec ord s1.out.length r1 = (.ok x, r2)) (ha : s1.apply x = .ret s2) {fuel : Nat} (hf : r.flat.length < fuel) :
    loadLoop ord fuel s r = (.ok (), s2) := by
  induction h generalizing fuel with
  | nil s r =>
    cases fuel with
    | zero => omega
    | succ fuel => simp only [loadLoop, hx, ha]
  | cons h1 h2 _ ih =>
    cases fuel with
    | zero => omega
    | succ fuel =>
      obtain ⟨g1, g2⟩ := loadRec_shrinks hw h1
      simp only [loadLoop, h1, h2]
      exact ih g2 hx ha (by omega)

theorem trace_wf {ord : MapOrd} {s s1 : LState} {r r1 : Rd} (h : Trace ord s r s1 r1) (hw : r.WF) : r1.WF := by
  induction h with
  | nil s r => exact hw
  | cons h1 _ _ ih => exact ih (loadRec_shrinks hw h1).2

/-- Records are read one way only. -/
theorem trace_end_unique {ord : MapOrd} {s s1 s2 t1 t2 : LState} {r r1 r2 q1 q2 : Rd} {x y : Rec} (h : Trace ord s r s1 r1)
    (hx : loadRec ord s1.out.length r1 = (.ok x, q1)) (ha : s1.apply x = .ret t1) (g : Trace ord s r s2 r2)
    (gx : loadRec ord s2.out.length r2 = (.ok y, q2)) (ga : s2.apply y = .ret t2) : x = y := by
  induction h with
  | nil s r =>
    cases g with
    | nil => rw [hx] at gx; cases gx; rfl
    | cons g1 g2 _ => rw [hx] at g1; cases g1; rw [ha] at g2; cases g2
  | cons h1 h2 _ ih =>
    cases g with
    | nil => rw [h1] at gx; cases gx; rw [h2] at ga; cases ga
    | cons g1 g2 g3 =>
      rw [h1] at g1; cases g1
      rw [h2] at g2; cases g2
      exact ih hx ha g3

theorem loadLoop_end {ord : MapOrd} {fuel : Nat} {s s' : LState} {r : Rd} (hw : r.WF) (h : loadLoop ord fuel s r = (.ok (), s')) :
    ∃ s1 r1 b rest x r2, Trace ord s r s1 r1 ∧ r1.flat = b :: rest ∧ loadRec ord s1.out.length r1 = (.ok x, r2) ∧
      (b = 255 ∨ ((b = 6 ∨ b = 7 ∨ b = 15) ∧ ∃ k, x = .entry k .stop)) := by
  induction fuel generalizing s r with
  | zero => cases h
  | succ fuel ih =>
    simp only [loadLoop] at h
    rcases hx : loadRec ord s.out.length r with ⟨y, r1⟩
    rw [hx] at h
    cases y with
    | err e => cases h
    | panic => cases h
    | ok x =>
      simp only at h
      obtain ⟨_, h2⟩ := loadRec_shrinks hw hx
      cases hap : s.apply x with
      | next s1 =>
        rw [hap] at h
        obtain ⟨s2, r2, b, rest, z, r3, t1, t2⟩ := ih h2 h
        exact ⟨s2, r2, b, rest, z, r3, .cons hx hap t1, t2⟩
      | fail s1 e => rw [hap] at h; cases h
      | ret s1 =>
        have hx' := hx
        rw [loadRec_eq] at hx
        obtain ⟨op, r2, hb, ht⟩ := andThen_eq_ok hx
        obtain ⟨k1, k2⟩ := recTail_kind ht
        obtain ⟨g1, _⟩ := readByte_flat r hw
        rw [hb] at g1
        have : ∃ rest, r.flat = op :: rest := by
          cases hf : r.flat with
          | nil => rw [hf] at g1; simp [flatByte] at g1
          | cons c cs => rw [hf] at g1; simp [flatByte] at g1; exact ⟨cs, by rw [g1.1]⟩
        obtain ⟨rest, hrest⟩ := this
        refine ⟨s, r, op, rest, x, r1, .nil _ _, hrest, hx', ?_⟩
        rcases apply_ret hap with hx | hx
        · exact .inl (k1.mp hx)
        · exact .inr ⟨k2.mp hx, hx⟩

/-- C67, exactly: a load succeeds if and only if it came to the end marker or to a record of a module or a stream, and never both:
so it reports success without having seen the end marker on exactly those files whose whole records lead to such a record. -/
theorem C67_exact (ord : MapOrd) (s : LState) (r : Rd) (hw : r.WF) :
    ((load ord s r).1 = .ok () ↔ MarkerReached ord s r ∨ StopReached ord s r) ∧
    ((load ord s r).1 = .ok () ∧ ¬ MarkerReached ord s r ↔ StopReached ord s r) := by
  have ok_of : MarkerReached ord s r ∨ StopReached ord s r → (load ord s r).1 = .ok () := by
    rintro (⟨hdr, r0, s1, r1, rest, h1, h2, h3⟩ | ⟨hdr, r0, s1, r1, b, rest, key, r2, h1, h2, h3, h4, h5⟩)
    · have w0 := (nice_read 9).wf r hw
      rw [h1] at w0
      obtain ⟨r2, h4⟩ := loadRec_marker (ord := ord) (n := s1.out.length) (trace_wf h2 w0) h3
      simp only [load, h1]
      rw [loop_of_trace h2 w0 h4 rfl (Nat.lt_succ_self _)]
    · have w0 := (nice_read 9).wf r hw
      rw [h1] at w0
      simp only [load, h1]
      rw [loop_of_trace h2 w0 h5 rfl (Nat.lt_succ_self _)]
  have of_ok : (load ord s r).1 = .ok () → MarkerReached ord s r ∨ StopReached ord s r := by
    intro h
    have w0 := (nice_read 9).wf r hw
    simp only [load] at h
    rcases hx : Resp.read 9 r with ⟨y, r0⟩
    rw [hx] at h w0
    cases y with
    | err e => cases h
    | panic => cases h
    | ok hdr =>
      simp only at h
      rcases hl : loadLoop ord (r0.flat.length + 1) { s with expires := 0 } r0 with ⟨z, s'⟩
      rw [hl] at h
      simp only at h
      subst h
      obtain ⟨s1, r1, b, rest, x, r2, t1, t2, t3, t4⟩ := loadLoop_end w0 hl
      rcases t4 with rfl | ⟨t4, k, rfl⟩
      · exact .inl ⟨hdr, r0, s1, r1, rest, hx, t1, t2⟩
      · exact .inr ⟨hdr, r0, s1, r1, b, rest, k, r2, hx, t1, t2, t4, t3⟩
  have not_both : MarkerReached ord s r → StopReached ord s r → False := by
    rintro ⟨hdr, r0, s1, r1, rest, h1, h2, h3⟩ ⟨hdr', r0', t1, q1, b, rest', key, q2, g1, g2, g3, g4, g5⟩
    have w0 := (nice_read 9).wf r hw
    rw [h1] at w0
    rw [h1] at g1; cases g1
    obtain ⟨r2, h4⟩ := loadRec_marker (ord := ord) (n := s1.out.length) (trace_wf h2 w0) h3
    have := trace_end_unique h2 h4 rfl g2 g5 rfl
    cases this
  exact ⟨⟨of_ok, ok_of⟩, fun ⟨h1, h2⟩ => (of_ok h1).resolve_left h2, fun h => ⟨ok_of (.inr h), fun m => not_both m h⟩⟩

/-- Both kinds of file exist. -/
example : MarkerReached idOrd .init (file (b!"REDIS0009" ++ [255])) ∧ StopReached idOrd .init (file (b!"REDIS0009" ++ [6, 1, 107, 255])) := by
  have h1 := (C67_exact idOrd .init (file (b!"REDIS0009" ++ [255])) (by simp [file, Rd.WF])).1.1 (by decide +kernel)
  have h2 := (C67_exact idOrd .init (file (b!"REDIS0009" ++ [6, 1, 107, 255])) (by simp [file, Rd.WF])).1.1 (by decide +kernel)
  constructor
  · refine h1.resolve_right ?_
    rintro ⟨hdr, r0, s1, r1, b, rest, key, r2, g1, g2, g3, g4, g5⟩
    have e : Resp.read 9 (file (b!"REDIS0009" ++ [255])) = (.ok b!"REDIS0009", ⟨[255], [[]]⟩) := by decide +kernel
    rw [e] at g1; cases g1
    have := trace_end_unique (.nil _ _) (x := .eof) (q1 := ⟨[], [[]]⟩) (by decide +kernel) rfl g2 g5 rfl
    cases this
  · refine h2.resolve_left ?_
    rintro ⟨hdr, r0, s1, r1, rest, g1, g2, g3⟩
    have e : Resp.read 9 (file (b!"REDIS0009" ++ [6, 1, 107, 255])) = (.ok b!"REDIS0009", ⟨[6, 1, 107, 255], [[]]⟩) := by decide +kernel
    rw [e] at g1; cases g1
    obtain ⟨r2, g5⟩ := loadRec_marker (ord := idOrd) (n := s1.out.length) (trace_wf g2 (by simp [Rd.WF, bufSize])) g3
    have := trace_end_unique (.nil _ _) (x := .entry [107] .stop) (q1 := ⟨[255], [[]]⟩) (by decide +kernel) rfl g2 g5 rfl
    cases this

end Verif.Rdb

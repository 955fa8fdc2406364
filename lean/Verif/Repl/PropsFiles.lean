import Verif.Repl.Files
/-!
# C118: calls of New do not disturb each other
-/
namespace Verif.Repl.Files
open Verif.Resp

theorem alone_ok {ord : Rdb.MapOrd} {c : Calls} {i : Nat} {f : Option Bytes} {r : Rd} (h : c.sync i = (.ok (), f, r)) (hr : (c.world i).reopen = true) :
    alone ord c i = loaded ord (f.getD []) := by
  unfold Calls.sync at h
  simp only [alone, new, h, hr, loaded]
  simp only [Bool.true_eq_false, if_false]
  rcases Rdb.load ord ⟨0, 0, [], 0, []⟩ ⟨[], [f.getD []]⟩ with ⟨y, s⟩
  cases y <;> rfl

theorem alone_early {ord : Rdb.MapOrd} {c : Calls} {i : Nat} {x : GoRes SErr Unit} {f : Option Bytes} {r : Rd} (h : c.sync i = (x, f, r))
    (hr : x ≠ .ok () ∨ (c.world i).reopen = false) : alone ord c i = early x := by
  unfold Calls.sync at h
  simp only [alone, new, h]
  cases x with
  | ok u =>
    rcases hr with hr | hr
    · exact absurd rfl hr
    · simp [hr, early]
  | err e => rfl
  | panic => rfl

theorem sync_ok_file {c : Calls} {i : Nat} {f : Option Bytes} {r : Rd} (h : c.sync i = (.ok (), f, r)) : ∃ g, f = some g := by
  unfold Calls.sync syncWithRedis sync at h
  repeat' (split at h <;> try (simp at h; done))
  all_goals first
    | (simp only [Prod.mk.injEq] at h; exact ⟨_, h.2.1.symm⟩)
    | simp_all

/-- A call that nobody disturbs. -/
def Good (ord : Rdb.MapOrd) (c : Calls) (s : State) (i : Nat) : Prop :=
  match s.pc i with
  | .start => True
  | .saving w rest => ∃ x r, c.sync i = (x, some (w ++ rest), r) ∧ s.fs (c.file i) = some w
  | .reading seen => ∃ f r, c.sync i = (.ok (), some f, r) ∧ (c.world i).reopen = true ∧ s.fs (c.file i) = some f ∧ seen <+: f
  | .done r => r = alone ord c i

theorem good_other {ord : Rdb.MapOrd} {c : Calls} {s t : State} {j : Nat} (hg : Good ord c s j) (hp : t.pc j = s.pc j)
    (hf : (s.pc j).busy → t.fs (c.file j) = s.fs (c.file j)) : Good ord c t j := by
  unfold Good at hg ⊢
  rw [hp]
  revert hg hf
  cases s.pc j with
  | start => intros; trivial
  | saving w rest => intro hg hf; simp only at hg ⊢; rw [hf trivial]; exact hg
  | reading seen => intro hg hf; simp only at hg ⊢; rw [hf trivial]; exact hg
  | done r => intro hg _; exact hg

theorem setPC_same (pc : Nat → PC) (i : Nat) (p : PC) : setPC pc i p i = p := by simp [setPC]
theorem setPC_other (pc : Nat → PC) {i j : Nat} (p : PC) (h : j ≠ i) : setPC pc i p j = pc j := by simp [setPC, h]

theorem overlay_end (w p : Bytes) : overlay w w.length p = w ++ p := by
  unfold overlay
  rw [List.take_length, List.drop_eq_nil_of_le (by omega)]
  simp

/-- A call's own steps. -/
theorem good_own {ord : Rdb.MapOrd} {c : Calls} {s t : State} {j : Nat} {b : Bool} (hgi : Good ord c s j) (h : Step ord c j b s t) : Good ord c t j := by
  unfold Good at hgi
  cases h with
  | noFile h1 h2 => 
    simp only [Good, setPC_same]
    refine (alone_early h2 (.inl ?_)).symm
    rintro rfl
    obtain ⟨g, hg⟩ := sync_ok_file h2
    cases hg
  | create h1 h2 => simp only [Good, setPC_same]; exact ⟨_, _, h2, by simp⟩
  | write h1 h2 =>
    rw [h1] at hgi
    obtain ⟨x, r, h3, h4⟩ := hgi
    simp only [Good, setPC_same, h4, Option.getD_some, overlay_end]
    exact ⟨x, r, by rw [h3, List.append_assoc], by simp⟩
  | failed h1 h2 h3 => simp only [Good, setPC_same]; exact (alone_early h2 h3).symm
  | reopen h1 h2 h3 =>
    rw [h1] at hgi
    obtain ⟨x, r, h4, h5⟩ := hgi
    simp only [Good, setPC_same]
    rw [h4] at h2
    simp only [List.append_nil, Prod.mk.injEq] at h2
    exact ⟨_, r, by rw [h4, h2.1, List.append_nil], h3, h5, List.nil_prefix⟩
  | read h1 h2 h3 =>
    rw [h1] at hgi
    obtain ⟨f, r, h4, h5, h6, q, rfl⟩ := hgi
    simp only [Good, setPC_same]
    rw [h6] at h2
    simp only [Option.getD_some, List.drop_left] at h2
    exact ⟨_, r, h4, h5, h6, by rw [h2, ← List.append_assoc]; exact List.prefix_append _ _⟩
  | eof h1 h2 =>
    rw [h1] at hgi
    obtain ⟨f, r, h4, h5, h6, q, rfl⟩ := hgi
    simp only [Good, setPC_same]
    rw [h6] at h2
    simp only [Option.getD_some, List.drop_left] at h2
    subst h2
    rw [alone_ok h4 h5]
    simp

theorem good_step {ord : Rdb.MapOrd} {c : Calls} {s t : State} {i : Nat} {b : Bool} (hg : ∀ j, Good ord c s j) (h : Step ord c i b s t)
    (ha : b = true → Alone c s i) : ∀ j, Good ord c t j := by
  intro j
  by_cases hj : j = i
  · subst hj; exact good_own (hg j) h
  · have hfile : ∀ v : Option Bytes, Alone c s i → (s.pc j).busy → upd s.fs (c.file i) v (c.file j) = s.fs (c.file j) := by
      intro v hal hb
      by_cases he : c.file j = c.file i
      · exact absurd hb (hal j hj he)
      · exact upd_other _ _ _ _ he
    refine good_other (hg j) ?_ ?_
    · cases h <;> exact setPC_other _ _ hj
    · intro hb
      cases h with
      | create h1 h2 => exact hfile _ (ha rfl) hb
      | write h1 h2 => exact hfile _ (ha rfl) hb
      | noFile => rfl
      | failed => rfl
      | reopen => rfl
      | read => rfl
      | eof => rfl

theorem good_run {ord : Rdb.MapOrd} {c : Calls} {fs : Bytes → Option Bytes} {s : State} (h : Polite ord c (.init fs) s) : ∀ j, Good ord c s j := by
  induction h with
  | start => intro j; trivial
  | next _ hs ha ih => exact good_step ih hs ha

/-- C118, as far as it holds: as long as nobody opens or writes a file that another call is busy with, every
call of `New` comes to what it comes to alone, whatever the files held and however the calls interleave.
Missing: calls at the same time with the same file (`C118_violated`). -/
theorem C118_polite_partial {ord : Rdb.MapOrd} {c : Calls} {fs : Bytes → Option Bytes} {s : State} (h : Polite ord c (.init fs) s)
    {i : Nat} {r : Result} (hd : s.pc i = .done r) : r = alone ord c i := by
  have := good_run h i
  unfold Good at this
  rw [hd] at this
  exact this

/-- … in particular whenever the calls use different files, however they interleave. -/
theorem C118_other_files_partial {ord : Rdb.MapOrd} {c : Calls} (hne : ∀ i j, i ≠ j → c.file i ≠ c.file j)
    {fs : Bytes → Option Bytes} {s : State} (h : Run ord c (.init fs) s)
    {i : Nat} {r : Result} (hd : s.pc i = .done r) : r = alone ord c i := by
  refine C118_polite_partial (fs := fs) (s := s) ?_ hd
  clear hd
  induction h with
  | start => exact .start
  | next _ hs ih => exact .next ih hs (fun _ j hj he => absurd he (hne _ _ hj))

theorem save_all {ord : Rdb.MapOrd} {c : Calls} {s0 s : State} (h : Run ord c s0 s) {i : Nat} {f : Bytes} (hp : s.pc i = .saving [] f)
    (hf : s.fs (c.file i) = some []) :
    ∃ t, Run ord c s0 t ∧ t.pc i = .saving f [] ∧ t.fs (c.file i) = some f ∧ (∀ j, j ≠ i → t.pc j = s.pc j) := by
  by_cases he : f = []
  · subst he; exact ⟨s, h, hp, hf, fun _ _ => rfl⟩
  · refine ⟨_, h.next (.write (p := f) (rest := []) (by rw [hp, List.append_nil]) he), ?_, ?_, ?_⟩
    · simp [setPC]
    · simp [hf, overlay]
    · intro j hj; exact setPC_other _ _ hj

theorem read_all {ord : Rdb.MapOrd} {c : Calls} {s0 s : State} (h : Run ord c s0 s) {i : Nat} {f : Bytes} (hp : s.pc i = .reading [])
    (hf : s.fs (c.file i) = some f) : ∃ t, Run ord c s0 t ∧ t.pc i = .done (loaded ord f) ∧ t.fs = s.fs ∧ (∀ j, j ≠ i → t.pc j = s.pc j) := by
  by_cases he : f = []
  · subst he
    exact ⟨_, h.next (.eof hp (by rw [hf]; rfl)), setPC_same _ _ _, rfl, fun j hj => setPC_other _ _ hj⟩
  · have h1 := h.next (.read hp (p := f) (rest := []) (by rw [hf]; simp) he)
    refine ⟨_, h1.next (.eof (i := i) (seen := f) (by simp [setPC]) (by simp [hf])), setPC_same _ _ _, rfl, fun j hj => ?_⟩
    exact (setPC_other _ _ hj).trans (setPC_other _ _ hj)

/-- C118 is false of the code: of two calls at the same time that use the same file (as all calls do that leave it
open) one can load the snapshot of the other's master, without an error. -/
theorem C118_violated_any {ord : Rdb.MapOrd} {c : Calls} {fs : Bytes → Option Bytes} {i j : Nat} (hij : i ≠ j) (hfile : c.file i = c.file j)
    {fi fj : Bytes} {ri rj : Rd} (hi : c.sync i = (.ok (), some fi, ri)) (hoi : (c.world i).reopen = true)
    (hj : c.sync j = (.ok (), some fj, rj)) (hoj : (c.world j).reopen = true) :
    ∃ s, Run ord c (.init fs) s ∧ s.pc i = .done (alone ord c j) ∧ s.pc j = .done (alone ord c j) := by
  obtain ⟨s1, r1, p1, f1, o1⟩ := save_all (ord := ord) (c := c) (Run.start.next (.create (s := .init fs) (i := i) rfl hi)) (i := i) (f := fi)
    (setPC_same _ _ _) (by simp)
  have r2 := r1.next (.reopen p1 hi hoi)
  have pj : setPC s1.pc i (.reading []) j = .start := by
    rw [setPC_other _ _ (Ne.symm hij), o1 j (Ne.symm hij)]; simp [setPC, State.init, Ne.symm hij]
  have r3 := r2.next (.create (i := j) pj hj)
  obtain ⟨s4, r4, p4, f4, o4⟩ := save_all r3 (i := j) (f := fj) (setPC_same _ _ _) (by simp)
  have pi4 : s4.pc i = .reading [] := by rw [o4 i hij]; simp [setPC, hij]
  obtain ⟨s5, r5, pj5, pi5, f5⟩ : ∃ t, Run ord c (.init fs) t ∧ t.pc j = .reading [] ∧ t.pc i = .reading [] ∧ t.fs (c.file j) = some fj :=
    ⟨_, r4.next (.reopen p4 hj hoj), setPC_same _ _ _, by show setPC s4.pc j (.reading []) i = _; rw [setPC_other _ _ hij]; exact pi4, f4⟩
  obtain ⟨s6, r6, p6, f6, o6⟩ := read_all r5 pi5 (f := fj) (by rw [hfile]; exact f5)
  obtain ⟨s7, r7, p7, f7, o7⟩ := read_all r6 (i := j) (f := fj) (by rw [o6 j (Ne.symm hij)]; exact pj5) (by rw [f6]; exact f5)
  refine ⟨s7, r7, ?_, ?_⟩
  · rw [o7 i hij, p6, alone_ok hj hoj]; rfl
  · rw [p7, alone_ok hj hoj]; rfl

/-- It need not be the snapshot of either: what a call had written when another one opened the file is replaced by zeros. -/
theorem C118_violated_zeros {ord : Rdb.MapOrd} {c : Calls} {fs : Bytes → Option Bytes} {i j : Nat} (hij : i ≠ j) (hfile : c.file i = c.file j)
    {p rest fj : Bytes} {x : GoRes SErr Unit} {ri rj : Rd} (hp : p ≠ []) (hr : rest ≠ []) (hi : c.sync i = (.ok (), some (p ++ rest), ri))
    (hoi : (c.world i).reopen = true) (hj : c.sync j = (x, some fj, rj)) :
    ∃ s, Run ord c (.init fs) s ∧ s.pc i = .done (loaded ord (List.replicate p.length 0 ++ rest)) := by
  have r1 := Run.start.next (Step.create (ord := ord) (c := c) (s := .init fs) (i := i) rfl hi)
  have r2 := r1.next (.write (i := i) (w := []) (p := p) (rest := rest) (setPC_same _ _ _) hp)
  have r3 := r2.next (.create (i := j) (by simp [setPC, State.init, Ne.symm hij]) hj)
  have r4 := r3.next (.write (i := i) (w := p) (p := rest) (rest := []) (by simp [setPC, hij]) hr)
  have r5 := r4.next (.reopen (i := i) (w := p ++ rest) (setPC_same _ _ _) hi hoi)
  obtain ⟨t, r6, h6, _⟩ := read_all r5 (i := i) (f := List.replicate p.length 0 ++ rest) (setPC_same _ _ _) (by simp [hfile, overlay])
  exact ⟨t, r6, h6⟩

/-- A call changes no file but its own, and that only while it saves. -/
theorem C118_own_file_step {ord : Rdb.MapOrd} {c : Calls} {i : Nat} {w : Bool} {s t : State} (h : Step ord c i w s t) :
    (∀ f, f ≠ c.file i → t.fs f = s.fs f) ∧ (w = false → t.fs = s.fs) ∧ (w = true ↔ ∃ x y, t.pc i = .saving x y) := by
  cases h <;> simp_all [setPC, upd]

/-- The files that no call names are left alone. -/
theorem C118_own_file {ord : Rdb.MapOrd} {c : Calls} {fs : Bytes → Option Bytes} {s : State} (h : Run ord c (.init fs) s) {f : Bytes}
    (hf : ∀ i, c.file i ≠ f) : s.fs f = fs f := by
  induction h with
  | start => rfl
  | next _ hs ih => rw [(C118_own_file_step hs).1 f (Ne.symm (hf _)), ih]

/-- A second master, with other keys. -/
def otherWorld : World :=
  ⟨true, true, true, true, true, ⟨[], [b!"+PONG\r\n", b!"$15\r\n" ++ (b!"REDIS0009" ++ [0, 1, 99, 1, 100, 255])]⟩⟩

/-- Two calls that name different masters and no file. -/
def twoCalls : Calls := ⟨fun i => if i = 0 then sampleWorld else otherWorld, fun i => if i = 0 then ⟨b!"10.0.0.1:6379", [], 0⟩ else ⟨b!"10.0.0.2:6379", [], 0⟩⟩

/-- The first master sent `set a b`; when its call had written as far as the key, the other one opened the file. -/
example : (∃ s, Run Rdb.idOrd twoCalls (.init fun _ => none) s ∧
      s.pc 0 = .done (loaded Rdb.idOrd (List.replicate 11 0 ++ [97, 1, 98, 255]))) ∧
    (loaded Rdb.idOrd (List.replicate 11 0 ++ [97, 1, 98, 255])).1 ≠ .ok () := by
  have e0 : ∃ r, twoCalls.sync 0 = (.ok (), some ((b!"REDIS0009" ++ [0, 1]) ++ [97, 1, 98, 255]), r) := by
    refine ⟨(twoCalls.sync 0).2.2, ?_⟩
    have h1 : (twoCalls.sync 0).1 = .ok () := by decide +kernel
    have h2 : (twoCalls.sync 0).2.1 = some ((b!"REDIS0009" ++ [0, 1]) ++ [97, 1, 98, 255]) := by decide +kernel
    rw [← h1, ← h2]
  have e1 : ∃ x f r, twoCalls.sync 1 = (x, some f, r) := by
    have h2 : (twoCalls.sync 1).2.1 = some (b!"REDIS0009" ++ [0, 1, 99, 1, 100, 255]) := by decide +kernel
    exact ⟨(twoCalls.sync 1).1, _, (twoCalls.sync 1).2.2, by rw [← h2]⟩
  obtain ⟨r0, h0⟩ := e0
  obtain ⟨x, f, r1, h1⟩ := e1
  exact ⟨C118_violated_zeros (i := 0) (j := 1) (by decide) (by decide +kernel) (by decide) (by decide) h0 rfl h1, by decide +kernel⟩

/-- C118, full statement refuted with default file names: the client of the first master is filled with the keys of the second. -/
theorem C118_violated : ¬ ∀ (ord : Rdb.MapOrd) (c : Calls) (fs : Bytes → Option Bytes) (s : State) (i : Nat) (r : Result),
    Run ord c (.init fs) s → s.pc i = .done r → r = alone ord c i := by
  intro h
  have e0 : ∃ r, twoCalls.sync 0 = (.ok (), some (b!"REDIS0009" ++ [0, 1, 97, 1, 98, 255]), r) := by
    refine ⟨(twoCalls.sync 0).2.2, ?_⟩
    have h1 : (twoCalls.sync 0).1 = .ok () := by decide +kernel
    have h2 : (twoCalls.sync 0).2.1 = some (b!"REDIS0009" ++ [0, 1, 97, 1, 98, 255]) := by decide +kernel
    rw [← h1, ← h2]
  have e1 : ∃ r, twoCalls.sync 1 = (.ok (), some (b!"REDIS0009" ++ [0, 1, 99, 1, 100, 255]), r) := by
    refine ⟨(twoCalls.sync 1).2.2, ?_⟩
    have h1 : (twoCalls.sync 1).1 = .ok () := by decide +kernel
    have h2 : (twoCalls.sync 1).2.1 = some (b!"REDIS0009" ++ [0, 1, 99, 1, 100, 255]) := by decide +kernel
    rw [← h1, ← h2]
  obtain ⟨r0, h0⟩ := e0
  obtain ⟨r1, h1⟩ := e1
  have hfile : twoCalls.file 0 = b!"temp.rdb" ∧ twoCalls.file 1 = b!"temp.rdb" := by decide +kernel
  obtain ⟨s, hr, hd, _⟩ := C118_violated_any (ord := Rdb.idOrd) (fs := fun _ => none) (i := 0) (j := 1) (by decide)
    (by rw [hfile.1, hfile.2]) h0 rfl h1 rfl
  have := h _ _ _ s 0 _ hr hd
  have key : (alone Rdb.idOrd twoCalls 1).2 = [(0, command [b!"set", b!"c", b!"d"])] ∧
      (alone Rdb.idOrd twoCalls 0).2 = [(0, command [b!"set", b!"a", b!"b"])] := by decide +kernel
  have k2 := congrArg (·.2) this
  simp only [key.1, key.2] at k2
  revert k2
  decide +kernel

/-- With names of their own the same two calls are safe. -/
example : ∀ i j : Nat, i ≠ j → (Calls.mk (fun _ => sampleWorld) (fun i => ⟨[], List.replicate (i + 1) 97, 0⟩)).file i ≠
    (Calls.mk (fun _ => sampleWorld) (fun i => ⟨[], List.replicate (i + 1) 97, 0⟩)).file j := by
  intro i j hij h
  simp only [Calls.file, prepare, List.replicate_succ] at h
  simp at h
  exact hij h

/-- What is in the file of a call that nobody disturbs. -/
def Left (c : Calls) (fs : Bytes → Option Bytes) (s : State) (i : Nat) : Prop :=
  match s.pc i with
  | .start => s.fs (c.file i) = fs (c.file i)
  | .saving w rest => (c.sync i).2.1 = some (w ++ rest) ∧ s.fs (c.file i) = some w
  | .reading _ => ∃ f, (c.sync i).2.1 = some f ∧ s.fs (c.file i) = some f
  | .done _ => s.fs (c.file i) = ((c.sync i).2.1).or (fs (c.file i))

theorem left_step {ord : Rdb.MapOrd} {c : Calls} {fs : Bytes → Option Bytes} {s t : State} {i : Nat} {b : Bool}
    (hne : ∀ i j, i ≠ j → c.file i ≠ c.file j) (hg : ∀ j, Left c fs s j) (h : Step ord c i b s t) : ∀ j, Left c fs t j := by
  intro j
  have hgi := hg i
  by_cases hj : j = i
  · subst hj
    unfold Left at hgi
    cases h with
    | noFile h1 h2 => rw [h1] at hgi; simp only [Left, setPC_same, h2, Option.none_or]; exact hgi
    | create h1 h2 => simp [Left, setPC_same, h2]
    | write h1 h2 =>
      rw [h1] at hgi
      obtain ⟨h3, h4⟩ := hgi
      simp only [Left, setPC_same, h4, Option.getD_some, overlay_end]
      exact ⟨by rw [h3, List.append_assoc], by simp⟩
    | failed h1 h2 h3 =>
      rw [h1] at hgi
      obtain ⟨h4, h5⟩ := hgi
      simp only [Left, setPC_same, h5, h4, List.append_nil, Option.some_or]
    | reopen h1 h2 h3 =>
      rw [h1] at hgi
      obtain ⟨h4, h5⟩ := hgi
      simp only [Left, setPC_same]
      exact ⟨_, by rw [h4, List.append_nil], h5⟩
    | read h1 h2 h3 => rw [h1] at hgi; simp only [Left, setPC_same]; exact hgi
    | eof h1 h2 =>
      rw [h1] at hgi
      obtain ⟨f, h4, h5⟩ := hgi
      simp only [Left, setPC_same, h4, h5, Option.some_or]
  · have hp : t.pc j = s.pc j := by cases h <;> exact setPC_other _ _ hj
    have hf := (C118_own_file_step h).1 _ (hne _ _ hj)
    have := hg j
    unfold Left at this ⊢
    rw [hp, hf]
    exact this

/-- With different files, a call that has returned leaves in its file exactly what it was sent for it, also when it failed, and
what was there before if it never came to open it. -/
theorem C118_leaves {ord : Rdb.MapOrd} {c : Calls} (hne : ∀ i j, i ≠ j → c.file i ≠ c.file j) {fs : Bytes → Option Bytes} {s : State}
    (h : Run ord c (.init fs) s) {i : Nat} {r : Result} (hd : s.pc i = .done r) :
    s.fs (c.file i) = match (c.sync i).2.1 with
      | some f => some f
      | none => fs (c.file i) := by
  have : ∀ j, Left c fs s j := by
    clear hd
    induction h with
    | start => intro j; rfl
    | next _ hs ih => exact left_step hne ih hs
  have := this i
  unfold Left at this
  rw [hd] at this
  rw [this]
  cases (c.sync i).2.1 <;> rfl

/-- Both ways in: a call that saves, and one that does not get so far. -/
example : (twoCalls.sync 0).2.1 = some (b!"REDIS0009" ++ [0, 1, 97, 1, 98, 255]) ∧
    ((Calls.mk (fun _ => { sampleWorld with dial := false }) twoCalls.opts).sync 0).2.1 = none := by decide +kernel

/-! ## Exactly which calls can be disturbed -/

/-- A call that opens no file is never busy. -/
theorem idle_run {ord : Rdb.MapOrd} {c : Calls} {fs : Bytes → Option Bytes} {s : State} (h : Run ord c (.init fs) s) {j : Nat}
    (hj : (c.sync j).2.1 = none) : ¬ (s.pc j).busy := by
  induction h with
  | start => simp [State.init, PC.busy]
  | @next s t i w _ hs ih =>
    by_cases he : j = i
    · subst he
      cases hs with
      | noFile => simp [setPC, PC.busy]
      | create h1 h2 => rw [h2] at hj; cases hj
      | write h1 => rw [h1] at ih; exact absurd trivial ih
      | failed => simp [setPC, PC.busy]
      | reopen h1 => rw [h1] at ih; exact absurd trivial ih
      | read h1 => rw [h1] at ih; exact absurd trivial ih
      | eof => simp [setPC, PC.busy]
    · have : t.pc j = s.pc j := by cases hs <;> exact setPC_other _ _ he
      rw [this]; exact ih

/-- A call with a file that no other call opens. -/
theorem good_lone {ord : Rdb.MapOrd} {c : Calls} {fs : Bytes → Option Bytes} {s : State} (h : Run ord c (.init fs) s) {i : Nat}
    (hl : ∀ j, j ≠ i → c.file j = c.file i → (c.sync j).2.1 = none) : Good ord c s i := by
  induction h with
  | start => trivial
  | @next s t j w hr hs ih =>
    by_cases he : i = j
    · subst he; exact good_own ih hs
    · refine good_other ih (by cases hs <;> exact setPC_other _ _ he) fun _ => ?_
      by_cases hf : c.file j = c.file i
      · have hn := hl j (Ne.symm he) hf
        have hb := idle_run hr hn
        cases hs with
        | noFile => rfl
        | create h1 h2 => rw [h2] at hn; cases hn
        | write h1 => rw [h1] at hb; exact absurd trivial hb
        | failed => rfl
        | reopen => rfl
        | read => rfl
        | eof => rfl
      · exact (C118_own_file_step hs).1 _ (Ne.symm hf)

/-- A call that fails before it reads its file comes to the same in any company. -/
theorem early_run {ord : Rdb.MapOrd} {c : Calls} {fs : Bytes → Option Bytes} {s : State} (h : Run ord c (.init fs) s) {i : Nat}
    (hl : (c.sync i).1 ≠ .ok () ∨ (c.world i).reopen = false) :
    match s.pc i with
    | .reading _ => False
    | .done r => r = alone ord c i
    | _ => True := by
  induction h with
  | start => trivial
  | @next s t j w hr hs ih =>
    by_cases he : i = j
    · subst he
      cases hs with
      | noFile h1 h2 =>
        simp only [setPC_same]
        refine (alone_early h2 (.inl ?_)).symm
        rintro rfl
        obtain ⟨g, hg⟩ := sync_ok_file h2
        cases hg
      | create => simp only [setPC_same]
      | write => simp only [setPC_same]
      | failed h1 h2 h3 => simp only [setPC_same]; exact (alone_early h2 h3).symm
      | reopen h1 h2 h3 => rw [h2, h3] at hl; simp at hl
      | read h1 => rw [h1] at ih; exact ih.elim
      | eof h1 => rw [h1] at ih; exact ih.elim
    · have : t.pc i = s.pc i := by cases hs <;> exact setPC_other _ _ he
      rw [this]; exact ih

/-- C118, exactly: a call that alone would come to something else than from an empty file comes to the same in every company if and only if it fails before
it reads its file, or no other call opens that file. -/
theorem C118_exact {ord : Rdb.MapOrd} {c : Calls} {i : Nat} (hne : alone ord c i ≠ loaded ord []) :
    (∀ fs s r, Run ord c (.init fs) s → s.pc i = .done r → r = alone ord c i) ↔
      ((c.sync i).1 ≠ .ok () ∨ (c.world i).reopen = false) ∨ ∀ j, j ≠ i → c.file j = c.file i → (c.sync j).2.1 = none := by
  constructor
  · intro h
    by_cases h1 : (c.sync i).1 ≠ .ok () ∨ (c.world i).reopen = false
    · exact .inl h1
    refine .inr fun j hj hf => ?_
    simp only [not_or, ne_eq, Decidable.not_not, Bool.not_eq_false] at h1
    obtain ⟨hx, hoi⟩ := h1
    cases hfj : (c.sync j).2.1 with
    | none => rfl
    | some fj =>
    exfalso
    have hj' : c.sync j = ((c.sync j).1, some fj, (c.sync j).2.2) := by rw [← hfj]
    have hi0 : c.sync i = (.ok (), (c.sync i).2.1, (c.sync i).2.2) := by rw [← hx]
    obtain ⟨fi, hfi⟩ := sync_ok_file hi0
    rw [hfi] at hi0
    obtain ⟨s1, r1, p1, f1, o1⟩ := save_all (ord := ord) (c := c) (Run.start.next (.create (s := .init fun _ => none) (i := i) rfl hi0)) (i := i) (f := fi)
      (setPC_same _ _ _) (by simp)
    have r2 := r1.next (.reopen p1 hi0 hoi)
    have pj : setPC s1.pc i (.reading []) j = .start := by
      rw [setPC_other _ _ hj, o1 j hj]; simp [setPC, State.init, hj]
    have r3 := r2.next (.create (i := j) pj hj')
    have r4 := r3.next (.eof (i := i) (seen := []) (by simp [setPC, Ne.symm hj]) (by simp [hf]))
    exact hne (h _ _ _ r4 (setPC_same _ _ _)).symm
  · rintro (h | h) fs s r hr hd
    · have := early_run hr h
      rw [hd] at this
      exact this
    · have := good_lone hr h
      unfold Good at this
      rw [hd] at this
      exact this

/-- Loading an empty file fails, so the above applies to every call that alone reports no error. -/
theorem loaded_nil (ord : Rdb.MapOrd) : (loaded ord []).1 ≠ .ok () := by
  have : (Rdb.load ord ⟨0, 0, [], 0, []⟩ ⟨[], [[]]⟩).1 ≠ .ok () := by
    rw [Rdb.load]
    have h : (read 9 ⟨[], [[]]⟩) = (.err .eof, ⟨[], []⟩) := by decide +kernel
    rw [h]
    simp
  unfold loaded
  rcases h : Rdb.load ord ⟨0, 0, [], 0, []⟩ ⟨[], [[]]⟩ with ⟨y, s⟩
  rw [h] at this
  cases y <;> simp_all

example : alone Rdb.idOrd twoCalls 0 ≠ loaded Rdb.idOrd [] := by
  intro h
  refine loaded_nil Rdb.idOrd (h ▸ ?_)
  decide +kernel

end Verif.Repl.Files

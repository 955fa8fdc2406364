import Verif.Conc.PropsRaceHash
/-!
# C114 for lists of hash calls on hashes that may not exist yet

A key that is absent and that no goroutine puts a hash under stays absent.  `HExists` and `HLen` of such a key never come to a size: they make the same steps as
`HStrLen`, which never uses the size.  So the program with `HStrLen` in their place has the same races.
-/
namespace Verif.Conc.Race
open Verif
open Verif.Conc.Full (Cell Mem)

/-- The keys in `A` are absent, without deadline. -/
def Abs (A : Bytes → Prop) (w : Mem) : Prop := ∀ k, A k → w.data k = none ∧ w.exp k = none

/-- Two programs that make the same steps while the keys in `A` are absent, and keep them absent. -/
inductive Twin {α : Type} (A : Bytes → Prop) (R : α → α → Prop) : GP α → GP α → Prop
  | ret {a b : α} : R a b → Twin A R (.ret a) (.ret b)
  | act {u : G → G} {c c' : G → GP α} : (∀ g, Abs A g.mem → Abs A (u g).mem) → (∀ g, Abs A g.mem → Twin A R (c g) (c' g)) →
      Twin A R (.act u c) (.act u c')

theorem Twin.bind {α β : Type} {A : Bytes → Prop} {R : α → α → Prop} {R' : β → β → Prop} {p q : GP α} {f f' : α → GP β} (h : Twin A R p q)
    (hf : ∀ a b, R a b → Twin A R' (f a) (f' b)) : Twin A R' (p >>= f) (q >>= f') := by
  induction h with
  | ret h => exact hf _ _ h
  | act h1 _ ih => exact .act h1 fun g hg => ih g hg

theorem mild_gone : Mild fun d e => d = none ∧ e = none := fun _ _ h => h.2

theorem twin_of_keep {α : Type} {A : Bytes → Prop} {R : Bytes → α → Prop} {q : GP α} (h : ∀ k, A k → Keep k (fun d e => d = none ∧ e = none) (R k) q) :
    Twin A (fun a b => a = b ∧ ∀ k, A k → R k a) q q := by
  induction q with
  | ret a => exact .ret ⟨rfl, h⟩
  | act u c ih => exact .act (fun g hg k hk => (h k hk g (hg k hk)).1) fun g hg => ih g fun k hk => (h k hk g (hg k hk)).2

theorem Twin.mono {α : Type} {A : Bytes → Prop} {R R' : α → α → Prop} {p q : GP α} (h : Twin A R p q) (hr : ∀ a b, R a b → R' a b) : Twin A R' p q := by
  induction h with
  | ret h => exact .ret (hr _ _ h)
  | act h1 _ ih => exact .act h1 ih

open Classical in
/-- `HStrLen` in the place of `HExists` and `HLen` of keys in `A`. -/
noncomputable def swap (A : Bytes → Prop) : Call → Call
  | .hExists k f => if A k then .hStrLen k f else .hExists k f
  | .hLen k => if A k then .hStrLen k [] else .hLen k
  | op => op

theorem swap_cases (A : Bytes → Prop) (op : Call) : swap A op = op ∨
    ∃ k, A k ∧ (∃ f, swap A op = .hStrLen k f) ∧ ((∃ f, op = .hExists k f) ∨ op = .hLen k) := by
  cases op <;> first | exact .inl rfl | skip
  case hExists k f =>
    by_cases h : A k
    · exact .inr ⟨k, h, ⟨f, by simp [swap, h]⟩, .inl ⟨f, rfl⟩⟩
    · exact .inl (by simp [swap, h])
  case hLen k =>
    by_cases h : A k
    · exact .inr ⟨k, h, ⟨[], by simp [swap, h]⟩, .inr rfl⟩
    · exact .inl (by simp [swap, h])

theorem swap_mode (A : Bytes → Prop) (op : Call) : spec.mode (swap A op) = spec.mode op := by
  rcases swap_cases A op with h | ⟨k, _, ⟨f, h⟩, ⟨f', rfl⟩ | rfl⟩ <;> rw [h] <;> rfl

/-- Reading an absent key: only the answer for nothing there counts. -/
theorem twin_readP {A : Bytes → Prop} {k : Bytes} (hk : A k) {α : Type} {b b' : Option Nat → GP (Res α)} (h : Twin A Eq (b none) (b' none)) :
    Twin A Eq (readP k b) (readP k b') := by
  refine Twin.bind (twin_of_keep (R := fun k' r => k = k' → r = none) fun k' _ => ?_) fun r r' hr => ?_
  · have := keep_getP (k := k') mild_gone k
    clear h hk
    revert this
    generalize getP k = q
    intro h
    induction q with
    | ret a => exact fun e => (h e).1
    | act u c ih => exact fun g hg => ⟨(h g hg).1, ih g (h g hg).2⟩
  · obtain ⟨rfl, hr⟩ := hr
    rw [hr k hk rfl]
    exact h

theorem twin_prog {A : Bytes → Prop} {op : Call} (h : Gentle op) (hn : ∀ k, A k → made op ≠ some k) : Twin A Eq (prog op) (prog (swap A op)) := by
  rcases swap_cases A op with e | ⟨k, hk, ⟨f, e⟩, ⟨f', rfl⟩ | rfl⟩
  · rw [e]
    exact (twin_of_keep (R := fun _ => Triv) fun k hk => keep_prog mild_gone h (.inr (hn k hk))).mono fun _ _ h => h.1
  · rw [e]
    exact Twin.bind (twin_readP hk (.ret rfl)) fun a b h => by rw [h]; exact .ret rfl
  · rw [e]
    exact Twin.bind (twin_readP hk (.ret rfl)) fun a b h => by rw [h]; exact .ret rfl

/-- What goroutine `i` is at, in the two programs. -/
def TwinThr (A : Bytes → Prop) (t t' : Thread G Call Out) : Prop :=
  (∀ op ∈ t.todo, Twin A Eq (prog op) (prog (swap A op))) ∧ t'.todo = t.todo.map (swap A) ∧
    ((t.cur = none ∧ t'.cur = none) ∨ ∃ op p p', t.cur = some (op, p) ∧ t'.cur = some (swap A op, p') ∧ Twin A Eq p p')

structure Both (A : Bytes → Prop) (g g' : Cfg) : Prop where
  sh : g'.sh = g.sh
  writer : g'.writer = g.writer
  readers : g'.readers = g.readers
  thr : ∀ i, TwinThr A (g.thr i) (g'.thr i)
  abs : Abs A g.sh.mem

theorem both_thr {A : Bytes → Prop} {f f' : Nat → Thread G Call Out} (h : ∀ i, TwinThr A (f i) (f' i)) {i : Nat} {t t' : Thread G Call Out} (ht : TwinThr A t t') :
    ∀ j, TwinThr A (setThr f i t j) (setThr f' i t' j) := by
  intro j
  by_cases e : j = i
  · subst e; simpa using ht
  · rw [setThr_ne _ _ e, setThr_ne _ _ e]; exact h j

theorem idle_twin {A : Bytes → Prop} {t' : Thread G Call Out} {op : Call} {rest : List Call} (h : TwinThr A ⟨op :: rest, none⟩ t') :
    t' = ⟨swap A op :: rest.map (swap A), none⟩ ∧ TwinThr A ⟨rest, some (op, prog op)⟩ ⟨rest.map (swap A), some (swap A op, prog (swap A op))⟩ := by
  obtain ⟨h1, h2, ⟨_, h3⟩ | ⟨_, _, _, h3, _⟩⟩ := h
  · exact ⟨by cases t'; simp_all, fun o ho => h1 o (List.mem_cons_of_mem _ ho), rfl, .inr ⟨op, _, _, rfl, rfl, h1 op (by simp)⟩⟩
  · cases h3

theorem busy_twin {A : Bytes → Prop} {t' : Thread G Call Out} {op : Call} {p : GP Out} {rest : List Call} (h : TwinThr A ⟨rest, some (op, p)⟩ t') :
    ∃ p', t' = ⟨rest.map (swap A), some (swap A op, p')⟩ ∧ Twin A Eq p p' := by
  obtain ⟨h1, h2, ⟨h3, _⟩ | ⟨o, q, q', h3, h4, h5⟩⟩ := h
  · cases h3
  · cases h3
    exact ⟨q', by cases t'; simp_all, h5⟩

theorem acts_both {A : Bytes → Prop} {g g' h : Cfg} {i : Nat} (hb : Both A g g') (hs : Acts i g h) : ∃ h', Acts i g' h' ∧ Both A h h' := by
  cases hs with
  | mk op todo u c ht =>
    have hi := hb.thr i
    rw [ht] at hi
    obtain ⟨p', e, ht'⟩ := busy_twin hi
    cases ht' with
    | act h1 h2 =>
      refine ⟨_, .mk g' _ _ _ _ e, ?_, hb.writer, hb.readers, both_thr hb.thr ⟨hi.1, rfl, .inr ⟨op, _, _, rfl, rfl, ?_⟩⟩, h1 _ hb.abs⟩
      · exact congrArg u hb.sh
      · rw [hb.sh]; exact h2 _ hb.abs

theorem step_both {A : Bytes → Prop} {g g' h : Cfg} (hb : Both A g g') (hs : Step spec true g h) : ∃ h', Step spec true g' h' ∧ Both A h h' := by
  cases hs with
  | tick s' ht =>
    refine ⟨_, .tick g' s' (by rw [hb.sh]; exact ht), rfl, hb.writer, hb.readers, hb.thr, ?_⟩
    obtain ⟨n, _, rfl⟩ := ht
    exact hb.abs
  | startW i op rest ht hm hw hr =>
    have hi := hb.thr i
    rw [ht] at hi
    obtain ⟨e, t⟩ := idle_twin hi
    exact ⟨_, .startW g' i _ _ e (by rw [swap_mode]; exact hm) (hb.writer.trans hw) (hb.readers.trans hr), hb.sh, rfl, hb.readers, both_thr hb.thr t, hb.abs⟩
  | startR i op rest ht hm hw hr =>
    have hi := hb.thr i
    rw [ht] at hi
    obtain ⟨e, t⟩ := idle_twin hi
    exact ⟨_, .startR g' i _ _ e (by rw [swap_mode]; exact hm) (hb.writer.trans hw) (.inl rfl), hb.sh, hb.writer, congrArg (i :: ·) hb.readers,
      both_thr hb.thr t, hb.abs⟩
  | startN i op rest ht hm =>
    have hi := hb.thr i
    rw [ht] at hi
    obtain ⟨e, t⟩ := idle_twin hi
    exact ⟨_, .startN g' i _ _ e (by rw [swap_mode]; exact hm), hb.sh, hb.writer, hb.readers, both_thr hb.thr t, hb.abs⟩
  | act i op todo u c ht =>
    obtain ⟨h', hs, hb'⟩ := acts_both hb (.mk g op todo u c ht)
    cases hs with
    | mk op' todo' u' c' ht' => exact ⟨_, .act g' i op' todo' u' c' ht', hb'⟩
  | fin i op todo o ht =>
    have hi := hb.thr i
    rw [ht] at hi
    obtain ⟨p', e, ht'⟩ := busy_twin hi
    cases ht' with
    | ret h1 =>
      refine ⟨_, .fin g' i _ _ _ e, hb.sh, ?_, ?_, both_thr hb.thr ⟨hi.1, rfl, .inl ⟨rfl, rfl⟩⟩, hb.abs⟩
      · show unlockW _ _ = unlockW _ _
        rw [swap_mode, hb.writer]
      · show unlockR _ _ _ = unlockR _ _ _
        rw [swap_mode, hb.readers]

theorem steps_both {A : Bytes → Prop} {g g' h : Cfg} (hb : Both A g g') (hs : Steps spec true g h) : ∃ h', Steps spec true g' h' ∧ Both A h h' := by
  induction hs with
  | refl => exact ⟨g', .refl, hb⟩
  | snoc _ s ih =>
    obtain ⟨h1, s1, b1⟩ := ih
    obtain ⟨h2, s2, b2⟩ := step_both b1 s
    exact ⟨h2, s1.snoc s2, b2⟩

/-- The program with `HStrLen` for the calls that find nothing has the same races. -/
theorem race_both {A : Bytes → Prop} {v : Mem} {calls : Nat → List Call} (hA : Abs A v)
    (hc : ∀ i, ∀ op ∈ calls i, Gentle op ∧ ∀ k, A k → made op ≠ some k) (h : HasRace (start v calls)) :
    HasRace (start v fun i => (calls i).map (swap A)) := by
  obtain ⟨g, g1, g2, i, j, a, b, hs, h1, h2, hij, ha, hb, hab⟩ := h
  have b0 : Both A (start v calls) (start v fun i => (calls i).map (swap A)) :=
    ⟨rfl, rfl, rfl, fun i => ⟨fun op ho => twin_prog (hc i op ho).1 (hc i op ho).2, rfl, .inl ⟨rfl, rfl⟩⟩, hA⟩
  obtain ⟨g', s', b1⟩ := steps_both b0 hs
  obtain ⟨g1', s1, b2⟩ := acts_both b1 h1
  obtain ⟨g2', s2, b3⟩ := acts_both b2 h2
  exact ⟨g', g1', g2', i, j, a, b, s', s1, s2, hij, by rw [b2.sh]; exact ha, by rw [b3.sh]; exact hb, hab⟩

/-- Not `HMSet` of no pairs, which makes an empty hash without coming to its size. -/
def SomePairs : Call → Prop
  | .hMSet _ [] => False
  | _ => True

/-- C114, exactly, for any number of goroutines with any lists of HSet, HMSet (of one pair or more), HExists, HLen, HGet, HMGet, HStrLen, HKeys, HVals, HGetAll, Get, MGet,
StrLen, GetRange, Type and Exists, in a state in which the hashes whose size is used exist or do not, without deadlines, as in a new cache: they can race if and only if
two of them use the size of one hash, one changing it, and the hash exists or one of the goroutines calls HSet or HMSet of it. -/
theorem C114_new_lists_exact {v : Mem} (hv : v.WF) (calls : Nat → List Call) (hc : ∀ i, ∀ op ∈ calls i, Gentle op ∧ Steady op ∧ SomePairs op)
    (hh : ∀ i, ∀ op ∈ calls i, ∀ k x, sizeUse op = some (k, x) → Soft k v) :
    HasRace (start v calls) ↔ ∃ i j a b k x y, i ≠ j ∧ a ∈ calls i ∧ b ∈ calls j ∧ sizeUse a = some (k, x) ∧ sizeUse b = some (k, y) ∧ (x = true ∨ y = true) ∧
      (v.data k ≠ none ∨ ∃ m c, c ∈ calls m ∧ Puts k c) := by
  constructor
  · intro h
    let A : Bytes → Prop := fun k => (v.data k = none ∧ v.exp k = none) ∧ ∀ m c, c ∈ calls m → ¬ Puts k c
    have hr := race_both (A := A) (fun k hk => hk.1) (fun i op ho => ⟨(hc i op ho).1, fun k hk hm => ?_⟩) h
    · refine Classical.byContradiction fun hn => C114_no_race_partial hv (fun i j hij a' ha' b' hb' hcl => ?_) hr
      obtain ⟨a, ha, rfl⟩ := List.mem_map.1 ha'
      obtain ⟨b, hb, rfl⟩ := List.mem_map.1 hb'
      clear ha' hb'
      have nofl : ∀ {i a}, a ∈ calls i → swap A a ≠ .flush := by
        intro i a ha e
        rcases swap_cases A a with h | ⟨k, _, ⟨f, h⟩, _⟩
        · rw [h] at e; rw [e] at ha; exact (hc i _ ha).1
        · rw [h] at e; cases e
      have back : ∀ {a k x}, sizeUse (swap A a) = some (k, x) → sizeUse a = some (k, x) ∧ swap A a = a := by
        intro a k x e
        rcases swap_cases A a with h | ⟨k, _, ⟨f, h⟩, _⟩
        · rw [h] at e; exact ⟨e, h⟩
        · rw [h] at e; cases e
      rcases hcl with ⟨e, _, _⟩ | ⟨e, _, _⟩ | ⟨k, x, y, u1, u2, h3⟩
      · exact nofl ha e
      · exact nofl hb e
      · obtain ⟨h1, e1⟩ := back u1
        obtain ⟨h2, _⟩ := back u2
        clear u1 u2
        refine hn ⟨i, j, a, b, k, x, y, hij, ha, hb, h1, h2, h3, ?_⟩
        refine Classical.byContradiction fun hno => ?_
        have hAk : A k := by
          refine ⟨⟨Classical.byContradiction fun h => hno (.inl h), (hh i a ha k x h1).2⟩, fun m c hm hp => hno (.inr ⟨m, c, hm, hp⟩)⟩
        obtain ⟨hg, hst, hfu⟩ := hc i a ha
        cases a <;> simp only [sizeUse, Option.some.injEq, Prod.mk.injEq, reduceCtorEq] at h1
        case hLen k' => obtain ⟨rfl, _⟩ := h1; simp [swap, hAk] at e1
        case hExists k' f => obtain ⟨rfl, _⟩ := h1; simp [swap, hAk] at e1
        case hSet k' f z => obtain ⟨rfl, _⟩ := h1; exact hAk.2 i _ ha (.inl ⟨_, _, rfl⟩)
        case hSetNX => exact hst
        case hIncrBy => exact hst
        case hIncrByFloat => exact hst
        case hDel k' fs =>
          cases fs with
          | nil => simp at h1
          | cons f fs => exact hst
        case hMSet k' fv =>
          cases fv with
          | nil => exact hfu
          | cons f fv =>
            simp only [Option.some.injEq, Prod.mk.injEq] at h1
            obtain ⟨rfl, _⟩ := h1
            exact hAk.2 i _ ha (.inr ⟨_, _, rfl⟩)
    · obtain ⟨hg, hst, hfu⟩ := hc i op ho
      cases op <;> simp only [made, Option.some.injEq, reduceCtorEq] at hm
      case hSet k' f z => subst hm; exact hk.2 i _ ho (.inl ⟨_, _, rfl⟩)
      case hSetNX => exact hst
      case hIncrBy => exact hst
      case hIncrByFloat => exact hst
      case hMSet k' fv =>
        cases fv with
        | nil => exact hfu
        | cons f fv => subst hm; exact hk.2 i _ ho (.inr ⟨_, _, rfl⟩)
  · rintro ⟨i, j, a, b, k, x, y, hij, ha, hb, h1, h2, h3, h4⟩
    have hs := hh i a ha k x h1
    have hgen : ∀ i, ∀ op ∈ calls i, Gentle op := fun i op ho => (hc i op ho).1
    rcases h4 with h4 | ⟨m, c, hm, pc⟩
    · rcases soft_cases hs with ⟨hd, _⟩ | ⟨p, hp⟩
      · exact absurd hd h4
      · exact C114_hash_lists_violated v calls hgen hij ha hb h1 h2 h3 (hc i a ha).2.1 (hc j b hb).2.1 hp
    · exact C114_third_lists_violated v calls hgen hij ha hb hm h1 h2 h3 pc (hc i a ha).2.1 (hc j b hb).2.1 hs

/-- In a new cache two goroutines may ask whether a field exists … -/
example (k f : Bytes) : ¬ HasRace (start (Mem.empty 0) fun i => if i < 2 then [.hExists k f, .hLen k] else []) := by
  rw [C114_new_lists_exact (Full.Mem.empty_wf 0)]
  · rintro ⟨i, j, a, b, k', x, y, _, _, _, _, _, _, h | ⟨m, c, hm, hp⟩⟩
    · exact h rfl
    · split at hm
      · simp at hm
        rcases hm with rfl | rfl <;> rcases hp with ⟨_, _, h⟩ | ⟨_, _, h⟩ <;> cases h
      · cases hm
  · intro i op ho
    split at ho
    · simp at ho; rcases ho with rfl | rfl <;> exact ⟨trivial, trivial, trivial⟩
    · cases ho
  · exact fun _ _ _ _ _ _ => ⟨.inl rfl, rfl⟩

/-- … but not if a third puts one in. -/
example (k f x : Bytes) : HasRace (start (Mem.empty 0) fun i => if i < 2 then [.hExists k f] else if i = 2 then [.hSet k f x] else []) := by
  refine (C114_new_lists_exact (Full.Mem.empty_wf 0) _ ?_ ?_).2 ⟨0, 1, .hExists k f, .hExists k f, k, true, true, by decide, by simp, by simp, rfl, rfl, .inl rfl,
    .inr ⟨2, .hSet k f x, by simp, .inl ⟨f, x, rfl⟩⟩⟩
  · intro i op ho
    split at ho
    · simp at ho; subst ho; exact ⟨trivial, trivial, trivial⟩
    · split at ho
      · simp at ho; subst ho; exact ⟨trivial, trivial, trivial⟩
      · cases ho
  · exact fun _ _ _ _ _ _ => ⟨.inl rfl, rfl⟩

end Verif.Conc.Race

import Verif.Conc.Order
import Verif.Cache.HashModel
import Verif.Cache.Hist
import Verif.Cache.Lemmas
/-!
# Hash calls as programs of atomic steps

Source: cache/cachehash.go.  Here pointers matter: `dataDict` maps a key to a `*hashEntry`, and two
goroutines may hold different pointers for one key.  No hash call takes the lock.  `he.length += n`
is a read and a write.  Keys have no deadline in this machine (`getHashEntry` is then one `Load`),
and the calls modelled are HSet, HSetNX, HMSet, HDel, HExists, HGet, HLen, and Del of the whole key
(cachedb.go:3-15, whose lock does not exclude hash calls).
-/
namespace Verif.Conc

/-- A slot of `dataDict`: a hash pointer or something else. -/
inductive Slot where
  | hash (p : Nat)
  | other
deriving DecidableEq

/-- Shared memory of the hash calls. -/
structure Heap where
  data : Bytes → Option Slot
  heap : Nat → HashEntry
  next : Nat

/-- Write an entry through its pointer. -/
def put (h : Nat → HashEntry) (p : Nat) (e : HashEntry) : Nat → HashEntry := fun q => if q = p then e else h q

abbrev HP (α : Type) := Prog Heap α

/-- `c.dataDict.Load(key)` -/
def hLoad (k : Bytes) : HP (Option Slot) := Prog.atomic (fun w => (w, w.data k))
/-- `c.dataDict.Store(key, he)` -/
def hStore (k : Bytes) (p : Nat) : HP Unit :=
  Prog.atomic (fun w => ({ w with data := upd w.data k (some (.hash p)) }, ()))
/-- cachehash.go:36-38 `newHash()`: a fresh pointer to an empty entry. -/
def hNew : HP Nat :=
  Prog.atomic (fun w => ({ w with heap := put w.heap w.next HashEntry.empty, next := w.next + 1 }, w.next))
/-- `he.Load(field)` -/
def fLoad (p : Nat) (f : Bytes) : HP (Option Scalar) := Prog.atomic (fun w => (w, hfind (w.heap p).fields f))
/-- `he.Store(field, v)` -/
def fStore (p : Nat) (f : Bytes) (v : Scalar) : HP Unit :=
  Prog.atomic (fun w => ({ w with heap := put w.heap p { w.heap p with fields := hput (w.heap p).fields f v } }, ()))
/-- `he.LoadOrStore(field, v)`: whether the field was there -/
def fLoadOrStore (p : Nat) (f : Bytes) (v : Scalar) : HP Bool :=
  Prog.atomic (fun w =>
    if (hfind (w.heap p).fields f).isSome then (w, true)
    else ({ w with heap := put w.heap p { w.heap p with fields := hput (w.heap p).fields f v } }, false))
/-- `he.Delete(field)` -/
def fDelete (p : Nat) (f : Bytes) : HP Unit :=
  Prog.atomic (fun w => ({ w with heap := put w.heap p { w.heap p with fields := hdelete (w.heap p).fields f } }, ()))
/-- reading `he.length` -/
def lenLoad (p : Nat) : HP Int := Prog.atomic (fun w => (w, (w.heap p).length))
/-- writing `he.length` -/
def lenStore (p : Nat) (n : Int) : HP Unit :=
  Prog.atomic (fun w => ({ w with heap := put w.heap p { w.heap p with length := n } }, ()))
/-- `he.length += n` -/
def lenAdd (p : Nat) (n : Int) : HP Unit := do
  let l ← lenLoad p
  lenStore p (l + n)

/-- cachehash.go:24-34 `hashEntry.set`. -/
def setP (p : Nat) (f v : Bytes) : HP Int := do
  if ← fLoadOrStore p f (tryInt64 v) then
    fStore p f (tryInt64 v)
    lenAdd p 0
    pure 0
  else
    lenAdd p 1
    pure 1

/-- cachehash.go:53-62: fetch the entry or create and publish one. -/
def fetchP {α : Type} (k : Bytes) (body : Nat → HP (Res α)) : HP (Res α) := do
  match ← hLoad k with
  | some (.hash p) => body p
  | some .other => pure (.err .wrongType)
  | none => do
    let p ← hNew
    hStore k p
    body p

/-- Calls of the read pattern: `none` is the nil entry. -/
def readP {α : Type} (k : Bytes) (body : Option Nat → HP (Res α)) : HP (Res α) := do
  match ← hLoad k with
  | some (.hash p) => body (some p)
  | some .other => pure (.err .wrongType)
  | none => body none

/-- cachehash.go:263-265, the loop of `HMSet`. -/
def hMSetP (p : Nat) : List (Bytes × Bytes) → Int → HP (Res Int)
  | [], n => pure (.ok n)
  | (f, v) :: fv, n => do
    let m ← setP p f v
    hMSetP p fv (n + m)

/-- cachehash.go:118-129, the loop of `HDel` and the length update. -/
def hDelP (p : Nat) : List Bytes → Int → HP (Res Int)
  | [], n => if n = 0 then pure (.ok n) else do lenAdd p (-n); pure (.ok n)
  | f :: fs, n => do
    match ← fLoad p f with
    | some _ => do fDelete p f; hDelP p fs (n + 1)
    | none => hDelP p fs n

/-- The calls of this machine. -/
inductive HCall where
  | hSet (k f v : Bytes)
  | hSetNX (k f v : Bytes)
  | hMSet (k : Bytes) (fv : List (Bytes × Bytes))
  | hDel (k : Bytes) (fs : List Bytes)
  | hExists (k f : Bytes)
  | hGet (k f : Bytes)
  | hLen (k : Bytes)
  | del (k : Bytes)

/-- The same call in the sequential model. -/
def HCall.toCall : HCall → Call
  | .hSet k f v => .hSet k f v
  | .hSetNX k f v => .hSetNX k f v
  | .hMSet k fv => .hMSet k fv
  | .hDel k fs => .hDel k fs
  | .hExists k f => .hExists k f
  | .hGet k f => .hGet k f
  | .hLen k => .hLen k
  | .del k => .del k

/-- cachehash.go:53-85, 88-144, 251-268; `HGet` is cachehash.go:348-367. -/
def hprog : HCall → HP Out
  | .hSet k f v => do
    let r ← fetchP k (fun p => do let n ← setP p f v; pure (.ok n))
    pure (.int r)
  | .hSetNX k f v => do
    let r ← fetchP k (fun p => do
      if ← fLoadOrStore p f (.str v) then pure (.ok 0)
      else do lenAdd p 1; pure (.ok 1))
    pure (.int r)
  | .hMSet k fv => do
    let r ← fetchP k (fun p => hMSetP p fv 0)
    pure (.int r)
  | .hDel k fs => do
    let r ← readP k (fun
      | none => pure (.ok 0)
      | some p => hDelP p fs 0)
    pure (.int r)
  | .hExists k f => do
    let r ← readP k (fun
      | none => pure (.ok 0)
      | some p => do
        let v ← fLoad p f
        let n : Int := if v.isSome then 1 else 0
        lenAdd p (-n)
        pure (.ok n))
    pure (.int r)
  | .hGet k f => do
    let r ← readP k (fun
      | none => pure (.err .keyNil)
      | some p => do
        match ← fLoad p f with
        | some v => pure (.ok (fmtScalar v))
        | none => pure (.err .keyNil))
    pure (.str r)
  | .hLen k => do
    let r ← readP k (fun
      | none => pure (.ok 0)
      | some p => do let n ← lenLoad p; pure (.ok n))
    pure (.int r)
  | .del k => do
    let v ← hLoad k
    Prog.atomic (fun w => ({ w with data := upd w.data k none }, ()))
    pure (.int (.ok (if v.isSome then 1 else 0)))

/-- Only `Del` takes the lock. -/
def hmode : HCall → Mode
  | .del _ => .write
  | _ => .unlocked

def hspec : Spec Heap HCall Out := { prog := hprog, mode := hmode, tick := fun s s' => s' = s }

abbrev HCfg := Config Heap HCall Out

/-! ## Run alone, the programs are the calls of the sequential model -/

/-- Execute a program without interference. -/
def alone {S α : Type} : Prog S α → S → S × α
  | .ret a, s => (s, a)
  | .act u k, s => alone (k s) (u s)

theorem alone_bind {S α β : Type} (p : Prog S α) (f : α → Prog S β) (s : S) :
    alone (p >>= f) s = alone (f (alone p s).2) (alone p s).1 := by
  induction p generalizing s with
  | ret a => rfl
  | act u k ih => exact ih s (u s)

theorem alone_atomic {S α : Type} (f : S → S × α) (s : S) : alone (Prog.atomic f) s = f s := rfl

/-- What a slot denotes. -/
def Slot.val (h : Nat → HashEntry) : Slot → Val
  | .hash p => .hash (h p)
  | .other => .scalar (.str [])

/-- The cache a heap denotes. -/
def Heap.abs (w : Heap) : Cache :=
  { data := fun k => (w.data k).map (Slot.val w.heap), exp := fun _ => none }

/-- Pointers are allocated and not shared between keys. -/
structure Heap.WF (w : Heap) : Prop where
  alloc : ∀ k p, w.data k = some (.hash p) → p < w.next
  inj : ∀ k k' p, w.data k = some (.hash p) → w.data k' = some (.hash p) → k = k'

theorem put_put (h : Nat → HashEntry) (p : Nat) (a b : HashEntry) : put (put h p a) p b = put h p b := by
  funext q; simp only [put]; split <;> rfl

@[simp] theorem put_same (h : Nat → HashEntry) (p : Nat) (a : HashEntry) : put h p a p = a := by simp [put]

theorem put_ne (h : Nat → HashEntry) {p q : Nat} (a : HashEntry) (hne : q ≠ p) : put h p a q = h q := by
  simp [put, hne]

/-- `hput`/`hfind` through a pointer: what `setP` does when run alone. -/
theorem alone_setP (p : Nat) (f v : Bytes) (w : Heap) :
    alone (setP p f v) w =
      ({ w with heap := put w.heap p ((w.heap p).set f v).1 }, ((w.heap p).set f v).2) := by
  cases hf : hfind (w.heap p).fields f with
  | none =>
    simp [setP, fLoadOrStore, hf, lenAdd, lenLoad, lenStore, alone, HashEntry.set,
      put_put]
  | some x =>
    simp [setP, fLoadOrStore, hf, lenAdd, lenLoad, lenStore, fStore, alone,
      HashEntry.set, put_put]

theorem load_abs (w : Heap) (t : Int) (k : Bytes) : w.abs.load t k = (w.abs, w.abs.data k) := by
  unfold Cache.load
  cases hd : w.abs.data k <;> simp [Cache.expired, Heap.abs]

theorem getHash_abs (w : Heap) (t : Int) (k : Bytes) :
    w.abs.getHash t k = (w.abs, match w.data k with
      | none => .ok none
      | some (.hash p) => .ok (some (w.heap p))
      | some .other => .err .wrongType) := by
  unfold Cache.getHash
  rw [load_abs]
  cases hd : w.data k with
  | none => simp [Heap.abs, hd]
  | some x => cases x <;> simp [Heap.abs, hd, Slot.val]

/-- Writing through the pointer of `k` is storing at `k`. -/
theorem abs_put {w : Heap} (hw : w.WF) {k : Bytes} {p : Nat} (hk : w.data k = some (.hash p)) (e : HashEntry) :
    ({ w with heap := put w.heap p e } : Heap).abs = w.abs.store k (.hash e) ∧
    ({ w with heap := put w.heap p e } : Heap).WF := by
  refine ⟨?_, ⟨hw.alloc, hw.inj⟩⟩
  simp only [Heap.abs, Cache.store]
  congr 1
  funext j
  simp only [upd]
  by_cases hj : j = k
  · subst hj; simp [hk, Slot.val]
  · simp only [hj, if_false]
    cases hd : w.data j with
    | none => rfl
    | some x =>
      cases x with
      | other => rfl
      | hash q =>
        have : q ≠ p := by rintro rfl; exact hj (hw.inj _ _ _ hd hk)
        simp [Slot.val, put_ne _ _ this]

/-- A body that updates the entry through its pointer. -/
def Through {α : Type} (body : Nat → HP α) (B : HashEntry → HashEntry × α) : Prop :=
  ∀ p w, alone (body p) w = ({ w with heap := put w.heap p (B (w.heap p)).1 }, (B (w.heap p)).2)

theorem fetchP_refines {α : Type} {k : Bytes} {body : Nat → HP (Res α)} {B : HashEntry → HashEntry × Res α}
    (hb : Through body B) {w : Heap} (hw : w.WF) (t : Int) :
    ((alone (fetchP k body) w).1.abs, (alone (fetchP k body) w).2) = w.abs.withHash t k B ∧
    (alone (fetchP k body) w).1.WF := by
  unfold fetchP Cache.withHash
  rw [getHash_abs, alone_bind]
  simp only [hLoad, alone_atomic]
  cases hd : w.data k with
  | none =>
    simp only [alone_bind, hNew, hStore, alone_atomic, hb _ _]
    have w1 : (Heap.mk (upd w.data k (some (.hash w.next))) (put w.heap w.next HashEntry.empty) (w.next + 1)).WF := by
      constructor
      · intro j p hj
        simp only [upd] at hj
        split at hj
        · injection hj with hj; injection hj with hj; simp only; omega
        · have := hw.alloc _ _ hj; simp only; omega
      · intro j j' p hj hj'
        simp only [upd] at hj hj'
        split at hj <;> split at hj'
        · rename_i a b; rw [a, b]
        · injection hj with hj; injection hj with hj; subst hj
          have := hw.alloc _ _ hj'; omega
        · injection hj' with hj'; injection hj' with hj'; subst hj'
          have := hw.alloc _ _ hj; omega
        · exact hw.inj _ _ _ hj hj'
    have := abs_put w1 (k := k) (p := w.next) (by simp [upd]) (B HashEntry.empty).1
    simp only [put_same] at this ⊢
    refine ⟨?_, this.2⟩
    rw [this.1]
    simp only [Option.getD_none]
    refine Prod.ext ?_ rfl
    simp only [Cache.store, Heap.abs]
    congr 1
    funext j
    simp only [upd]
    by_cases hj : j = k
    · simp [hj]
    · simp only [hj, if_false]
      cases hdj : w.data j with
      | none => rfl
      | some x =>
        cases x with
        | other => rfl
        | hash q =>
          have := hw.alloc _ _ hdj
          simp [Slot.val, put_ne _ _ (by omega : q ≠ w.next)]
  | some x =>
    cases x with
    | other => exact ⟨rfl, hw⟩
    | hash p =>
      simp only [hb _ _]
      have := abs_put hw hd (B (w.heap p)).1
      exact ⟨by rw [this.1]; rfl, this.2⟩

theorem alone_hMSetP (p : Nat) (fv : List (Bytes × Bytes)) (n : Int) (w : Heap) :
    alone (hMSetP p fv n) w =
      ({ w with heap := put w.heap p (Cache.hMSetLoop fv (w.heap p) n).1 }, .ok (Cache.hMSetLoop fv (w.heap p) n).2) := by
  induction fv generalizing n w with
  | nil =>
    have : put w.heap p (w.heap p) = w.heap := by funext q; simp only [put]; split <;> simp_all
    simp [hMSetP, alone, Cache.hMSetLoop, this]
  | cons a fv ih =>
    obtain ⟨f, v⟩ := a
    simp only [hMSetP]
    rw [alone_bind, alone_setP, ih]
    simp [Cache.hMSetLoop, put_put]

/-- The entry after `HDel` (cachehash.go:118-129). -/
def hDelEntry (h : HashEntry) (fs : List Bytes) (n : Int) : HashEntry :=
  { fields := (Cache.hDelLoop fs h.fields n).1
    length := if (Cache.hDelLoop fs h.fields n).2 ≠ 0 then h.length - (Cache.hDelLoop fs h.fields n).2 else h.length }

theorem alone_hDelP (p : Nat) (fs : List Bytes) (n : Int) (w : Heap) :
    alone (hDelP p fs n) w =
      ({ w with heap := put w.heap p (hDelEntry (w.heap p) fs n) },
        .ok (Cache.hDelLoop fs (w.heap p).fields n).2) := by
  induction fs generalizing n w with
  | nil =>
    simp only [hDelP, hDelEntry, Cache.hDelLoop]
    by_cases hn : n = 0
    · have : put w.heap p { fields := (w.heap p).fields, length := (w.heap p).length } = w.heap := by
        funext q; simp only [put]; split <;> simp_all
      simp [hn, alone, this]
    · simp [hn, alone, lenAdd, lenLoad, lenStore, Int.sub_eq_add_neg]
  | cons f fs ih =>
    simp only [hDelP]
    rw [alone_bind]
    simp only [fLoad, alone_atomic]
    by_cases hf : hfind (w.heap p).fields f = none
    · have e : Cache.hDelLoop (f :: fs) (w.heap p).fields n = Cache.hDelLoop fs (w.heap p).fields n := by
        simp [Cache.hDelLoop, hf]
      simp only [hf, ih, hDelEntry, e]
    · obtain ⟨x, hx⟩ := Option.ne_none_iff_exists'.mp hf
      have e : Cache.hDelLoop (f :: fs) (w.heap p).fields n =
          Cache.hDelLoop fs (hdelete (w.heap p).fields f) (n + 1) := by
        simp [Cache.hDelLoop, hx]
      simp only [hx, alone_bind, fDelete, alone_atomic, ih, put_same, put_put, hDelEntry, e]

/-- Every hash program, run alone, does what the sequential call does. -/
theorem hprog_refines (op : HCall) {w : Heap} (hw : w.WF) (t : Int) :
    ((alone (hprog op) w).1.abs, (alone (hprog op) w).2) = exec w.abs t op.toCall ∧
    (alone (hprog op) w).1.WF := by
  have same : ∀ p, put w.heap p (w.heap p) = w.heap := by
    intro p; funext q; simp only [put]; split <;> simp_all
  cases op with
  | hSet k f v =>
    have := fetchP_refines (k := k) (body := fun p => do let n ← setP p f v; pure (.ok n))
      (B := fun h => let (h', n) := h.set f v; (h', .ok n))
      (by intro p w; rw [alone_bind, alone_setP]; rfl) hw t
    simp only [hprog, HCall.toCall, exec, Cache.hSet]
    rw [alone_bind]
    rw [← this.1]
    exact ⟨rfl, this.2⟩
  | hSetNX k f v =>
    have := fetchP_refines (α := Int) (k := k) (body := fun p => do
        if ← fLoadOrStore p f (.str v) then pure (.ok 0)
        else do lenAdd p 1; pure (.ok 1))
      (B := fun h => match hfind h.fields f with
        | some _ => (h, .ok 0)
        | none => ({ fields := hput h.fields f (.str v), length := h.length + 1 }, .ok 1))
      (by
        intro p w
        have same : put w.heap p (w.heap p) = w.heap := by
          funext q; simp only [put]; split <;> simp_all
        cases hf : hfind (w.heap p).fields f <;>
          simp [fLoadOrStore, hf, alone, lenAdd, lenLoad, lenStore, put_put, same]) hw t
    simp only [hprog, HCall.toCall, exec]
    rw [alone_bind]
    rw [show w.abs.hSetNX t k f v = _ from this.1.symm]
    exact ⟨rfl, this.2⟩
  | hMSet k fv =>
    have := fetchP_refines (k := k) (body := fun p => hMSetP p fv 0)
      (B := fun h => let (h', n) := Cache.hMSetLoop fv h 0; (h', .ok n))
      (by intro p w; rw [alone_hMSetP]) hw t
    simp only [hprog, HCall.toCall, exec, Cache.hMSet]
    rw [alone_bind]
    rw [← this.1]
    exact ⟨rfl, this.2⟩
  | hDel k fs =>
    simp only [hprog, HCall.toCall, exec, Cache.hDel, readP]
    rw [getHash_abs, alone_bind, alone_bind]
    simp only [hLoad, alone_atomic]
    cases hd : w.data k with
    | none => exact ⟨rfl, hw⟩
    | some x =>
      cases x with
      | other => exact ⟨rfl, hw⟩
      | hash p =>
        simp only [alone_hDelP]
        have := abs_put hw hd (hDelEntry (w.heap p) fs 0)
        exact ⟨Prod.ext this.1 rfl, this.2⟩
  | hExists k f =>
    simp only [hprog, HCall.toCall, exec, Cache.hExists, readP]
    rw [getHash_abs, alone_bind, alone_bind]
    simp only [hLoad, alone_atomic]
    cases hd : w.data k with
    | none => exact ⟨rfl, hw⟩
    | some x =>
      cases x with
      | other => exact ⟨rfl, hw⟩
      | hash p =>
        have := abs_put hw hd { (w.heap p) with length := (w.heap p).length - if ((w.heap p).get f).isSome then 1 else 0 }
        simp only []
        rw [← this.1]
        cases hf : hfind (w.heap p).fields f <;>
          simp [fLoad, lenAdd, lenLoad, lenStore, alone, hf, HashEntry.get, same,
            Int.sub_eq_add_neg] <;> (simp [HashEntry.get, hf, same, Int.sub_eq_add_neg] at this; try exact this.2)
  | hGet k f =>
    simp only [hprog, HCall.toCall, exec, Cache.hGet, readP, Cache.readHash]
    rw [getHash_abs, alone_bind, alone_bind]
    simp only [hLoad, alone_atomic]
    cases hd : w.data k with
    | none => exact ⟨rfl, hw⟩
    | some x =>
      cases x with
      | other => exact ⟨rfl, hw⟩
      | hash p =>
        cases hf : hfind (w.heap p).fields f <;>
          simp [fLoad, alone, hf, HashEntry.get, hw]
  | hLen k =>
    simp only [hprog, HCall.toCall, exec, Cache.hLen, readP, Cache.readHash]
    rw [getHash_abs, alone_bind, alone_bind]
    simp only [hLoad, alone_atomic]
    cases hd : w.data k with
    | none => exact ⟨rfl, hw⟩
    | some x =>
      cases x with
      | other => exact ⟨rfl, hw⟩
      | hash p => exact ⟨rfl, hw⟩
  | del k =>
    have e : alone (hprog (.del k)) w = ({ w with data := upd w.data k none },
      .int (.ok (if (w.data k).isSome then 1 else 0))) := rfl
    rw [e]
    simp only [HCall.toCall, exec, Cache.del, load_abs]
    refine ⟨?_, ?_⟩
    · refine Prod.ext ?_ ?_
      · simp only [Heap.abs]
        congr 1
        · funext j; simp only [upd]; split <;> rfl
        · funext j; simp only [upd]; split <;> rfl
      · simp [Heap.abs]
    · constructor
      · intro j p hj
        simp only [upd] at hj
        split at hj
        · cases hj
        · exact hw.alloc _ _ hj
      · intro j j' p hj hj'
        simp only [upd] at hj hj'
        split at hj <;> split at hj' <;> try cases hj
        · cases hj'
        · exact hw.inj _ _ _ ‹_› ‹_›

end Verif.Conc

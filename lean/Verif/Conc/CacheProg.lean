import Verif.Conc.Machine
import Verif.Cache.Spec
import Verif.Cache.Frame
/-!
# The cache calls as programs of atomic steps

Source: cache/cachestring.go, cache/cachedb.go, cache/cacheutil.go.  One step per `sync.Map`
method call and per `time.Now()`.  Hash calls are in `Conc/HashProg`; List is a stub; the cron
sweep is not included (`unsupported`).
-/
namespace Verif.Conc
open Cache

/-- Shared state: the two maps and the clock. -/
structure World where
  c : Cache
  now : Int

abbrev P (α : Type) := Prog World α

def step {α : Type} (f : Cache → Int → Cache × α) : P α :=
  Prog.atomic (fun w => ({ w with c := (f w.c w.now).1 }, (f w.c w.now).2))

/-- `c.dataDict.Load(k)` -/
def loadData (k : Bytes) : P (Option Val) := step (fun c _ => (c, c.data k))
/-- `c.dataDict.Store(k, v)` -/
def storeData (k : Bytes) (v : Val) : P Unit := step (fun c _ => (c.store k v, ()))
/-- `c.dataDict.LoadOrStore(k, v)`: the old value, if any -/
def loadOrStore (k : Bytes) (v : Val) : P (Option Val) :=
  step (fun c _ => match c.data k with
    | some w => (c, some w)
    | none => (c.store k v, none))
/-- `c.dataDict.Delete(k)` -/
def delData (k : Bytes) : P Unit := step (fun c _ => ({ c with data := upd c.data k none }, ()))
/-- `c.expiresDict.Load(k)` -/
def loadExp (k : Bytes) : P (Option Int) := step (fun c _ => (c, c.exp k))
/-- `c.expiresDict.Store(k, d)` -/
def storeExp (k : Bytes) (d : Int) : P Unit := step (fun c _ => ({ c with exp := upd c.exp k (some d) }, ()))
/-- `c.expiresDict.Delete(k)` -/
def delExp (k : Bytes) : P Unit := step (fun c _ => ({ c with exp := upd c.exp k none }, ()))
/-- `time.Now()` -/
def clock : P Int := step (fun c n => (c, n))

/-- cache/cacheutil.go:6-24 `expired`. -/
def expiredP (k : Bytes) : P Bool := do
  match ← loadExp k with
  | none => pure false
  | some d =>
    let n ← clock
    if d < n then do delData k; delExp k; pure true else pure false

/-- cache/cacheutil.go:28-34 `expires`. -/
def expiresP (k : Bytes) (dur : Int64) : P Unit :=
  if dur.toInt ≤ 0 then delExp k
  else do
    let n ← clock
    storeExp k (n + dur.toInt)

/-- cache/cacheutil.go:36-48 `get`; also `Load` followed by `expired` (cachestring.go:119,135,160,199). -/
def getP (k : Bytes) : P (Option Val) := do
  match ← loadData k with
  | none => pure none
  | some v => if ← expiredP k then pure none else pure (some v)

/-- cache/cachestring.go:241-272 `incrBy`. -/
def incrByP (k : Bytes) (n : Int64) : P (Res Int64) := do
  match ← loadOrStore k (.scalar (.int64 n)) with
  | none => pure (.ok n)
  | some (.scalar v) =>
    match incrScalar n v with
    | some (w, m) => do storeData k (.scalar w); pure (.ok m)
    | none => pure (.err .wrongType)
  | some _ => pure (.err .wrongType)

/-- cache/cachestring.go:316-318, the loop of `MSet`. -/
def mSetP : List (Bytes × Bytes) → P Unit
  | [] => pure ()
  | (k, v) :: kv => do storeData k (.scalar (tryInt64 v)); mSetP kv

/-- cache/cachestring.go:329-333, the loop of `MSetNX`. -/
def mSetNXP : List (Bytes × Bytes) → Int → P Int
  | [], n => pure n
  | (k, v) :: kv, n => do
    match ← loadOrStore k (.scalar (tryInt64 v)) with
    | some _ => mSetNXP kv n
    | none => mSetNXP kv (n + 1)

/-- cache/cachestring.go:343-354, the loop of `MGet`. -/
def mGetP : List Bytes → P (List (Res Bytes))
  | [] => pure []
  | k :: ks => do
    let v ← getP k
    let rs ← mGetP ks
    pure ((match v with | none => .err .keyNil | some v => fmtString v) :: rs)

/-- cache/cachedb.go:25-29, the loop of `Exists`. -/
def existsP : List Bytes → Int → P Int
  | [], n => pure n
  | k :: ks, n => do
    match ← loadData k with
    | some _ => existsP ks (n + 1)
    | none => existsP ks n

/-- The body of each call between lock and unlock. -/
def prog : Call → P Out
  | .set k v => do storeData k (.scalar (tryInt64 v)); pure (.str (.ok OK))
  | .setNX k v => do
    match ← loadOrStore k (.scalar (tryInt64 v)) with
    | some _ => pure (.int (.ok 0))
    | none => pure (.int (.ok 1))
  | .setEX k v n => do
    storeData k (.scalar (tryInt64 v)); expiresP k (1000000000 * n); pure (.str (.ok OK))
  | .pSetEX k v n => do
    storeData k (.scalar (tryInt64 v)); expiresP k (1000000 * n); pure (.str (.ok OK))
  | .get k => do
    match ← getP k with
    | none => pure (.str (.err .keyNil))
    | some v => pure (.str (fmtString v))
  | .getSet k v => do
    let old ← getP k
    storeData k (.scalar (tryInt64 v))
    match old with
    | none => pure (.str (.err .keyNil))
    | some o => pure (.str (fmtString o))
  | .strLen k => do
    match ← getP k with
    | none => pure (.int (.ok 0))
    | some v => pure (.int ((fmtString v).map (fun s => (s.length : Int))))
  | .append k v => do
    match ← getP k with
    | none => do storeData k (.scalar (tryInt64 v)); pure (.int (.ok v.length))
    | some old =>
      match fmtString old with
      | .ok s => do storeData k (.scalar (tryInt64 (s ++ v))); pure (.int (.ok (s ++ v).length))
      | .err e => pure (.int (.err e))
      | .panic => pure (.int .panic)
  | .setRange k pos r =>
    if pos.toInt < 0 then pure (.int (.err .offsetOutOfRange))
    else do
      let p := pos.toInt.toNat
      match ← getP k with
      | none => if maxAlloc < pos.toInt then pure (.int .panic) else do
        storeData k (.scalar (tryInt64 (List.replicate p 0 ++ r)))
        pure (.int (.ok (List.replicate p 0 ++ r).length))
      | some old =>
        match fmtString old with
        | .ok o => if maxAlloc < pos.toInt then pure (.int .panic) else do
          storeData k (.scalar (tryInt64 (writeLoop p r (padLoop (p - o.length) o))))
          pure (.int (.ok (writeLoop p r (padLoop (p - o.length) o)).length))
        | .err e => pure (.int (.err e))
        | .panic => pure (.int .panic)
  | .getRange k a b => do
    match ← getP k with
    | none => pure (.str (.ok []))
    | some v => pure (.str ((fmtString v).map (fun s => subRange s a b)))
  | .incr k => do let r ← incrByP k 1; pure (.int (r.map Int64.toInt))
  | .incrBy k n => do let r ← incrByP k n; pure (.int (r.map Int64.toInt))
  | .decr k => do let r ← incrByP k (-1); pure (.int (r.map Int64.toInt))
  | .decrBy k n => do let r ← incrByP k (-n); pure (.int (r.map Int64.toInt))
  | .incrByFloat k x => do
    match ← loadOrStore k (.scalar (.float x)) with
    | none => pure (.float (.ok x))
    | some (.scalar (.float v)) => do storeData k (.scalar (.float (v.add x))); pure (.float (.ok (v.add x)))
    | some (.scalar (.int n)) => do
      storeData k (.scalar (.float ((F64.ofInt n.toInt).add x)))
      pure (.float (.ok ((F64.ofInt n.toInt).add x)))
    | some _ => pure (.float (.err .wrongType))
  | .mSet kv => do mSetP kv; pure (.str (.ok OK))
  | .mSetNX kv => do let n ← mSetNXP kv 0; pure (.int (.ok n))
  | .mGet ks => do let rs ← mGetP ks; pure (.slots (.ok rs))
  | .del k => do
    let v ← getP k
    delData k
    delExp k
    pure (.int (.ok (if v.isSome then 1 else 0)))
  | .flush => do
    step (fun c _ => ({ c with data := fun _ => none }, ()))
    step (fun c _ => ({ c with exp := fun _ => none }, ()))
    pure .unit
  | .exists_ ks => do let n ← existsP ks 0; pure (.int (.ok n))
  | .type k => do
    match ← getP k with
    | none => pure (.str (.ok b!"none"))
    | some _ => pure (.str (.ok b!"string"))
  | _ => pure .panic

/-- Lock use of each call (first lines of each method in cachestring.go and cachedb.go). -/
def mode : Call → Mode
  | .set .. | .setNX .. | .setEX .. | .pSetEX .. | .getSet .. | .append .. | .setRange .. | .incr .. | .incrBy ..
  | .incrByFloat .. | .decr .. | .decrBy .. | .del .. | .flush => .write
  | .get .. | .strLen .. | .getRange .. => .read
  | .mSet .. | .mSetNX .. | .mGet .. | .exists_ .. | .type .. => .unlocked
  | _ => .unsupported

theorem exclusive_mode {op : Call} (h : op.exclusive = true) : mode op = .write := by
  cases op <;> first | rfl | cases h

theorem look_mode {op : Call} (h : op.look = true) : mode op = .read := by
  cases op <;> first | rfl | cases h

/-- The machine for the cache: the clock never runs backwards. -/
def spec : Spec World Call Out :=
  { prog := prog, mode := mode, tick := fun s s' => s'.c = s.c ∧ s.now ≤ s'.now }

abbrev Cfg := Config World Call Out

/-- Run alone from cache `c` at clock ≥ `now` (the clock may move between steps), `p` ends with
the effect and answer of one sequential call `op` on `c0` at some clock reading of the run. -/
def Good (c0 : Cache) (op : Call) (lo : Int) : P Out → Cache → Int → Prop
  | .ret o, c, now => ∃ t, lo ≤ t ∧ t ≤ now ∧ exec c0 t op = (c, o)
  | .act u k, c, now => ∀ n, now ≤ n → (u ⟨c, n⟩).now = n ∧ Good c0 op lo (k ⟨c, n⟩) (u ⟨c, n⟩).c n

theorem Good.later {c0 : Cache} {op : Call} {lo now n : Int} {p : P Out} {c : Cache}
    (h : Good c0 op lo p c now) (hn : now ≤ n) : Good c0 op lo p c n := by
  cases p with
  | ret o => obtain ⟨t, h1, h2, h3⟩ := h; exact ⟨t, h1, by omega, h3⟩
  | act u k => exact fun m hm => h m (by omega)

theorem good_step {α : Type} {c0 : Cache} {op : Call} {lo now : Int} {f : Cache → Int → Cache × α}
    {g : α → P Out} {c : Cache} (h : ∀ n, now ≤ n → Good c0 op lo (g (f c n).2) (f c n).1 n) :
    Good c0 op lo (step f >>= g) c now := fun n hn => ⟨rfl, h n hn⟩

/-- `expired` behaves as if it ran at one clock reading. -/
theorem good_expiredP {c0 : Cache} {op : Call} {lo now : Int} {k : Bytes} {g : Bool → P Out} {c : Cache}
    (h : ∀ t n, now ≤ t → t ≤ n → Good c0 op lo (g (c.expired t k).2) (c.expired t k).1 n) :
    Good c0 op lo (expiredP k >>= g) c now := by
  unfold expiredP loadExp
  rw [Prog.assoc]
  refine good_step (fun n hn => ?_)
  cases he : c.exp k with
  | none =>
    have := h n n hn (Int.le_refl _)
    simpa [expired, he] using this
  | some d =>
    simp only [clock]
    rw [Prog.assoc]
    refine good_step (fun m hm => ?_)
    by_cases hd : d < m
    · simp only [hd, if_true, delData, delExp]
      rw [Prog.assoc]
      refine good_step (fun m1 h1 => ?_)
      rw [Prog.assoc]
      refine good_step (fun m2 h2 => ?_)
      have := h m m2 (by omega) (by omega)
      simpa [expired, he, hd] using this
    · simp only [hd, if_false]
      have := h m m (by omega) (Int.le_refl _)
      simpa [expired, he, hd] using this

/-- `get` behaves as if it ran at one clock reading. -/
theorem good_getP {c0 : Cache} {op : Call} {lo now : Int} {k : Bytes} {g : Option Val → P Out} {c : Cache}
    (h : ∀ t n, now ≤ t → t ≤ n → Good c0 op lo (g (c.load t k).2) (c.load t k).1 n) :
    Good c0 op lo (getP k >>= g) c now := by
  unfold getP loadData
  rw [Prog.assoc]
  refine good_step (fun n hn => ?_)
  cases hd : c.data k with
  | none =>
    have := h n n hn (Int.le_refl _)
    simpa [load, hd] using this
  | some v =>
    simp only
    rw [Prog.assoc]
    refine good_expiredP (fun t m ht hm => ?_)
    have := h t m (by omega) hm
    simp only [load, hd] at this
    generalize c.expired t k = q at this ⊢
    obtain ⟨c', b⟩ := q
    cases b <;> simpa using this

theorem good_ret {c0 : Cache} {op : Call} {lo t now : Int} {o : Out} {c : Cache}
    (h1 : lo ≤ t) (h2 : t ≤ now) (h3 : exec c0 t op = (c, o)) : Good c0 op lo (.ret o) c now := ⟨t, h1, h2, h3⟩

theorem good_incrByP {c0 : Cache} {op : Call} {k : Bytes} {d : Int64} {lo : Int}
    (h : ∀ t, exec c0 t op = ((c0.incrBy k d).1, .int ((c0.incrBy k d).2.map Int64.toInt))) :
    Good c0 op lo (incrByP k d >>= fun r => .ret (.int (r.map Int64.toInt))) c0 lo := by
  unfold incrByP loadOrStore
  rw [Prog.assoc]
  refine good_step (fun n hn => ?_)
  have hn' := h n
  unfold incrBy at hn'
  cases hd : c0.data k with
  | none => simp only [hd] at hn' ⊢; exact good_ret hn (Int.le_refl _) hn'
  | some v =>
    cases v with
    | scalar v =>
      simp only [hd] at hn' ⊢
      cases hi : incrScalar d v with
      | none => simp only [hi] at hn' ⊢; exact good_ret hn (Int.le_refl _) hn'
      | some p =>
        obtain ⟨w, m⟩ := p
        simp only [hi, storeData] at hn' ⊢
        rw [Prog.assoc]
        refine good_step (fun n1 h1 => ?_)
        exact good_ret hn h1 hn'
    | hash _ => simp only [hd] at hn' ⊢; exact good_ret hn (Int.le_refl _) hn'
    | time _ => simp only [hd] at hn' ⊢; exact good_ret hn (Int.le_refl _) hn'

/-- Every locked call, run without interference, is one sequential call. -/
theorem good_prog (c0 : Cache) (lo : Int) (op : Call) (hm : mode op = .write ∨ mode op = .read) :
    Good c0 op lo (prog op) c0 lo := by
  cases op with
  | set k v =>
    exact good_step (fun n hn => good_ret hn (Int.le_refl _) rfl)
  | setNX k v =>
    refine good_step (fun n hn => ?_)
    cases hd : c0.data k <;> simp only [] <;>
      refine good_ret hn (Int.le_refl _) ?_ <;> simp [exec, Cache.setNX, hd, GoRes.map] <;> rfl
  | setEX k v s =>
    refine good_step (fun n hn => ?_)
    unfold expiresP
    split
    · rename_i h
      exact good_step (fun m hm => good_ret (by omega) (Int.le_refl m) (by simp only [exec, Cache.setEX, expires, h, if_true]))
    · rename_i h
      rw [Prog.assoc]
      refine good_step (fun m hm => ?_)
      exact good_step (fun m' hm' => good_ret (t := m) (by omega) (by omega) (by simp only [exec, Cache.setEX, expires, h, if_false]))
  | pSetEX k v s =>
    refine good_step (fun n hn => ?_)
    unfold expiresP
    split
    · rename_i h
      exact good_step (fun m hm => good_ret (by omega) (Int.le_refl m) (by simp only [exec, Cache.pSetEX, expires, h, if_true]))
    · rename_i h
      rw [Prog.assoc]
      refine good_step (fun m hm => ?_)
      exact good_step (fun m' hm' => good_ret (t := m) (by omega) (by omega) (by simp only [exec, Cache.pSetEX, expires, h, if_false]))
  | get k =>
    refine good_getP (fun t n ht hn => ?_)
    cases hd : c0.load t k with
    | mk c' o => cases o <;> exact good_ret ht hn (by simp [exec, Cache.get, hd])
  | getSet k v =>
    refine good_getP (fun t n ht hn => ?_)
    refine good_step (fun m hm => ?_)
    cases hd : c0.load t k with
    | mk c' o => cases o <;> exact good_ret ht (by omega : t ≤ m) (by simp [exec, Cache.getSet, hd])
  | strLen k =>
    refine good_getP (fun t n ht hn => ?_)
    cases hd : c0.load t k with
    | mk c' o => cases o <;> exact good_ret ht hn (by simp [exec, Cache.strLen, loadLive, hd])
  | append k v =>
    refine good_getP (fun t n ht hn => ?_)
    cases hd : c0.load t k with
    | mk c' o =>
      cases o with
      | none =>
        exact good_step (fun m hm => good_ret ht (by omega : t ≤ m) (by simp [exec, Cache.append, loadLive, hd]))
      | some old =>
        simp only []
        cases hf : fmtString old with
        | ok s =>
          exact good_step (fun m hm => good_ret ht (by omega : t ≤ m) (by simp [exec, Cache.append, loadLive, hd, hf]))
        | err e => exact good_ret ht hn (by simp [exec, Cache.append, loadLive, hd, hf])
        | panic => exact good_ret ht hn (by simp [exec, Cache.append, loadLive, hd, hf])
  | setRange k p r =>
    simp only [prog]
    split
    · rename_i h; exact good_ret (Int.le_refl _) (Int.le_refl _) (by simp only [exec, Cache.setRange, h, if_true])
    rename_i h0
    refine good_getP (fun t n ht hn => ?_)
    cases hd : c0.load t k with
    | mk c' o =>
      cases o with
      | none =>
        simp only []
        split
        · rename_i h1; exact good_ret ht hn (by simp only [exec, Cache.setRange, loadLive, hd, h0, h1, if_false, if_true])
        rename_i h1
        exact good_step (fun m hm => good_ret ht (by omega : t ≤ m) (by simp only [exec, Cache.setRange, loadLive, hd, h0, h1, if_false]))
      | some old =>
        simp only []
        cases hf : fmtString old with
        | ok s =>
          simp only []
          split
          · rename_i h1; exact good_ret ht hn (by simp only [exec, Cache.setRange, loadLive, hd, hf, h0, h1, if_false, if_true])
          rename_i h1
          exact good_step (fun m hm => good_ret ht (by omega : t ≤ m) (by simp only [exec, Cache.setRange, loadLive, hd, hf, h0, h1, if_false]))
        | err e => exact good_ret ht hn (by simp only [exec, Cache.setRange, loadLive, hd, hf, h0, if_false])
        | panic => exact good_ret ht hn (by simp only [exec, Cache.setRange, loadLive, hd, hf, h0, if_false])
  | getRange k a b =>
    refine good_getP (fun t n ht hn => ?_)
    cases hd : c0.load t k with
    | mk c' o => cases o <;> exact good_ret ht hn (by simp [exec, Cache.getRange, loadLive, hd])
  | incr k => exact good_incrByP (fun t => rfl)
  | incrBy k n => exact good_incrByP (fun t => rfl)
  | decr k => exact good_incrByP (fun t => rfl)
  | decrBy k n => exact good_incrByP (fun t => rfl)
  | incrByFloat k x =>
    refine good_step (fun n hn => ?_)
    cases hd : c0.data k with
    | none => exact good_ret hn (Int.le_refl _) (by simp [exec, Cache.incrByFloat, hd])
    | some v =>
      rcases v with v | h | t
      · cases v
        all_goals
          first
          | exact good_ret hn (Int.le_refl _) (by simp [exec, Cache.incrByFloat, hd])
          | exact good_step (fun m hm => good_ret hn hm (by simp [exec, Cache.incrByFloat, hd]))
      · exact good_ret hn (Int.le_refl _) (by simp [exec, Cache.incrByFloat, hd])
      · exact good_ret hn (Int.le_refl _) (by simp [exec, Cache.incrByFloat, hd])
  | del k =>
    refine good_getP (fun t n ht hn => ?_)
    refine good_step (fun m hm => ?_)
    refine good_step (fun m' hm' => ?_)
    exact good_ret ht (by omega : t ≤ m') (by simp [exec, Cache.del])
  | flush =>
    refine good_step (fun m hm => ?_)
    refine good_step (fun m' hm' => ?_)
    exact good_ret hm hm' (by simp [exec, Cache.flush, Cache.new])
  | _ => simp [mode] at hm

end Verif.Conc

import Verif.Repl.Race
/-!
# C117: the goroutines of New do not race
-/
namespace Verif.Repl.Race

open Verif.Resp

/-- What a goroutine may do after `New` has started the handler. -/
def Later : Ev → Prop
  | ⟨.main, .acc l w⟩ => w = false ∧ (l = .replDatabase ∨ l = .replMessages ∨ l = .clientOption ∨ l = .clientRedis ∨ l = .clientCache) ∨
      l = .replId ∨ l = .replOffset ∨ l = .replDatabase ∨ l = .clientRedis ∨ ∃ n, l = .msg n
  | ⟨.hand, .acc l w⟩ => w = false ∧ (l = .clientOption ∨ l = .clientCache ∨ ∃ n, l = .msg n)
  | ⟨.recv, .acc l w⟩ => w = false ∧ (l = .replConn ∨ l = .replMessages ∨ l = .replErr) ∨ l = .reader ∨ l = .replLastPing ∨ ∃ n, l = .msg n
  | ⟨.ack, .acc l w⟩ => w = false ∧ (l = .replConn ∨ l = .replOffset ∨ l = .replErr) ∨ l = .writer
  | _ => True

/-- How far things are: messages sent, `Ack` started, `WaitForMessage` started, still loading. -/
structure Stage where
  sent : Nat
  ackOn : Bool
  recvOn : Bool
  loading : Bool

/-- What is known of everything that was done. -/
structure TInv (tr : List Ev) (p : Stage) : Prop where
  prefix_ : boot <+: tr
  later : ∀ (i : Nat) (e : Ev), boot.length ≤ i → tr[i]? = some e → Later e
  ack : ∀ (i : Nat) (a : Act), tr[i]? = some ⟨.ack, a⟩ → ∃ k, k < i ∧ tr[k]? = some ⟨.main, .go .ack⟩
  ackOn : p.ackOn = true → ∃ k : Nat, tr[k]? = some ⟨.main, .go .ack⟩
  recv : ∀ (i : Nat) (a : Act), tr[i]? = some ⟨.recv, a⟩ → ∃ k, k < i ∧ tr[k]? = some ⟨.main, .go .recv⟩
  recvOn : p.recvOn = true → ∃ k : Nat, tr[k]? = some ⟨.main, .go .recv⟩
  noAck : p.loading = true → ∀ (k : Nat) (g : Gor), tr[k]? ≠ some ⟨g, .go .ack⟩
  offset : ∀ (i k : Nat) (g : Gor), tr[i]? = some ⟨.main, .acc .replOffset true⟩ → tr[k]? = some ⟨g, .go .ack⟩ → i < k
  written : ∀ (i : Nat) (g : Gor) (n : Nat), tr[i]? = some ⟨g, .acc (.msg n) true⟩ → n < p.sent ∧ tr[i + 1]? = some ⟨g, .send n⟩
  once : ∀ (i j : Nat) (g h : Gor) (n : Nat), tr[i]? = some ⟨g, .acc (.msg n) true⟩ → tr[j]? = some ⟨h, .acc (.msg n) true⟩ → i = j
  received : ∀ (k : Nat) (g : Gor) (n : Nat), tr[k]? = some ⟨g, .recv n⟩ → n < p.sent ∧
    ∀ (i : Nat) (h : Gor), tr[i]? = some ⟨h, .acc (.msg n) true⟩ → i + 1 < k
  read : ∀ (i : Nat) (g : Gor) (n : Nat), tr[i]? = some ⟨g, .acc (.msg n) false⟩ → ∃ k, k < i ∧ tr[k]? = some ⟨g, .recv n⟩

theorem getElem?_lt {α : Type} {a : List α} {i : Nat} {x : α} (h : a[i]? = some x) : i < a.length := (List.getElem?_eq_some_iff.mp h).1

theorem getElem?_append_of {α : Type} {a : List α} {i : Nat} {x : α} (h : a[i]? = some x) (b : List α) : (a ++ b)[i]? = some x := by
  rw [List.getElem?_append_left (getElem?_lt h)]; exact h

theorem getElem?_snoc {α : Type} {a : List α} {y : α} {i : Nat} {x : α} (h : (a ++ [y])[i]? = some x) :
    a[i]? = some x ∨ (i = a.length ∧ y = x) := by
  by_cases hi : i < a.length
  · exact .inl (by rwa [List.getElem?_append_left hi] at h)
  · have := getElem?_lt h
    simp only [List.length_append, List.length_singleton] at this
    obtain rfl : i = a.length := by omega
    exact .inr ⟨rfl, by simpa using h⟩

theorem boot_len {tr : List Ev} {p : Stage} (h : TInv tr p) : boot.length ≤ tr.length := h.prefix_.length_le

/-- Adding an access to anything but a message, or a send. -/
theorem TInv.plain {tr : List Ev} {p : Stage} (h : TInv tr p) {e : Ev} (hl : Later e)
    (h1 : e.by_ = .ack → p.ackOn = true) (h2 : e.by_ = .recv → p.recvOn = true) (h3 : ∀ w, e.act = .acc .replOffset w → w = true → p.loading = true)
    (h4 : (∃ l w, e.act = .acc l w ∧ ∀ n, l ≠ .msg n)) : TInv (tr ++ [e]) p := by
  obtain ⟨l, w, he, hm⟩ := h4
  obtain ⟨g, a⟩ := e
  simp only at he h1 h2 h3
  subst he
  constructor
  · exact h.prefix_.trans (List.prefix_append _ _)
  · intro i e hi h'
    rcases getElem?_snoc h' with h' | ⟨rfl, rfl⟩
    · exact h.later i e hi h'
    · exact hl
  · intro i a h'
    rcases getElem?_snoc h' with h' | ⟨hi, h'⟩
    · obtain ⟨k, a, b⟩ := h.ack i a h'
      exact ⟨k, a, getElem?_append_of b _⟩
    · cases h'
      obtain ⟨k, hk⟩ := h.ackOn (h1 rfl)
      exact ⟨k, hi ▸ getElem?_lt hk, getElem?_append_of hk _⟩
  · intro h'
    obtain ⟨k, hk⟩ := h.ackOn h'
    exact ⟨k, getElem?_append_of hk _⟩
  · intro i a h'
    rcases getElem?_snoc h' with h' | ⟨hi, h'⟩
    · obtain ⟨k, a, b⟩ := h.recv i a h'
      exact ⟨k, a, getElem?_append_of b _⟩
    · cases h'
      obtain ⟨k, hk⟩ := h.recvOn (h2 rfl)
      exact ⟨k, hi ▸ getElem?_lt hk, getElem?_append_of hk _⟩
  · intro h'
    obtain ⟨k, hk⟩ := h.recvOn h'
    exact ⟨k, getElem?_append_of hk _⟩
  · intro hlo k g h'
    rcases getElem?_snoc h' with h' | ⟨hi, h'⟩
    · exact h.noAck hlo k g h'
    · cases h'
  · intro i k g h' h''
    rcases getElem?_snoc h'' with h'' | ⟨hj, h''⟩
    · rcases getElem?_snoc h' with h' | ⟨hi, h'⟩
      · exact h.offset i k g h' h''
      · have hlo : p.loading = true := by cases h'; exact h3 _ rfl rfl
        exact absurd h'' (h.noAck hlo k g)
    · cases h''
  · intro i g n h'
    rcases getElem?_snoc h' with h' | ⟨hi, h'⟩
    · obtain ⟨a, b⟩ := h.written i g n h'
      exact ⟨a, getElem?_append_of b _⟩
    · cases h'
      exact absurd rfl (hm n)
  · intro i j g g' n h' h''
    rcases getElem?_snoc h' with h' | ⟨hi, h'⟩
    · rcases getElem?_snoc h'' with h'' | ⟨hj, h''⟩
      · exact h.once i j g g' n h' h''
      · cases h''; exact absurd rfl (hm n)
    · cases h'; exact absurd rfl (hm n)
  · intro k g n h'
    rcases getElem?_snoc h' with h' | ⟨hi, h'⟩
    · obtain ⟨a, b⟩ := h.received k g n h'
      refine ⟨a, fun i g' h'' => ?_⟩
      rcases getElem?_snoc h'' with h'' | ⟨hj, h''⟩
      · exact b i g' h''
      · cases h''; exact absurd rfl (hm n)
    · cases h'
  · intro i g n h'
    rcases getElem?_snoc h' with h' | ⟨hi, h'⟩
    · obtain ⟨k, a, b⟩ := h.read i g n h'
      exact ⟨k, a, getElem?_append_of b _⟩
    · cases h'; exact absurd rfl (hm n)

/-- `go repl.Ack()` -/
theorem TInv.goAck {tr : List Ev} {p : Stage} (h : TInv tr p) : TInv (tr ++ [⟨.main, .go .ack⟩]) { p with ackOn := true, loading := false } := by
  constructor
  · exact h.prefix_.trans (List.prefix_append _ _)
  · intro i e hi h'
    rcases getElem?_snoc h' with h' | ⟨rfl, rfl⟩
    · exact h.later i e hi h'
    · trivial
  · intro i a h'
    rcases getElem?_snoc h' with h' | ⟨hi, h'⟩
    · obtain ⟨k, a, b⟩ := h.ack i a h'
      exact ⟨k, a, getElem?_append_of b _⟩
    · cases h'
  · intro _
    exact ⟨tr.length, by simp⟩
  · intro i a h'
    rcases getElem?_snoc h' with h' | ⟨hi, h'⟩
    · obtain ⟨k, a, b⟩ := h.recv i a h'
      exact ⟨k, a, getElem?_append_of b _⟩
    · cases h'
  · intro h'
    obtain ⟨k, hk⟩ := h.recvOn h'
    exact ⟨k, getElem?_append_of hk _⟩
  · intro hlo; cases hlo
  · intro i k g h' h''
    rcases getElem?_snoc h' with h' | ⟨hi, h'⟩
    · rcases getElem?_snoc h'' with h'' | ⟨hj, h''⟩
      · exact h.offset i k g h' h''
      · exact hj ▸ getElem?_lt h'
    · cases h'
  · intro i g n h'
    rcases getElem?_snoc h' with h' | ⟨hi, h'⟩
    · obtain ⟨a, b⟩ := h.written i g n h'
      exact ⟨a, getElem?_append_of b _⟩
    · cases h'
  · intro i j g g' n h' h''
    rcases getElem?_snoc h' with h' | ⟨hi, h'⟩
    · rcases getElem?_snoc h'' with h'' | ⟨hj, h''⟩
      · exact h.once i j g g' n h' h''
      · cases h''
    · cases h'
  · intro k g n h'
    rcases getElem?_snoc h' with h' | ⟨hi, h'⟩
    · obtain ⟨a, b⟩ := h.received k g n h'
      refine ⟨a, fun i g' h'' => ?_⟩
      rcases getElem?_snoc h'' with h'' | ⟨hj, h''⟩
      · exact b i g' h''
      · cases h''
    · cases h'
  · intro i g n h'
    rcases getElem?_snoc h' with h' | ⟨hi, h'⟩
    · obtain ⟨k, a, b⟩ := h.read i g n h'
      exact ⟨k, a, getElem?_append_of b _⟩
    · cases h'

/-- `go repl.WaitForMessage()` -/
theorem TInv.goRecv {tr : List Ev} {p : Stage} (h : TInv tr p) : TInv (tr ++ [⟨.main, .go .recv⟩]) { p with recvOn := true } := by
  constructor
  · exact h.prefix_.trans (List.prefix_append _ _)
  · intro i e hi h'
    rcases getElem?_snoc h' with h' | ⟨rfl, rfl⟩
    · exact h.later i e hi h'
    · trivial
  · intro i a h'
    rcases getElem?_snoc h' with h' | ⟨hi, h'⟩
    · obtain ⟨k, a, b⟩ := h.ack i a h'
      exact ⟨k, a, getElem?_append_of b _⟩
    · cases h'
  · intro h'
    obtain ⟨k, hk⟩ := h.ackOn h'
    exact ⟨k, getElem?_append_of hk _⟩
  · intro i a h'
    rcases getElem?_snoc h' with h' | ⟨hi, h'⟩
    · obtain ⟨k, a, b⟩ := h.recv i a h'
      exact ⟨k, a, getElem?_append_of b _⟩
    · cases h'
  · intro _
    exact ⟨tr.length, by simp⟩
  · intro hlo k g h'
    rcases getElem?_snoc h' with h' | ⟨hi, h'⟩
    · exact h.noAck hlo k g h'
    · cases h'
  · intro i k g h' h''
    rcases getElem?_snoc h' with h' | ⟨hi, h'⟩
    · rcases getElem?_snoc h'' with h'' | ⟨hj, h''⟩
      · exact h.offset i k g h' h''
      · exact hj ▸ getElem?_lt h'
    · cases h'
  · intro i g n h'
    rcases getElem?_snoc h' with h' | ⟨hi, h'⟩
    · obtain ⟨a, b⟩ := h.written i g n h'
      exact ⟨a, getElem?_append_of b _⟩
    · cases h'
  · intro i j g g' n h' h''
    rcases getElem?_snoc h' with h' | ⟨hi, h'⟩
    · rcases getElem?_snoc h'' with h'' | ⟨hj, h''⟩
      · exact h.once i j g g' n h' h''
      · cases h''
    · cases h'
  · intro k g n h'
    rcases getElem?_snoc h' with h' | ⟨hi, h'⟩
    · obtain ⟨a, b⟩ := h.received k g n h'
      refine ⟨a, fun i g' h'' => ?_⟩
      rcases getElem?_snoc h'' with h'' | ⟨hj, h''⟩
      · exact b i g' h''
      · cases h''
    · cases h'
  · intro i g n h'
    rcases getElem?_snoc h' with h' | ⟨hi, h'⟩
    · obtain ⟨k, a, b⟩ := h.read i g n h'
      exact ⟨k, a, getElem?_append_of b _⟩
    · cases h'

/-- `message := <-repl.Messages`, and reading it -/
theorem TInv.take {tr : List Ev} {p : Stage} (h : TInv tr p) {n : Nat} (hn : n < p.sent) :
    TInv (tr ++ [⟨.hand, .recv n⟩, rd .hand (.msg n)]) p := by
  have e : ∀ x y : Ev, tr ++ [x, y] = (tr ++ [x]) ++ [y] := by simp
  rw [e]
  have cs : ∀ {i : Nat} {x : Ev}, (tr ++ [⟨.hand, .recv n⟩] ++ [rd .hand (.msg n)])[i]? = some x →
      tr[i]? = some x ∨ (i = tr.length ∧ (⟨.hand, .recv n⟩ : Ev) = x) ∨ (i = tr.length + 1 ∧ rd .hand (.msg n) = x) := by
    intro i x h
    rcases getElem?_snoc h with h | ⟨h, h'⟩
    · rcases getElem?_snoc h with h | h
      · exact .inl h
      · exact .inr (.inl h)
    · exact .inr (.inr ⟨by simpa using h, h'⟩)
  have up : ∀ {i : Nat} {x : Ev}, tr[i]? = some x → (tr ++ [⟨.hand, .recv n⟩] ++ [rd .hand (.msg n)])[i]? = some x := by
    intro i x h
    exact getElem?_append_of (getElem?_append_of h _) _
  constructor
  · exact (h.prefix_.trans (List.prefix_append _ _)).trans (List.prefix_append _ _)
  · intro i e hi h'
    rcases cs h' with h' | ⟨_, rfl⟩ | ⟨_, rfl⟩
    · exact h.later i e hi h'
    · trivial
    · exact ⟨rfl, .inr (.inr ⟨n, rfl⟩)⟩
  · intro i a h'
    rcases cs h' with h' | ⟨_, h'⟩ | ⟨_, h'⟩
    · obtain ⟨k, a, b⟩ := h.ack i a h'
      exact ⟨k, a, up b⟩
    · cases h'
    · cases h'
  · intro h'
    obtain ⟨k, hk⟩ := h.ackOn h'
    exact ⟨k, up hk⟩
  · intro i a h'
    rcases cs h' with h' | ⟨_, h'⟩ | ⟨_, h'⟩
    · obtain ⟨k, a, b⟩ := h.recv i a h'
      exact ⟨k, a, up b⟩
    · cases h'
    · cases h'
  · intro h'
    obtain ⟨k, hk⟩ := h.recvOn h'
    exact ⟨k, up hk⟩
  · intro hlo k g h'
    rcases cs h' with h' | ⟨_, h'⟩ | ⟨_, h'⟩
    · exact h.noAck hlo k g h'
    · cases h'
    · cases h'
  · intro i k g h' h''
    rcases cs h' with h' | ⟨_, h'⟩ | ⟨_, h'⟩
    · rcases cs h'' with h'' | ⟨_, h''⟩ | ⟨_, h''⟩
      · exact h.offset i k g h' h''
      · cases h''
      · cases h''
    · cases h'
    · cases h'
  · intro i g m h'
    rcases cs h' with h' | ⟨_, h'⟩ | ⟨_, h'⟩
    · obtain ⟨a, b⟩ := h.written i g m h'
      exact ⟨a, up b⟩
    · cases h'
    · cases h'
  · intro i j g g' m h' h''
    rcases cs h' with h' | ⟨_, h'⟩ | ⟨_, h'⟩
    · rcases cs h'' with h'' | ⟨_, h''⟩ | ⟨_, h''⟩
      · exact h.once i j g g' m h' h''
      · cases h''
      · cases h''
    · cases h'
    · cases h'
  · intro k g m h'
    rcases cs h' with h' | ⟨hk, h'⟩ | ⟨_, h'⟩
    · obtain ⟨a, b⟩ := h.received k g m h'
      refine ⟨a, fun i g' h'' => ?_⟩
      rcases cs h'' with h'' | ⟨_, h''⟩ | ⟨_, h''⟩
      · exact b i g' h''
      · cases h''
      · cases h''
    · cases h'
      refine ⟨hn, fun i g' h'' => ?_⟩
      rcases cs h'' with h'' | ⟨_, h''⟩ | ⟨_, h''⟩
      · have := getElem?_lt (h.written i g' _ h'').2
        omega
      · cases h''
      · cases h''
    · cases h'
  · intro i g m h'
    rcases cs h' with h' | ⟨_, h'⟩ | ⟨hi, h'⟩
    · obtain ⟨k, a, b⟩ := h.read i g m h'
      exact ⟨k, a, up b⟩
    · cases h'
    · cases h'
      exact ⟨tr.length, by omega, by rw [List.append_assoc]; simp⟩

/-- Making the next message and sending it. -/
theorem TInv.put {tr : List Ev} {p : Stage} (h : TInv tr p) {g : Gor} (hg : g = .main ∨ (g = .recv ∧ p.recvOn = true)) :
    TInv (tr ++ [wr g (.msg p.sent), ⟨g, .send p.sent⟩]) { p with sent := p.sent + 1 } := by
  have e : ∀ x y : Ev, tr ++ [x, y] = (tr ++ [x]) ++ [y] := by simp
  rw [e]
  have cs : ∀ {i : Nat} {x : Ev}, (tr ++ [wr g (.msg p.sent)] ++ [⟨g, .send p.sent⟩])[i]? = some x →
      tr[i]? = some x ∨ (i = tr.length ∧ wr g (.msg p.sent) = x) ∨ (i = tr.length + 1 ∧ (⟨g, .send p.sent⟩ : Ev) = x) := by
    intro i x h
    rcases getElem?_snoc h with h | ⟨h, h'⟩
    · rcases getElem?_snoc h with h | h
      · exact .inl h
      · exact .inr (.inl h)
    · exact .inr (.inr ⟨by simpa using h, h'⟩)
  have up : ∀ {i : Nat} {x : Ev}, tr[i]? = some x → (tr ++ [wr g (.msg p.sent)] ++ [⟨g, .send p.sent⟩])[i]? = some x := by
    intro i x h
    exact getElem?_append_of (getElem?_append_of h _) _
  constructor
  · exact (h.prefix_.trans (List.prefix_append _ _)).trans (List.prefix_append _ _)
  · intro i e hi h'
    rcases cs h' with h' | ⟨_, rfl⟩ | ⟨_, rfl⟩
    · exact h.later i e hi h'
    · rcases hg with rfl | ⟨rfl, _⟩
      · exact .inr (.inr (.inr (.inr (.inr ⟨_, rfl⟩))))
      · exact .inr (.inr (.inr ⟨_, rfl⟩))
    · rcases hg with rfl | ⟨rfl, _⟩ <;> trivial
  · intro i a h'
    rcases cs h' with h' | ⟨_, h'⟩ | ⟨_, h'⟩
    · obtain ⟨k, a, b⟩ := h.ack i a h'
      exact ⟨k, a, up b⟩
    · rcases hg with rfl | ⟨rfl, _⟩ <;> cases h'
    · rcases hg with rfl | ⟨rfl, _⟩ <;> cases h'
  · intro h'
    obtain ⟨k, hk⟩ := h.ackOn h'
    exact ⟨k, up hk⟩
  · intro i a h'
    have new : g = .recv → tr.length ≤ i → ∃ k, k < i ∧ (tr ++ [wr g (.msg p.sent)] ++ [⟨g, .send p.sent⟩])[k]? = some ⟨.main, .go .recv⟩ := by
      intro hr hi
      rcases hg with rfl | ⟨_, hon⟩
      · cases hr
      · obtain ⟨k, hk⟩ := h.recvOn hon
        exact ⟨k, Nat.lt_of_lt_of_le (getElem?_lt hk) hi, up hk⟩
    rcases cs h' with h' | ⟨hi, h'⟩ | ⟨hi, h'⟩
    · obtain ⟨k, a, b⟩ := h.recv i a h'
      exact ⟨k, a, up b⟩
    · exact new (by injection h') (by omega)
    · exact new (by injection h') (by omega)
  · intro h'
    obtain ⟨k, hk⟩ := h.recvOn h'
    exact ⟨k, up hk⟩
  · intro hlo k g h'
    rcases cs h' with h' | ⟨_, h'⟩ | ⟨_, h'⟩
    · exact h.noAck hlo k g h'
    · cases h'
    · cases h'
  · intro i k g h' h''
    rcases cs h' with h' | ⟨_, h'⟩ | ⟨_, h'⟩
    · rcases cs h'' with h'' | ⟨_, h''⟩ | ⟨_, h''⟩
      · exact h.offset i k g h' h''
      · cases h''
      · cases h''
    · cases h'
    · cases h'
  · intro i g' m h'
    rcases cs h' with h' | ⟨hi, h'⟩ | ⟨_, h'⟩
    · obtain ⟨a, b⟩ := h.written i g' m h'
      exact ⟨Nat.lt_succ_of_lt a, up b⟩
    · cases h'
      subst hi
      exact ⟨Nat.lt_succ_self _, by simp⟩
    · cases h'
  · intro i j g1 g2 m h' h''
    rcases cs h' with h' | ⟨hi, h'⟩ | ⟨_, h'⟩
    · rcases cs h'' with h'' | ⟨_, h''⟩ | ⟨_, h''⟩
      · exact h.once i j g1 g2 m h' h''
      · cases h''
        exact absurd (h.written i g1 _ h').1 (Nat.lt_irrefl _)
      · cases h''
    · rcases cs h'' with h'' | ⟨hj, h''⟩ | ⟨_, h''⟩
      · cases h'
        exact absurd (h.written j g2 _ h'').1 (Nat.lt_irrefl _)
      · rw [hi, hj]
      · cases h''
    · cases h'
  · intro k g1 m h'
    rcases cs h' with h' | ⟨_, h'⟩ | ⟨_, h'⟩
    · obtain ⟨a, b⟩ := h.received k g1 m h'
      refine ⟨Nat.lt_succ_of_lt a, fun i g' h'' => ?_⟩
      rcases cs h'' with h'' | ⟨_, h''⟩ | ⟨_, h''⟩
      · exact b i g' h''
      · cases h''
        exact absurd a (Nat.lt_irrefl _)
      · cases h''
    · cases h'
    · cases h'
  · intro i g1 m h'
    rcases cs h' with h' | ⟨_, h'⟩ | ⟨_, h'⟩
    · obtain ⟨k, a, b⟩ := h.read i g1 m h'
      exact ⟨k, a, up b⟩
    · cases h'
    · cases h'

/-- An access that is fine at a stage. -/
structure Fine (p : Stage) (e : Ev) : Prop where
  later : Later e
  ack : e.by_ = .ack → p.ackOn = true
  recv : e.by_ = .recv → p.recvOn = true
  offset : ∀ w, e.act = .acc .replOffset w → w = true → p.loading = true
  noMsg : ∃ l w, e.act = .acc l w ∧ ∀ n, l ≠ .msg n

theorem TInv.plains {p : Stage} : ∀ (es : List Ev) {tr : List Ev}, TInv tr p → (∀ e ∈ es, Fine p e) → TInv (tr ++ es) p
  | [], tr, h, _ => by rw [List.append_nil]; exact h
  | e :: es, tr, h, hf => by
    have he := hf e (by simp)
    have := TInv.plains es (h.plain he.later he.ack he.recv he.offset he.noMsg) (fun x hx => hf x (by simp [hx]))
    rwa [List.append_assoc] at this

theorem fine_main_read {p : Stage} {l : Loc} (h : l = .replDatabase ∨ l = .replMessages ∨ l = .clientOption ∨ l = .clientRedis ∨ l = .clientCache) :
    Fine p (rd .main l) := by
  refine ⟨.inl ⟨rfl, h⟩, (by intro h; cases h), (by intro h; cases h), ?_, l, false, rfl, ?_⟩
  · intro w h1 h2; subst h2; cases h1
  · intro n hn; subst hn; simp at h

theorem fine_hand {p : Stage} {l : Loc} (h : l = .clientOption ∨ l = .clientCache) : Fine p (rd .hand l) := by
  refine ⟨⟨rfl, h.elim .inl (fun h => .inr (.inl h))⟩, (by intro h; cases h), (by intro h; cases h), ?_, l, false, rfl, ?_⟩
  · intro w h1 h2; subst h2; cases h1
  · intro n hn; subst hn; simp at h

theorem fine_recv_read {p : Stage} (hp : p.recvOn = true) {l : Loc} (h : l = .replConn ∨ l = .replMessages ∨ l = .replErr ∨ l = .reader) : Fine p (rd .recv l) := by
  refine ⟨?_, (by intro h; cases h), fun _ => hp, ?_, l, false, rfl, ?_⟩
  · rcases h with h | h | h | h
    · exact .inl ⟨rfl, .inl h⟩
    · exact .inl ⟨rfl, .inr (.inl h)⟩
    · exact .inl ⟨rfl, .inr (.inr h)⟩
    · exact .inr (.inl h)
  · intro w h1 h2; subst h2; cases h1
  · intro n hn; subst hn; simp at h

theorem fine_recv_write {p : Stage} (hp : p.recvOn = true) {l : Loc} (h : l = .reader ∨ l = .replLastPing) : Fine p (wr .recv l) := by
  refine ⟨?_, (by intro h; cases h), fun _ => hp, ?_, l, true, rfl, ?_⟩
  · rcases h with h | h
    · exact .inr (.inl h)
    · exact .inr (.inr (.inl h))
  · intro w h1; injection h1 with h1 _; subst h1; simp at h
  · intro n hn; subst hn; simp at h

theorem fine_ack_read {p : Stage} (hp : p.ackOn = true) {l : Loc} (h : l = .replConn ∨ l = .replOffset ∨ l = .replErr ∨ l = .writer) : Fine p (rd .ack l) := by
  refine ⟨?_, fun _ => hp, (by intro h; cases h), ?_, l, false, rfl, ?_⟩
  · rcases h with h | h | h | h
    · exact .inl ⟨rfl, .inl h⟩
    · exact .inl ⟨rfl, .inr (.inl h)⟩
    · exact .inl ⟨rfl, .inr (.inr h)⟩
    · exact .inr h
  · intro w h1 h2; subst h2; cases h1
  · intro n hn; subst hn; simp at h

theorem fine_ack_write {p : Stage} (hp : p.ackOn = true) : Fine p (wr .ack .writer) :=
  ⟨.inr rfl, fun _ => hp, (by intro h; cases h), (by intro w h1; cases h1), _, _, rfl, (by intro n hn; cases hn)⟩

theorem fine_record {p : Stage} (hp : p.loading = true) : ∀ e ∈ record, Fine p e := by
  intro e he
  simp only [record, List.mem_cons, List.not_mem_nil, or_false] at he
  rcases he with rfl | rfl | rfl
  · exact ⟨.inr (.inl rfl), (by intro h; cases h), (by intro h; cases h), fun _ _ _ => hp, _, _, rfl, (by intro n hn; cases hn)⟩
  · exact ⟨.inr (.inr (.inl rfl)), (by intro h; cases h), (by intro h; cases h), fun _ _ _ => hp, _, _, rfl, (by intro n hn; cases hn)⟩
  · exact ⟨.inr (.inr (.inr (.inl rfl))), (by intro h; cases h), (by intro h; cases h), fun _ _ _ => hp, _, _, rfl, (by intro n hn; cases hn)⟩

theorem fine_giveBack {p : Stage} : ∀ e ∈ giveBack, Fine p e := by
  intro e he
  simp only [giveBack, List.mem_cons, List.not_mem_nil, or_false] at he
  rcases he with rfl | rfl | rfl <;> exact fine_main_read (by simp)

theorem fine_receive {p : Stage} (hp : p.recvOn = true) : ∀ e ∈ receive, Fine p e := by
  intro e he
  simp only [receive, List.mem_cons, List.not_mem_nil, or_false] at he
  rcases he with rfl | rfl | rfl
  · exact fine_recv_read hp (by simp)
  · exact fine_recv_read hp (by simp)
  · exact fine_recv_write hp (by simp)

theorem fine_acknowledge {p : Stage} (hp : p.ackOn = true) : ∀ e ∈ acknowledge, Fine p e := by
  intro e he
  simp only [acknowledge, List.mem_cons, List.not_mem_nil, or_false] at he
  rcases he with rfl | rfl | rfl | rfl | rfl
  · exact fine_ack_read hp (by simp)
  · exact fine_ack_read hp (by simp)
  · exact fine_ack_read hp (by simp)
  · exact fine_ack_read hp (by simp)
  · exact fine_ack_write hp

/-- What the stage says of the state. -/
structure Rel (s : State) (p : Stage) : Prop where
  count : p.sent = sent s
  ack : s.ack ≠ .off → p.ackOn = true
  recv : (∀ st, s.recv ≠ .off st) → p.recvOn = true
  loading : ∀ r g, s.main = .loading r g → p.loading = true

theorem tinv_boot : TInv boot ⟨0, false, false, true⟩ := by
  constructor
  · exact List.prefix_refl _
  · intro i e hi h
    exact absurd (getElem?_lt h) (by omega)
  · intro i a h
    exact absurd (List.mem_of_getElem? h) (by cases a <;> simp [boot, rd, wr])
  · intro h; cases h
  · intro i a h
    exact absurd (List.mem_of_getElem? h) (by cases a <;> simp [boot, rd, wr])
  · intro h; cases h
  · intro _ k g h
    exact absurd (List.mem_of_getElem? h) (by simp [boot, rd, wr])
  · intro i k g h
    exact absurd (List.mem_of_getElem? h) (by simp [boot, rd, wr])
  · intro i g n h
    exact absurd (List.mem_of_getElem? h) (by simp [boot, rd, wr])
  · intro i j g g' n h
    exact absurd (List.mem_of_getElem? h) (by simp [boot, rd, wr])
  · intro k g n h
    exact absurd (List.mem_of_getElem? h) (by simp [boot, rd, wr])
  · intro i g n h
    exact absurd (List.mem_of_getElem? h) (by simp [boot, rd, wr])

theorem tinv_step {cf : Conf} {s t : State} {es tr : List Ev} {p : Stage} (hi : TInv tr p) (hr : Rel s p) (h : LStep cf s es t) :
    ∃ q, TInv (tr ++ es) q ∧ Rel t q := by
  cases h with
  | skip a b c d =>
    refine ⟨p, ?_, ⟨?_, hr.ack, hr.recv, hr.loading⟩⟩
    · have := (hi.take (n := s.taken.length) (by rw [hr.count, sent, c]; simp)).plains [rd .hand .clientOption] (by
        intro e he; simp only [List.mem_singleton] at he; subst he; exact fine_hand (.inl rfl))
      rwa [List.append_assoc] at this
    · rw [hr.count, sent, sent, c]; simp; omega
  | handled a b c d e =>
    refine ⟨p, ?_, ⟨?_, hr.ack, hr.recv, hr.loading⟩⟩
    · have := (hi.take (n := s.taken.length) (by rw [hr.count, sent, c]; simp)).plains [rd .hand .clientOption, rd .hand .clientCache] (by
        intro e he; simp only [List.mem_cons, List.not_mem_nil, or_false] at he
        rcases he with rfl | rfl
        · exact fine_hand (.inl rfl)
        · exact fine_hand (.inr rfl))
      rwa [List.append_assoc] at this
    · rw [hr.count, sent, sent, c]; simp; omega
  | failed a b c d e =>
    refine ⟨p, ?_, ⟨?_, hr.ack, hr.recv, hr.loading⟩⟩
    · have := (hi.take (n := s.taken.length) (by rw [hr.count, sent, c]; simp)).plains [rd .hand .clientOption, rd .hand .clientCache] (by
        intro e he; simp only [List.mem_cons, List.not_mem_nil, or_false] at he
        rcases he with rfl | rfl
        · exact fine_hand (.inl rfl)
        · exact fine_hand (.inr rfl))
      rwa [List.append_assoc] at this
    · rw [hr.count, sent, sent, c]; simp; omega
  | crash a b c d e =>
    refine ⟨p, ?_, ⟨?_, hr.ack, hr.recv, hr.loading⟩⟩
    · have := (hi.take (n := s.taken.length) (by rw [hr.count, sent, c]; simp)).plains [rd .hand .clientOption, rd .hand .clientCache] (by
        intro e he; simp only [List.mem_cons, List.not_mem_nil, or_false] at he
        rcases he with rfl | rfl
        · exact fine_hand (.inl rfl)
        · exact fine_hand (.inr rfl))
      rwa [List.append_assoc] at this
    · rw [hr.count, sent, sent, c]; simp; omega
  | zeroSkip =>
    exact ⟨p, hi.plains _ (by intro e he; simp only [List.mem_singleton] at he; subst he; exact fine_hand (.inl rfl)), hr⟩
  | zeroFailed =>
    refine ⟨p, hi.plains _ ?_, ⟨hr.count, hr.ack, hr.recv, hr.loading⟩⟩
    intro e he; simp only [List.mem_cons, List.not_mem_nil, or_false] at he
    rcases he with rfl | rfl
    · exact fine_hand (.inl rfl)
    · exact fine_hand (.inr rfl)
  | report => exact ⟨p, by simpa using hi, ⟨hr.count, hr.ack, hr.recv, hr.loading⟩⟩
  | drain => exact ⟨p, by simpa using hi, ⟨hr.count, hr.ack, hr.recv, hr.loading⟩⟩
  | load a b c =>
    have hlo := hr.loading _ _ b
    refine ⟨{ p with sent := p.sent + 1 }, ?_, ⟨?_, hr.ack, hr.recv, fun _ _ _ => hlo⟩⟩
    · have h1 := (hi.plains _ (fine_record hlo)).plains [rd .main .replDatabase, rd .main .replMessages] (by
        intro e he; simp only [List.mem_cons, List.not_mem_nil, or_false] at he
        rcases he with rfl | rfl <;> exact fine_main_read (by simp))
      have h2 := h1.put (g := .main) (.inl rfl)
      rw [hr.count] at h2
      simpa [List.append_assoc, hr.count] using h2
    · simp [hr.count, sent]; omega
  | loadFailed a b =>
    have hlo := hr.loading _ _ b
    refine ⟨p, ?_, ⟨hr.count, hr.ack, hr.recv, fun _ _ _ => hlo⟩⟩
    have h1 := (hi.plains _ (fine_record hlo)).plains _ fine_giveBack
    simpa [List.append_assoc] using h1
  | loaded a b c =>
    have hlo := hr.loading _ _ b
    refine ⟨{ p with ackOn := true, recvOn := true, loading := false }, ?_, ⟨hr.count, fun _ => rfl, fun _ => rfl, ?_⟩⟩
    · have h1 := (hi.plains _ (fine_record hlo)).goAck.goRecv.plains (wr .main .clientRedis :: giveBack) (by
        intro e he
        rcases List.mem_cons.mp he with rfl | he
        · exact ⟨.inr (.inr (.inr (.inr (.inl rfl)))), (by intro h; cases h), (by intro h; cases h), (by intro w h; cases h), _, _, rfl, (by intro n hn; cases hn)⟩
        · exact fine_giveBack e he)
      simpa [List.append_assoc] using h1
    · intro r g h; cases h
  | recvPing a b c =>
    have hon := hr.recv (by intro st; rw [b]; simp)
    refine ⟨p, ?_, ⟨hr.count, hr.ack, fun _ => hon, hr.loading⟩⟩
    have h1 := (hi.plains _ (fine_receive hon)).plains [wr .recv .replLastPing] (by
      intro e he; simp only [List.mem_singleton] at he; subst he; exact fine_recv_write hon (.inr rfl))
    simpa [List.append_assoc] using h1
  | recvSend a b c d =>
    have hon := hr.recv (by intro st; rw [b]; simp)
    refine ⟨{ p with sent := p.sent + 1 }, ?_, ⟨?_, hr.ack, fun _ => hon, hr.loading⟩⟩
    · have h1 := (hi.plains _ (fine_receive hon)).plains [rd .recv .replMessages] (by
        intro e he; simp only [List.mem_singleton] at he; subst he; exact fine_recv_read hon (by simp))
      have h2 := h1.put (g := .recv) (.inr ⟨rfl, hon⟩)
      rw [hr.count] at h2
      simpa [List.append_assoc, hr.count] using h2
    · simp [hr.count, sent]; omega
  | recvErr a b c =>
    have hon := hr.recv (by intro st; rw [b]; simp)
    refine ⟨p, ?_, ⟨hr.count, hr.ack, fun _ => hon, hr.loading⟩⟩
    have h1 := (hi.plains _ (fine_receive hon)).plains [rd .recv .replErr] (by
      intro e he; simp only [List.mem_singleton] at he; subst he; exact fine_recv_read hon (by simp))
    simpa [List.append_assoc] using h1
  | close a b =>
    have hon := hr.recv (by intro st; rw [b]; simp)
    refine ⟨p, ?_, ⟨hr.count, hr.ack, fun _ => hon, hr.loading⟩⟩
    exact hi.plains [rd .recv .replMessages] (by
      intro e he; simp only [List.mem_singleton] at he; subst he; exact fine_recv_read hon (by simp))
  | ackOk a b =>
    exact ⟨p, hi.plains _ (fine_acknowledge (hr.ack (by rw [b]; simp))), hr⟩
  | ackFailed a b =>
    have hon := hr.ack (by rw [b]; simp)
    exact ⟨p, hi.plains _ (fine_acknowledge hon), ⟨hr.count, fun _ => hon, hr.recv, hr.loading⟩⟩
  | ackReport a b c =>
    have hon := hr.ack (by rw [b]; simp)
    exact ⟨p, hi.plains [rd .ack .replErr] (by
      intro e he; simp only [List.mem_singleton] at he; subst he; exact fine_ack_read hon (by simp)), ⟨hr.count, fun _ => hon, hr.recv, hr.loading⟩⟩

theorem boot_main : ∀ e ∈ boot, e.by_ = .main := by decide
theorem boot_go : ∀ e ∈ boot, e ≠ ⟨.main, .go .ack⟩ ∧ e ≠ ⟨.main, .go .recv⟩ := by decide

theorem TInv.at_boot {tr : List Ev} {p : Stage} (h : TInv tr p) {i : Nat} {e : Ev} (hi : i < boot.length) (he : tr[i]? = some e) : boot[i]? = some e := by
  obtain ⟨r, rfl⟩ := h.prefix_
  rwa [List.getElem?_append_left hi] at he

theorem TInv.go_hand {tr : List Ev} {p : Stage} (h : TInv tr p) : tr[12]? = some ⟨.main, .go .hand⟩ := by
  obtain ⟨r, rfl⟩ := h.prefix_
  rfl

/-- What `New` did before it started the handler happens before everything the others do. -/
theorem TInv.early {tr : List Ev} {p : Stage} (h : TInv tr p) {i j : Nat} {g k : Gor} {l l' : Loc} {v w : Bool} (hij : i < j)
    (hi : i < boot.length) (ei : tr[i]? = some ⟨g, .acc l v⟩) (ej : tr[j]? = some ⟨k, .acc l' w⟩) (hne : g ≠ k) : HB tr i j := by
  have hb := h.at_boot hi ei
  have hg : g = .main := boot_main _ (List.mem_of_getElem? hb)
  subst hg
  have hlen : boot.length = 13 := rfl
  have h12 : i ≠ 12 := by
    intro h12
    subst h12
    rw [h.go_hand] at ei
    cases ei
  have later : ∀ {m : Nat} {b : Gor}, tr[m]? = some ⟨.main, .go b⟩ → b = .ack ∨ b = .recv → i < m := by
    intro m b hm hbr
    apply Decidable.byContradiction
    intro hc
    have := h.at_boot (i := m) (by omega) hm
    have := boot_go _ (List.mem_of_getElem? this)
    rcases hbr with rfl | rfl
    · exact this.1 rfl
    · exact this.2 rfl
  cases k with
  | main => exact absurd rfl hne
  | hand =>
    have hj : 13 ≤ j := by
      apply Decidable.byContradiction
      intro hc
      have := boot_main _ (List.mem_of_getElem? (h.at_boot (by omega) ej))
      cases this
    exact .trans (.order (by omega) ei h.go_hand) (.go (by omega) h.go_hand ej)
  | recv =>
    obtain ⟨m, hm, em⟩ := h.recv _ _ ej
    exact .trans (.order (later em (.inr rfl)) ei em) (.go hm em ej)
  | ack =>
    obtain ⟨m, hm, em⟩ := h.ack _ _ ej
    exact .trans (.order (later em (.inl rfl)) ei em) (.go hm em ej)

/-- Messages: written once, sent, received, and only then read. -/
theorem TInv.message {tr : List Ev} {p : Stage} (h : TInv tr p) {i j : Nat} {g k : Gor} {n : Nat} {v w : Bool} (hij : i < j)
    (ei : tr[i]? = some ⟨g, .acc (.msg n) v⟩) (ej : tr[j]? = some ⟨k, .acc (.msg n) w⟩) (hw : v = true ∨ w = true) : HB tr i j := by
  cases v with
  | false =>
    obtain rfl : w = true := by simpa using hw
    obtain ⟨m, hm, em⟩ := h.read _ _ _ ei
    have := (h.received _ _ _ em).2 _ _ ej
    omega
  | true =>
    cases w with
    | true =>
      have := h.once _ _ _ _ _ ei ej
      omega
    | false =>
      obtain ⟨m, hm, em⟩ := h.read _ _ _ ej
      have hlt := (h.received _ _ _ em).2 _ _ ei
      have es := (h.written _ _ _ ei).2
      exact .trans (.order (Nat.lt_succ_self _) ei es) (.trans (.chan hlt es em) (.order hm em ej))

theorem TInv.raceFree {tr : List Ev} {p : Stage} (h : TInv tr p) : RaceFree tr := by
  intro i j g k l v w hij ei ej hne hw
  by_cases hi : i < boot.length
  · exact h.early hij hi ei ej hne
  by_cases hm : ∃ n, l = .msg n
  · obtain ⟨n, rfl⟩ := hm
    exact h.message hij ei ej hw
  have li := h.later _ _ (by omega) ei
  have lj := h.later _ _ (by omega) ej
  have no : ∀ n, l ≠ .msg n := fun n hn => hm ⟨n, hn⟩
  cases g <;> cases k <;> simp only [Later, no, exists_false, or_false] at li lj <;> first | exact absurd rfl hne | skip
  all_goals
    cases l <;> simp at li lj <;> first
      | (exfalso; exact absurd rfl (no _))
      | (subst li; subst lj; simp at hw; done)
      | skip
  -- what is left is the offset, which `New` assigns before it starts `Ack`
  · obtain rfl : v = true := by simpa [lj] using hw
    obtain ⟨m, hm, em⟩ := h.ack _ _ ej
    exact .trans (.order (h.offset _ _ _ ei em) ei em) (.go hm em ej)
  · obtain rfl : w = true := by simpa [li] using hw
    obtain ⟨m, hm, em⟩ := h.ack _ _ ei
    have := h.offset _ _ _ ej em
    omega

theorem run_inv {cf : Conf} {c0 : Local} {snap : List Tagged} {good : Bool} {stream : List Msg} {tr : List Ev} {s : State}
    (h : Run cf (.init c0 snap good stream) tr s) : ∃ p, TInv tr p ∧ Rel s p := by
  induction h with
  | start => exact ⟨_, tinv_boot, rfl, (fun h => absurd rfl h), (fun h => absurd rfl (h stream)), fun _ _ _ => rfl⟩
  | next _ hs ih =>
    obtain ⟨p, h1, h2⟩ := ih
    exact tinv_step h1 h2 hs

/-- **C117**: whatever the snapshot and the stream, and however the goroutines are interleaved, no two of
the goroutines that `New` starts (nor `New` itself) race for an ordinary variable. -/
theorem C117_race_free {cf : Conf} {c0 : Local} {snap : List Tagged} {good : Bool} {stream : List Msg} {tr : List Ev} {s : State}
    (h : Run cf (.init c0 snap good stream) tr s) : RaceFree tr := by
  obtain ⟨p, hp, _⟩ := run_inv h
  exact hp.raceFree

/-- Every run of the machine of `Repl/Model` is covered. -/
theorem run_of_steps {cf : Conf} {s t : State} (h : Steps cf s t) : ∃ tr, Run cf s tr t := by
  induction h with
  | refl => exact ⟨_, .start⟩
  | tail _ hs ih =>
    obtain ⟨tr, htr⟩ := ih
    obtain ⟨es, hes⟩ := LStep.of_step hs
    exact ⟨_, .next htr hes⟩

/-- The runs `C117_race_free` speaks of are all the runs of the machine that C76-C89 are about, and no others. -/
theorem C117_all_runs {cf : Conf} {s t : State} : (∃ tr, Run cf s tr t) ↔ Steps cf s t := by
  refine ⟨fun ⟨tr, h⟩ => ?_, run_of_steps⟩
  induction h with
  | start => exact .refl
  | next _ hs ih =>
    have ih := ih ⟨_, by assumption⟩
    rcases hs.step with hs | rfl
    · exact .tail ih hs
    · exact ih

/-! ### Examples -/

/-- A snapshot with one message: it is sent, `New` returns, the handler takes the message, `Ack` acknowledges.
There are conflicting accesses to the message and to the offset. -/
example (c0 : Local) : ∃ (tr : List Ev) (s : State) (i j k m : Nat),
    Run (conf 0) (.init c0 [(1, .nil)] true []) tr s ∧
      i < j ∧ tr[i]? = some (wr .main (.msg 0)) ∧ tr[j]? = some (rd .hand (.msg 0)) ∧
      k < m ∧ tr[k]? = some (wr .main .replOffset) ∧ tr[m]? = some (rd .ack .replOffset) ∧ HB tr i j ∧ HB tr k m := by
  refine ⟨_, _, 18, 30, 14, 32,
    .next (.next (.next (.next .start (.load rfl rfl (show 0 < 10000 by decide))) (.loaded rfl rfl rfl)) (.skip rfl rfl rfl (by decide))) (.ackOk rfl rfl),
    by decide, rfl, rfl, by decide, rfl, rfl, ?_, ?_⟩
  · exact .trans (j := 19) (.order (by decide) rfl rfl) (.trans (j := 29) (.chan (by decide) rfl rfl) (.order (by decide) rfl rfl))
  · exact .trans (j := 23) (.order (by decide) rfl rfl) (.go (by decide) rfl rfl)

/-- Were `Ack` started before the snapshot is loaded, there would be a race. -/
example : ¬ RaceFree [⟨.main, .go .ack⟩, wr .main .replOffset, rd .ack .replOffset] := by
  intro h
  have h1 := h 1 2 .main .ack .replOffset true false (by decide) rfl rfl (by decide) (.inl rfl)
  have key : ∀ i j, HB [⟨.main, .go .ack⟩, wr .main .replOffset, rd .ack .replOffset] i j → i = 0 := by
    intro i j h
    induction h with
    | @order i j g a b hij hi hj =>
      match i, j with
      | 0, _ => rfl
      | 1, 2 => cases hi; cases hj
      | 2, j + 3 => cases hj
      | 1, j + 3 => cases hj
      | i + 3, _ => cases hi
    | @go i j g h a hij hi hj =>
      match i with
      | 0 => rfl
      | 1 => cases hi
      | 2 => cases hi
      | i + 3 => cases hi
    | @chan i j g h n hij hi hj =>
      match i with
      | 0 => rfl
      | 1 => cases hi
      | 2 => cases hi
      | i + 3 => cases hi
    | trans _ _ ih _ => exact ih
  exact absurd (key _ _ h1) (by decide)

end Verif.Repl.Race

import Verif.Queue.Model

/-!
# C43: the bounded queue keeps order
-/

namespace Verif.Queue

variable {α : Type}

/-- Operations on a queue. -/
inductive Op (α : Type)
  | pushTail (x : α)
  | popHead
  | pushHead (x : α)
  | popTail
  | clear

/-- Specification: the elements, oldest first, and how many places are free in front of them.  Places
in front become free when the oldest element is removed, and `clear` makes all places usable again. -/
structure Spec (α : Type) where
  front : Nat
  items : List α

/-- Effect of an operation; `none` if it is not allowed: removing from an empty queue, or no place. -/
def Spec.step (cap : Nat) (s : Spec α) : Op α → Option (Spec α)
  | .pushTail x => if s.front + s.items.length < cap then some { s with items := s.items ++ [x] } else none
  | .popHead => match s.items with
    | [] => none
    | _ :: l => some { front := s.front + 1, items := l }
  | .pushHead x => if 0 < s.front then some { front := s.front - 1, items := x :: s.items } else none
  | .popTail => if s.items = [] then none else some { s with items := s.items.dropLast }
  | .clear => some { front := 0, items := [] }

/-- A history of operations. -/
def Spec.run (cap : Nat) : Spec α → List (Op α) → Option (Spec α)
  | s, [] => some s
  | s, op :: ops => (s.step cap op).bind fun s => s.run cap ops

/-- The same on the model. -/
def Queue.op (q : Queue α) : Op α → Option (Queue α)
  | .pushTail x => q.pushTail? x
  | .popHead => q.popHead?
  | .pushHead x => q.pushHead? x
  | .popTail => q.popTail?
  | .clear => some q.clear

def Queue.run : Queue α → List (Op α) → Option (Queue α)
  | q, [] => some q
  | q, op :: ops => (q.op op).bind fun q => q.run ops

/-- The array holds the items from `head` on. -/
structure Inv (cap : Nat) (q : Queue α) (s : Spec α) : Prop where
  capEq : q.cap = cap
  head : q.head = s.front
  tail : q.tail = s.front + s.items.length
  room : q.tail ≤ cap
  get : ∀ i, s.items[i]? = if i < s.items.length then some (q.data (s.front + i)) else none

theorem Inv.step {cap : Nat} {q : Queue α} {s s' : Spec α} (h : Inv cap q s) {op : Op α}
    (hs : s.step cap op = some s') : ∃ q', q.op op = some q' ∧ Inv cap q' s' := by
  obtain ⟨h1, h2, h3, h4, h5⟩ := h
  cases op with
  | pushTail x =>
    simp only [Spec.step] at hs
    split at hs
    · rename_i hlt
      cases hs
      refine ⟨{ q with tail := q.tail + 1, data := upd q.data q.tail x }, ?_, h1, h2, ?_, ?_, ?_⟩
      · show (if _ then _ else _) = _
        rw [if_pos (by omega)]
      · show q.tail + 1 = s.front + (s.items ++ [x]).length
        rw [List.length_append]; simp; omega
      · show q.tail + 1 ≤ cap
        omega
      · intro i
        show (s.items ++ [x])[i]? = if i < (s.items ++ [x]).length then
          some (upd q.data q.tail x (s.front + i)) else none
        rw [List.length_append, List.length_singleton]
        by_cases hi : i < s.items.length
        · rw [List.getElem?_append_left hi, h5, if_pos hi, if_pos (by omega), upd_ne _ _ (by omega)]
        · by_cases hi' : i = s.items.length
          · subst hi'
            rw [if_pos (by omega), ← h3, upd_same]
            simp
          · rw [if_neg (by omega)]
            rw [List.getElem?_eq_none]
            simp; omega
    · cases hs
  | popHead =>
    simp only [Spec.step] at hs
    split at hs
    · cases hs
    · rename_i a l hl
      cases hs
      refine ⟨{ q with head := q.head + 1 }, ?_, h1, ?_, ?_, h4, ?_⟩
      · show (if _ then _ else _) = _
        rw [if_pos (by rw [h3, hl, List.length_cons]; omega)]
      · show q.head + 1 = s.front + 1
        omega
      · show q.tail = s.front + 1 + l.length
        rw [h3, hl, List.length_cons]; omega
      · intro i
        have := h5 (i + 1)
        rw [hl, List.getElem?_cons_succ, List.length_cons] at this
        show l[i]? = if i < l.length then some (q.data (s.front + 1 + i)) else none
        rw [this, show s.front + (i + 1) = s.front + 1 + i by omega]
        simp only [Nat.add_lt_add_iff_right]
  | pushHead x =>
    simp only [Spec.step] at hs
    split at hs
    · rename_i hlt
      cases hs
      refine ⟨{ q with head := q.head - 1, data := upd q.data (q.head - 1) x }, ?_, h1, ?_, ?_, h4, ?_⟩
      · show (if _ then _ else _) = _
        rw [if_pos (by omega)]
      · show q.head - 1 = s.front - 1
        omega
      · show q.tail = s.front - 1 + (s.items.length + 1)
        omega
      · intro i
        show (x :: s.items)[i]? = if i < s.items.length + 1 then
          some (upd q.data (q.head - 1) x (s.front - 1 + i)) else none
        cases i with
        | zero => rw [if_pos (by omega), ← h2, Nat.add_zero, upd_same]; rfl
        | succ i =>
          rw [List.getElem?_cons_succ, h5, upd_ne _ _ (by omega),
            show s.front - 1 + (i + 1) = s.front + i by omega]
          simp only [Nat.add_lt_add_iff_right]
    · cases hs
  | popTail =>
    simp only [Spec.step] at hs
    split at hs
    · cases hs
    · rename_i hne
      cases hs
      have hlen : 0 < s.items.length := List.length_pos_iff.2 hne
      refine ⟨{ q with tail := q.tail - 1 }, ?_, h1, h2, ?_, ?_, ?_⟩
      · show (if _ then _ else _) = _
        rw [if_pos (by omega)]
      · show q.tail - 1 = s.front + s.items.dropLast.length
        rw [List.length_dropLast]; omega
      · show q.tail - 1 ≤ cap
        omega
      · intro i
        show s.items.dropLast[i]? = if i < s.items.dropLast.length then
          some (q.data (s.front + i)) else none
        rw [List.getElem?_dropLast, List.length_dropLast, h5]
        by_cases hi : i < s.items.length - 1
        · rw [if_pos hi, if_pos hi, if_pos (by omega)]
        · rw [if_neg hi, if_neg hi]
  | clear =>
    cases hs
    exact ⟨q.clear, rfl, h1, rfl, rfl, Nat.zero_le _, fun i => by simp⟩

theorem Inv.run {cap : Nat} : ∀ (ops : List (Op α)) {q : Queue α} {s s' : Spec α}, Inv cap q s →
    s.run cap ops = some s' → ∃ q', q.run ops = some q' ∧ Inv cap q' s'
  | [], q, s, s', h, hs => by cases hs; exact ⟨q, rfl, h⟩
  | op :: ops, q, s, s', h, hs => by
    simp only [Spec.run] at hs
    cases h1 : s.step cap op with
    | none => rw [h1] at hs; cases hs
    | some s1 =>
      rw [h1] at hs
      obtain ⟨q1, a, b⟩ := h.step h1
      obtain ⟨q2, a', b'⟩ := Inv.run ops b hs
      exact ⟨q2, by simp only [Queue.run, a, Option.bind_some]; exact a', b'⟩

theorem Inv.step_none {cap : Nat} {q : Queue α} {s : Spec α} (h : Inv cap q s) {op : Op α}
    (hs : s.step cap op = none) : q.op op = none := by
  obtain ⟨h1, h2, h3, h4, h5⟩ := h
  cases op with
  | pushTail x =>
    simp only [Spec.step] at hs
    split at hs
    · cases hs
    · exact if_neg (by omega)
  | popHead =>
    simp only [Spec.step] at hs
    split at hs
    · rename_i hl
      exact if_neg (by rw [h3, hl, h2]; simp)
    · cases hs
  | pushHead x =>
    simp only [Spec.step] at hs
    split at hs
    · cases hs
    · exact if_neg (by omega)
  | popTail =>
    simp only [Spec.step] at hs
    split at hs
    · rename_i hl
      exact if_neg (by rw [h3, hl, h2]; simp)
    · cases hs
  | clear => cases hs

/-- C43: a history that is not allowed violates an assertion. -/
theorem C43_queue_refuses (zero : α) (cap : Nat) (ops : List (Op α))
    (hs : Spec.run cap ⟨0, []⟩ ops = none) : (Queue.new zero cap).run ops = none := by
  have h0 : Inv cap (Queue.new zero cap) ⟨0, []⟩ := ⟨rfl, rfl, rfl, Nat.zero_le _, fun i => by simp⟩
  generalize Queue.new zero cap = q, (⟨0, []⟩ : Spec α) = s at *
  induction ops generalizing q s with
  | nil => cases hs
  | cons op ops ih =>
    simp only [Spec.run] at hs
    simp only [Queue.run]
    cases h1 : s.step cap op with
    | none => rw [h0.step_none h1]; rfl
    | some s1 =>
      rw [h1] at hs
      obtain ⟨q1, a, b⟩ := h0.step h1
      rw [a]
      exact ih q1 s1 hs b

example : Spec.run 2 (⟨0, []⟩ : Spec Nat) [.pushTail 1, .popHead, .popTail] = none := rfl

/-- C43: every allowed history of operations is executed without violating an assertion, and
afterwards the iteration yields the elements oldest first, `size`, `empty`, `head` and indexing agree
with it. -/
theorem C43_queue_partial (zero : α) (cap : Nat) (ops : List (Op α)) (s : Spec α)
    (hs : Spec.run cap ⟨0, []⟩ ops = some s) :
    ∃ q, (Queue.new zero cap).run ops = some q ∧ q.toList = s.items ∧ q.size = s.items.length ∧
      q.empty = s.items.isEmpty ∧ q.head? = s.items.head? ∧
      ∀ i, i < s.items.length → q.at? i = s.items[i]? := by
  have h0 : Inv cap (Queue.new zero cap) ⟨0, []⟩ := ⟨rfl, rfl, rfl, Nat.zero_le _, fun i => by simp⟩
  obtain ⟨q, h1, h2⟩ := h0.run ops hs
  obtain ⟨c1, c2, c3, c4, c5⟩ := h2
  have hempty : q.empty = s.items.isEmpty := by
    unfold Queue.empty
    cases h : s.items with
    | nil => rw [h] at c3; simp [c2, c3]
    | cons a l =>
      rw [h] at c3
      rw [c2, c3]
      simp
  refine ⟨q, h1, ?_, ?_, hempty, ?_, ?_⟩
  · apply List.ext_getElem?
    intro i
    rw [c5]
    unfold Queue.toList
    rw [List.getElem?_map, c2, c3, Nat.add_sub_cancel_left]
    by_cases hi : i < s.items.length
    · rw [List.getElem?_range hi, if_pos hi]; rfl
    · rw [if_neg hi, List.getElem?_eq_none (by simpa using hi)]; rfl
  · unfold Queue.size; omega
  · unfold Queue.head?
    rw [hempty]
    cases h : s.items with
    | nil => rfl
    | cons a l =>
      have := c5 0
      rw [h] at this
      simp only [List.getElem?_cons_zero, List.length_cons, Nat.zero_lt_succ, if_true, Nat.add_zero] at this
      rw [c2]
      simp [this]
  · intro i hi
    unfold Queue.at?
    rw [c2, if_pos (by omega), c5, if_pos hi]

example : Spec.run 4 ⟨0, []⟩ [.pushTail 1, .pushTail 2, .popHead, .pushTail 3, .pushHead 7, .popTail,
    .pushTail 9] = some ⟨0, [7, 2, 9]⟩ := rfl

/-- `tail()` does not return the newest element but the (stale or nonexistent) place behind it. -/
theorem C43_tail_not_newest :
    (∃ q, (Queue.new 0 3).run [.pushTail 1, .pushTail 2] = some q ∧ q.toList = [1, 2] ∧
      q.tail? = some 0) ∧
    (∃ q, (Queue.new 0 2).run [.pushTail 1, .pushTail 2] = some q ∧ q.toList = [1, 2] ∧
      q.tail? = none) :=
  ⟨⟨_, rfl, rfl, rfl⟩, _, rfl, rfl, rfl⟩

end Verif.Queue

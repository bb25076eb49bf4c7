import Verif.Heap.Lemmas

/-!
# C09: the addressable heap is a map with best-first access

Specification: the heap is a finite map from IDs to keys (`key?`).  `Better k a b`: key `a` has
strictly higher priority than key `b` (larger in a max heap, smaller in a min heap).
-/

namespace Verif.Heap

/-- Strictly higher priority. -/
def Better : Kind → Int → Int → Prop
  | .max, a, b => b < a
  | .min, a, b => a < b

/-- The operations of the API. -/
inductive Op
  | push (id : Nat) (key : Int)
  | pop
  | change (id : Nat) (key : Int)
  | pushOrChange (id : Nat) (key : Int)
  | decrease (id : Nat) (key : Int)
  | increase (id : Nat) (key : Int)
  | remove (id : Nat)
  | clear

/-- Carrying out an operation; `none`: the caller violates an assertion of the API. -/
def step? (k : Kind) (w : Nat) (s : Heap) : Op → Option Heap
  | .push id key => s.push? k id key
  | .pop => s.pop? k
  | .change id key => s.changePriority? k id key
  | .pushOrChange id key => s.pushOrChange? k id key
  | .decrease id key => s.decreasePriority? k id key
  | .increase id key => s.increasePriority? k id key
  | .remove id => s.remove? k w id
  | .clear => some s.clear

/-- States reached by some history of operations from an empty heap. -/
inductive Reach (k : Kind) (w cap : Nat) : Heap → Prop
  | new : Reach k w cap (Heap.new cap)
  | step {s s' : Heap} (op : Op) : Reach k w cap s → step? k w s op = some s' → Reach k w cap s'

/-- A whole history. -/
def run? (k : Kind) (w : Nat) : Heap → List Op → Option Heap
  | s, [] => some s
  | s, op :: ops => (step? k w s op).bind fun s' => run? k w s' ops

theorem Reach.run {k : Kind} {w cap : Nat} {s s' : Heap} {ops : List Op} (h : Reach k w cap s)
    (hr : run? k w s ops = some s') : Reach k w cap s' := by
  induction ops generalizing s with
  | nil => cases hr; exact h
  | cons op ops ih =>
    simp only [run?, Option.bind_eq_some_iff] at hr
    obtain ⟨s1, h1, h2⟩ := hr
    exact ih (.step op h h1) h2

theorem Reach.witness {k : Kind} {w cap : Nat} (ops : List Op) (P : Heap → Bool)
    (h : (run? k w (Heap.new cap) ops).any P = true) : ∃ s, Reach k w cap s ∧ P s = true := by
  rw [Option.any_eq_true] at h
  obtain ⟨s, hs, hp⟩ := h
  exact ⟨s, Reach.new.run hs, hp⟩

theorem better_iff (k : Kind) (a b : Int) : Better k a b ↔ k.val b < k.val a := by
  cases k <;> simp [Better, Kind.val] <;> omega

theorem Inv.step {k : Kind} {w : Nat} {s s' : Heap} (h : Inv k s) {op : Op}
    (hs : step? k w s op = some s') : Inv k s' ∧ s'.cap = s.cap := by
  cases op with
  | push id key => obtain ⟨h1, h2, _⟩ := push_ok h hs; exact ⟨h1, h2⟩
  | pop =>
    have h0 : s.size ≠ 0 := by
      intro h0; simp [step?, Heap.pop?, h0] at hs
    obtain ⟨s1, g1, g2, g3, _⟩ := pop_ok h h0
    rw [show step? k w s .pop = s.pop? k from rfl, g1] at hs
    cases hs
    exact ⟨g2, g3⟩
  | change id key => obtain ⟨h1, h2, _⟩ := change_ok h hs; exact ⟨h1, h2⟩
  | pushOrChange id key =>
    simp only [step?, Heap.pushOrChange?] at hs
    split at hs
    · obtain ⟨h1, h2, _⟩ := change_ok h hs; exact ⟨h1, h2⟩
    · obtain ⟨h1, h2, _⟩ := push_ok h hs; exact ⟨h1, h2⟩
  | decrease id key => obtain ⟨h1, h2, _⟩ := decrease_ok h hs; exact ⟨h1, h2⟩
  | increase id key => obtain ⟨h1, h2, _⟩ := increase_ok h hs; exact ⟨h1, h2⟩
  | remove id =>
    simp only [step?, Heap.remove?, Option.bind_eq_bind] at hs
    cases hd : s.decreasePriority? k id (k.minValue w) with
    | none => rw [hd] at hs; cases hs
    | some s1 =>
      rw [hd, Option.bind_some] at hs
      obtain ⟨h1, h2, _⟩ := decrease_ok h hd
      have h0 : s1.size ≠ 0 := by
        intro h0; simp [Heap.pop?, h0] at hs
      obtain ⟨s2, g1, g2, g3, _⟩ := pop_ok h1 h0
      rw [g1] at hs
      cases hs
      exact ⟨g2, g3.trans h2⟩
  | clear =>
    simp only [step?, Option.some.injEq] at hs
    subst hs
    obtain ⟨h1, h2, _⟩ := clear_ok h
    exact ⟨h1, h2⟩

theorem Reach.inv {k : Kind} {w cap : Nat} {s : Heap} (h : Reach k w cap s) :
    Inv k s ∧ s.cap = cap := by
  induction h with
  | new => exact ⟨Inv.new k cap, rfl⟩
  | step op _ hs ih =>
    obtain ⟨h1, h2⟩ := ih.1.step hs
    exact ⟨h1, h2.trans ih.2⟩

/-- C09, observers: after every history, `contains` tells whether the map has the ID, and `size` is
the number of IDs in the map, which is at most the capacity. -/
theorem C09_contains_and_size (k : Kind) (w cap : Nat) (s : Heap) (h : Reach k w cap s) :
    (∀ id, s.contains id = (s.key? id).isSome) ∧ s.size ≤ cap ∧
      ∃ ids : List Nat, ids.Nodup ∧ ids.length = s.size ∧
        ∀ id, id ∈ ids ↔ ∃ key, s.key? id = some key := by
  obtain ⟨hi, hc⟩ := h.inv
  refine ⟨contains_iff s, hc ▸ hi.size_le, (List.range s.size).map fun p => (s.heap p).1, ?_,
    by simp, ?_⟩
  · refine nodup_map_on List.nodup_range ?_
    intro a ha b hb hab
    exact hi.pos.inj (List.mem_range.1 ha) (List.mem_range.1 hb) hab
  · intro id
    simp only [List.mem_map, List.mem_range]
    constructor
    · rintro ⟨p, hp, rfl⟩
      exact ⟨(s.heap p).2, by simp [Heap.key?, hi.pos.fwd p hp]⟩
    · rintro ⟨key, hk⟩
      simp only [Heap.key?, Option.map_eq_some_iff] at hk
      obtain ⟨p, hp, _⟩ := hk
      exact ⟨p, hi.pos.bwd id p hp⟩

/-- C09, peek: after every history, a non-empty heap reports an ID of the map with its key, and no
entry of the map has higher priority; an empty heap has no entries. -/
theorem C09_peek_is_best (k : Kind) (w cap : Nat) (s : Heap) (h : Reach k w cap s) :
    (s.size = 0 → ∀ id, s.key? id = none) ∧
    (s.size ≠ 0 → ∃ id key, s.peekId? = some id ∧ s.peekKey? = some key ∧ s.key? id = some key ∧
      ∀ id' key', s.key? id' = some key' → ¬ Better k key' key) := by
  obtain ⟨hi, _⟩ := h.inv
  refine ⟨?_, ?_⟩
  · intro h0 id
    simp only [Heap.key?, Option.map_eq_none_iff]
    cases hp : s.idPos id with
    | none => rfl
    | some p => have := (hi.pos.bwd id p hp).1; omega
  · intro h0
    refine ⟨(s.heap 0).1, (s.heap 0).2, by simp [Heap.peekId?, h0], by simp [Heap.peekKey?, h0],
      by simp [Heap.key?, hi.pos.fwd 0 (by omega)], ?_⟩
    intro id' key' hk
    simp only [Heap.key?, Option.map_eq_some_iff] at hk
    obtain ⟨p, hp, rfl⟩ := hk
    rw [better_iff]
    have := hi.ord.root p (hi.pos.bwd id' p hp).1
    unfold Heap.v at this
    omega

/-- C09, push: adding an absent ID below the capacity always succeeds (there is room) and adds
exactly this entry. -/
theorem C09_push (k : Kind) (w cap : Nat) (s : Heap) (h : Reach k w cap s) (id : Nat) (key : Int)
    (hid : id < cap) (habs : s.key? id = none) :
    ∃ s', s.push? k id key = some s' ∧ s'.key? = upd s.key? id (some key) := by
  obtain ⟨hi, hc⟩ := h.inv
  have hcon : s.contains id = false := by rw [contains_iff, habs]; rfl
  have hlt := hi.size_lt (hc ▸ hid) hcon
  have hdef : ∃ s', s.push? k id key = some s' := by
    unfold Heap.push?
    rw [if_neg (by simp [hcon]; omega)]
    exact ⟨_, rfl⟩
  obtain ⟨s', hs⟩ := hdef
  exact ⟨s', hs, (push_ok hi hs).2.2.2⟩

/-- C09, pop: popping a non-empty heap removes exactly the entry reported by peek. -/
theorem C09_pop_removes_peeked (k : Kind) (w cap : Nat) (s : Heap) (h : Reach k w cap s) (id : Nat)
    (hp : s.peekId? = some id) :
    ∃ s', s.pop? k = some s' ∧ s'.key? = upd s.key? id none ∧ s'.size + 1 = s.size := by
  obtain ⟨hi, _⟩ := h.inv
  have h0 : s.size ≠ 0 := by intro h0; simp [Heap.peekId?, h0] at hp
  obtain ⟨s', g1, _, _, g4, g5⟩ := pop_ok hi h0
  rw [Heap.peekId?, if_neg h0, Option.some.injEq] at hp
  subst hp
  exact ⟨s', g1, g5, by omega⟩

/-- C09, change priority: changing the key of an entry to any key changes exactly this entry; the
same for `push_or_change_priority`, which also adds absent entries. -/
theorem C09_change_priority (k : Kind) (w cap : Nat) (s : Heap) (h : Reach k w cap s) (id : Nat)
    (key : Int) :
    (∀ old, s.key? id = some old →
      ∃ s', s.changePriority? k id key = some s' ∧ s'.key? = upd s.key? id (some key)) ∧
    (id < cap →
      ∃ s', s.pushOrChange? k id key = some s' ∧ s'.key? = upd s.key? id (some key)) := by
  obtain ⟨hi, hc⟩ := h.inv
  have hch : ∀ old, s.key? id = some old →
      ∃ s', s.changePriority? k id key = some s' ∧ s'.key? = upd s.key? id (some key) := by
    intro old hold
    have hdef : ∃ s', s.changePriority? k id key = some s' := by
      have hold' := hold
      simp only [Heap.key?, Option.map_eq_some_iff] at hold'
      obtain ⟨p, hp, hpk⟩ := hold'
      unfold Heap.changePriority?
      rw [hold]
      simp only
      split
      · rename_i hlt
        unfold Heap.increasePriority?
        rw [hp]
        simp only
        rw [hpk, if_pos hlt]
        exact ⟨_, rfl⟩
      · split
        · rename_i hlt
          unfold Heap.decreasePriority?
          rw [hp]
          simp only
          rw [hpk, if_pos hlt]
          exact ⟨_, rfl⟩
        · exact ⟨_, rfl⟩
    obtain ⟨s', hs⟩ := hdef
    exact ⟨s', hs, (change_ok hi hs).2.2.2⟩
  refine ⟨hch, fun hid => ?_⟩
  unfold Heap.pushOrChange?
  cases hk : s.key? id with
  | none =>
    rw [if_neg (by rw [contains_iff, hk]; simp)]
    exact C09_push k w cap s h id key hid hk
  | some old =>
    rw [if_pos (by rw [contains_iff, hk]; rfl)]
    exact hch old hk

/-- C09, remove: removing an entry removes exactly this entry, provided that no key is the largest
(max heap) or smallest (min heap) value of the signed `w`-bit key type. -/
theorem C09_remove_partial (k : Kind) (w cap : Nat) (s : Heap) (h : Reach k w cap s) (id : Nat)
    (old : Int) (hin : s.key? id = some old)
    (hrange : ∀ id' key', s.key? id' = some key' →
      -(2 ^ (w - 1)) ≤ key' ∧ key' ≤ 2 ^ (w - 1) - 1)
    (hext : ∀ id' key', s.key? id' = some key' →
      (k = .max → key' ≠ 2 ^ (w - 1) - 1) ∧ (k = .min → key' ≠ -(2 ^ (w - 1)))) :
    ∃ s', s.remove? k w id = some s' ∧ s'.key? = upd s.key? id none := by
  have hkeys : ∀ id' key', s.key? id' = some key' → Better k (k.minValue w) key' := by
    intro id' key' hk'
    have h1 := hrange id' key' hk'
    have h2 := hext id' key' hk'
    cases k <;> simp [Better, Kind.minValue] at * <;> omega
  obtain ⟨hi, _⟩ := h.inv
  have hin' := hin
  simp only [Heap.key?, Option.map_eq_some_iff] at hin'
  obtain ⟨p, hp, hpk⟩ := hin'
  have hdef : ∃ s1, s.decreasePriority? k id (k.minValue w) = some s1 := by
    unfold Heap.decreasePriority?
    rw [hp]
    simp only
    rw [hpk, if_pos]
    · exact ⟨_, rfl⟩
    · rw [cmp_iff]; exact (better_iff k _ _).1 (hkeys id old hin)
  obtain ⟨s1, h1⟩ := hdef
  obtain ⟨i1, _, sz1, k1⟩ := decrease_ok hi h1
  have hs0 : s1.size ≠ 0 := by
    have := (hi.pos.bwd id p hp).1
    omega
  obtain ⟨s', g1, _, _, _, g5⟩ := pop_ok i1 hs0
  refine ⟨s', by unfold Heap.remove?; rw [h1]; exact g1, ?_⟩
  -- the root is `id`
  have hroot : (s1.heap 0).1 = id := by
    apply Classical.byContradiction
    intro hne
    have hr : s1.key? (s1.heap 0).1 = some (s1.heap 0).2 := by
      simp [Heap.key?, i1.pos.fwd 0 (by omega)]
    rw [k1, upd_ne _ _ hne] at hr
    have hb := (better_iff k _ _).1 (hkeys _ _ hr)
    have hid : s1.key? id = some (k.minValue w) := by rw [k1, upd_same]
    simp only [Heap.key?, Option.map_eq_some_iff] at hid
    obtain ⟨q, hq, hqk⟩ := hid
    have := i1.ord.root q (i1.pos.bwd id q hq).1
    unfold Heap.v at this
    rw [hqk] at this
    omega
  rw [g5, hroot, k1]
  funext i
  by_cases hii : i = id
  · subst hii; simp
  · rw [upd_ne _ _ hii, upd_ne _ _ hii, upd_ne _ _ hii]

/-- C09, why the proviso is needed (missing in `C09_remove_partial`): with 32 bit keys in a max heap,
removing ID 1 while ID 0 has the largest representable key removes ID 0 instead, and leaves ID 1 with
that key. -/
theorem C09_remove_wrong_element : ∃ s s', Reach .max 32 2 s ∧
    s.key? 0 = some (2 ^ 31 - 1) ∧ s.key? 1 = some 5 ∧ s.remove? .max 32 1 = some s' ∧
    s'.key? 0 = none ∧ s'.key? 1 = some (2 ^ 31 - 1) := by
  obtain ⟨s, h1, h2⟩ := Reach.witness (k := .max) (w := 32) (cap := 2)
    [.push 0 (2 ^ 31 - 1), .push 1 5]
    (fun s => s.key? 0 == some (2 ^ 31 - 1) && s.key? 1 == some 5 &&
      (s.remove? .max 32 1).any fun s' => s'.key? 0 == none && s'.key? 1 == some (2 ^ 31 - 1))
    (by decide)
  simp only [Bool.and_eq_true, beq_iff_eq, Option.any_eq_true] at h2
  obtain ⟨⟨a, b⟩, s', c, d, e⟩ := h2
  exact ⟨s, s', h1, a, b, c, d, e⟩

/-- C09, clear: the map is empty afterwards. -/
theorem C09_clear (k : Kind) (w cap : Nat) (s : Heap) (h : Reach k w cap s) :
    s.clear.size = 0 ∧ s.clear.key? = fun _ => none := by
  obtain ⟨hi, _⟩ := h.inv
  obtain ⟨_, _, h3, h4⟩ := clear_ok hi
  exact ⟨h3, h4⟩

/-- A history that meets the hypotheses: six entries, a change, a removal and a pop. -/
example : ∃ s, Reach .min 32 10 s ∧ (s.peekId? == some 7 && s.peekKey? == some 2 && s.size == 4 &&
    s.key? 3 == some 9) = true :=
  Reach.witness [.push 3 5, .push 4 1, .push 7 2, .push 9 8, .push 0 7, .push 1 6, .change 3 9,
    .remove 9, .pop] _ (by decide)

end Verif.Heap

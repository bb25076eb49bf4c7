import Verif.Dist.CommProps

/-!
# The colouring on the whole graph

What the colouring does to the nodes of the whole graph, without processes, ghost nodes and messages: `nb a` are the neighbours of the
node `a`, `own a` is its process, `L p i` are the nodes that process `p` visits in superstep `i`.
-/

namespace Verif.Dist.Greedy

/-- Colours of nodes, where 0 means none, and the nodes that are visited again. -/
abbrev CS := (Nat → Nat) × (Nat → Bool)

/-- The node `a` avoids the colour of its neighbour `v`. -/
def seen (c : Nat → Nat) (a v : Nat) : Bool := c v != 0 && (c a == 0 || !(c v == c a && decide (a < v)))

variable (nb : Nat → List Nat) (own : Nat → Nat)

def marks (c : Nat → Nat) (a : Nat) : List Nat := ((nb a).filter (seen c a)).map c

/-- The smallest colour that is not in the list. -/
def mex (m : List Nat) : Nat := ((List.range (m.length + 1)).find? fun x => !decide (x + 1 ∈ m)).getD m.length + 1

def far (a : Nat) : Bool := (nb a).any fun v => own v != own a

def nodeStep (s : CS) (a : Nat) : CS :=
  if s.2 a then
    if s.1 a = 0 then (upd s.1 a (mex (marks nb s.1 a)), if far nb own a then s.2 else upd s.2 a false)
    else if s.1 a ∈ marks nb s.1 a then (upd s.1 a (mex (marks nb s.1 a)), s.2)
    else (s.1, upd s.2 a false)
  else s

def run (s : CS) (T : List Nat) : CS := T.foldl (nodeStep nb own) s

/-- One superstep: each process visits its nodes and sees the other nodes as they were before. -/
def step (L : Nat → Nat → List Nat) (s : CS) (i : Nat) : CS :=
  (fun v => (run nb own s (L (own v) i)).1 v, fun v => (run nb own s (L (own v) i)).2 v)

/-- The supersteps of one pass. -/
def pass (L : Nat → Nat → List Nat) (S : Nat) (s : CS) : CS := (List.range S).foldl (step nb own L) s

/-- No process receives a message during the pass. -/
def Quiet (L : Nat → Nat → List Nat) (S N : Nat) (s : CS) : Prop :=
  ∀ i, i < S → ∀ p, p < N → ∀ a ∈ L p i, far nb own a = true → (pass nb own L (i + 1) s).2 a = false

/-! ## The smallest colour -/

theorem mex_aux (m : List Nat) : ∃ x, (List.range (m.length + 1)).find? (fun x => !decide (x + 1 ∈ m)) = some x := by
  rw [← Option.isSome_iff_exists, List.find?_isSome]
  by_contra h
  have h1 : ∀ x, x < m.length + 1 → x + 1 ∈ m := by
    intro x hx
    by_contra hm
    exact h ⟨x, List.mem_range.2 hx, by simp [hm]⟩
  have h2 : ((List.range (m.length + 1)).map (· + 1)).Nodup :=
    List.Nodup.map (fun _ _ h => Nat.add_right_cancel h) List.nodup_range
  have h3 := nodup_length_le h2 (fun y hy => by
    obtain ⟨x, hx, rfl⟩ := List.mem_map.1 hy
    exact h1 x (List.mem_range.1 hx))
  rw [List.length_map, List.length_range] at h3
  omega

theorem mex_spec (m : List Nat) : mex m ∉ m ∧ 0 < mex m ∧ mex m ≤ m.length + 1 ∧ ∀ y, 0 < y → y < mex m → y ∈ m := by
  obtain ⟨x, hx⟩ := mex_aux m
  have e : mex m = x + 1 := by unfold mex; rw [hx]; rfl
  rw [List.find?_eq_some_iff_append] at hx
  obtain ⟨h1, as, bs, h2, h3⟩ := hx
  have hl : x = as.length := by
    have h5 : (List.range (m.length + 1))[as.length]? = some x := by rw [h2]; simp
    rw [List.getElem?_range] at h5
    · injection h5 with h5; exact h5.symm
    · have := congrArg List.length h2
      simp at this; omega
  have hlen : x < m.length + 1 := by
    have := congrArg List.length h2
    simp at this; omega
  rw [e]
  refine ⟨by simpa using h1, by omega, by omega, fun y hy hyx => ?_⟩
  have h4 : y - 1 ∈ as := by
    have h5 : (List.range (m.length + 1))[y - 1]? = some (y - 1) := by
      rw [List.getElem?_range (by omega)]
    rw [h2, List.getElem?_append_left (by omega)] at h5
    exact List.mem_of_getElem? h5
  have h5 := h3 _ h4
  rw [show y - 1 + 1 = y by omega] at h5
  simpa using h5

variable {nb own}

theorem marks_length (c : Nat → Nat) (a : Nat) : (marks nb c a).length ≤ (nb a).length := by
  unfold marks
  rw [List.length_map]
  exact List.length_filter_le _ _

/-! ## One node -/

/-- What a visit does to the node. -/
theorem node_cases (s : CS) (a : Nat) :
    (s.2 a = false ∧ nodeStep nb own s a = s) ∨
    (s.2 a = true ∧ (s.1 a = 0 ∨ s.1 a ∈ marks nb s.1 a) ∧ (nodeStep nb own s a).1 = upd s.1 a (mex (marks nb s.1 a)) ∧
      (nodeStep nb own s a).2 = if s.1 a = 0 ∧ far nb own a = false then upd s.2 a false else s.2) ∨
    (s.2 a = true ∧ s.1 a ≠ 0 ∧ s.1 a ∉ marks nb s.1 a ∧ nodeStep nb own s a = (s.1, upd s.2 a false)) := by
  unfold nodeStep
  cases h : s.2 a with
  | false => left; simp
  | true =>
    right
    rw [if_pos rfl]
    by_cases h0 : s.1 a = 0
    · left
      rw [if_pos h0]
      refine ⟨rfl, Or.inl h0, rfl, ?_⟩
      cases hf : far nb own a <;> simp [h0]
    · rw [if_neg h0]
      by_cases hm : s.1 a ∈ marks nb s.1 a
      · left
        rw [if_pos hm]
        exact ⟨rfl, Or.inr hm, rfl, by rw [if_neg fun h => h0 h.1]⟩
      · right
        rw [if_neg hm]
        exact ⟨rfl, h0, hm, rfl⟩

theorem node_other (s : CS) {a v : Nat} (h : v ≠ a) : (nodeStep nb own s a).1 v = s.1 v ∧ (nodeStep nb own s a).2 v = s.2 v := by
  rcases node_cases (nb := nb) (own := own) s a with ⟨_, h1⟩ | ⟨_, _, h1, h2⟩ | ⟨_, _, _, h1⟩
  · rw [h1]; exact ⟨rfl, rfl⟩
  · rw [h1, h2, upd_ne _ _ h]
    refine ⟨rfl, ?_⟩
    split
    · exact upd_ne _ _ h
    · rfl
  · rw [h1]; exact ⟨rfl, upd_ne _ _ h⟩

theorem node_inactive {s : CS} {a : Nat} (h : s.2 a = false) : nodeStep nb own s a = s := by
  rcases node_cases (nb := nb) (own := own) s a with ⟨_, h1⟩ | ⟨h1, _⟩ | ⟨h1, _⟩
  · exact h1
  · rw [h] at h1; exact absurd h1 (by decide)
  · rw [h] at h1; exact absurd h1 (by decide)

theorem node_mono (s : CS) (a v : Nat) (h : s.2 v = false) : (nodeStep nb own s a).2 v = false := by
  by_cases hv : v = a
  · subst hv; rw [node_inactive h]; exact h
  · rw [(node_other s hv).2]; exact h

/-- A neighbour is avoided by a new colour. -/
theorem mex_fresh {c : Nat → Nat} {a v : Nat} (hv : v ∈ nb a) (h : c a = 0 ∨ c a ∈ marks nb c a) : mex (marks nb c a) ≠ c v := by
  intro e
  obtain ⟨h1, h2, _, _⟩ := mex_spec (marks nb c a)
  by_cases hs : seen c a v = true
  · apply h1
    rw [e]
    exact List.mem_map.2 ⟨v, List.mem_filter.2 ⟨hv, hs⟩, rfl⟩
  · unfold seen at hs
    have hv0 : c v ≠ 0 := by omega
    simp only [Bool.and_eq_true, bne_iff_ne, ne_eq, hv0, not_false_eq_true, true_and, Bool.or_eq_true, beq_iff_eq,
      Bool.not_eq_true', Bool.and_eq_false_iff, not_or, beq_eq_false_iff_ne, decide_eq_false_iff_not] at hs
    obtain ⟨h3, h4⟩ := hs
    have h5 : c v = c a := by
      by_contra h6
      exact h4.1 h6
    rcases h with h | h
    · exact h3 h
    · rw [← h5, ← e] at h; exact h1 h

/-- A changed colour is not that of a neighbour. -/
theorem node_fresh {s : CS} {a v : Nat} (hc : (nodeStep nb own s a).1 a ≠ s.1 a) (hv : v ∈ nb a) :
    (nodeStep nb own s a).1 a ≠ s.1 v := by
  rcases node_cases (nb := nb) (own := own) s a with ⟨_, h1⟩ | ⟨_, h0, h1, _⟩ | ⟨_, _, _, h1⟩
  · rw [h1] at hc; exact absurd rfl hc
  · rw [h1, upd_same]
    exact mex_fresh hv h0
  · rw [h1] at hc; exact absurd rfl hc

theorem node_far {s : CS} {a : Nat} (hc : (nodeStep nb own s a).1 a ≠ s.1 a) (hf : far nb own a = true) :
    (nodeStep nb own s a).2 a = true := by
  rcases node_cases (nb := nb) (own := own) s a with ⟨_, h1⟩ | ⟨h0, _, _, h2⟩ | ⟨_, _, _, h1⟩
  · rw [h1] at hc; exact absurd rfl hc
  · rw [h2, if_neg fun h => by rw [hf] at h; exact absurd h.2 (by decide)]; exact h0
  · rw [h1] at hc; exact absurd rfl hc

/-- A node with the colour of a neighbour that it must avoid gets a new colour. -/
theorem node_conflict {s : CS} {a v : Nat} (ha : s.2 a = true) (h0 : s.1 a ≠ 0) (hv : v ∈ nb a) (hc : s.1 v = s.1 a) (hl : v ≤ a) :
    (nodeStep nb own s a).1 a ≠ s.1 a ∧ (nodeStep nb own s a).2 a = true := by
  have hm : s.1 a ∈ marks nb s.1 a := by
    refine List.mem_map.2 ⟨v, List.mem_filter.2 ⟨hv, ?_⟩, hc⟩
    unfold seen
    have : ¬ a < v := by omega
    simp [hc, h0, this]
  rcases node_cases (nb := nb) (own := own) s a with ⟨h1, _⟩ | ⟨_, _, h1, h2⟩ | ⟨_, _, h1, _⟩
  · rw [ha] at h1; exact absurd h1 (by decide)
  · rw [h1, upd_same, h2, if_neg fun h => h0 h.1]
    refine ⟨fun e => ?_, ha⟩
    have h5 := (mex_spec (marks nb s.1 a)).1
    rw [e] at h5
    exact h5 hm
  · exact absurd hm h1

theorem node_colored {s : CS} {a : Nat} (h : s.2 a = true ∨ s.1 a ≠ 0) : (nodeStep nb own s a).1 a ≠ 0 := by
  have hp := (mex_spec (marks nb s.1 a)).2.1
  rcases node_cases (nb := nb) (own := own) s a with ⟨h1, h2⟩ | ⟨_, _, h1, _⟩ | ⟨_, h1, _, h2⟩
  · rw [h2]
    rcases h with h | h
    · rw [h] at h1; exact absurd h1 (by decide)
    · exact h
  · rw [h1, upd_same]; omega
  · rw [h2]; exact h1

theorem node_bound {s : CS} {a : Nat} (h : s.1 a ≤ (nb a).length + 1) : (nodeStep nb own s a).1 a ≤ (nb a).length + 1 := by
  have hp := (mex_spec (marks nb s.1 a)).2.2.1
  have hq := marks_length (nb := nb) s.1 a
  rcases node_cases (nb := nb) (own := own) s a with ⟨_, h2⟩ | ⟨_, _, h1, _⟩ | ⟨_, h1, _, h2⟩
  · rw [h2]; exact h
  · rw [h1, upd_same]; omega
  · rw [h2]; exact h

/-- After a visit, the node is finished or differs from its smaller neighbours. -/
theorem node_smaller (s : CS) (a : Nat) :
    (nodeStep nb own s a).2 a = false ∨ ∀ v ∈ nb a, v < a → s.1 v ≠ (nodeStep nb own s a).1 a := by
  rcases node_cases (nb := nb) (own := own) s a with ⟨h1, h2⟩ | ⟨_, h0, h1, _⟩ | ⟨_, _, _, h2⟩
  · left; rw [h2]; exact h1
  · right
    intro v hv _
    rw [h1, upd_same]
    exact Ne.symm (mex_fresh hv h0)
  · left; rw [h2]; exact upd_same _ _ _

/-- A node that differs from its smaller neighbours is finished by a visit. -/
theorem node_finish {s : CS} {a : Nat} (hirr : a ∉ nb a) (h0 : s.1 a ≠ 0) (h : ∀ v ∈ nb a, v < a → s.1 v ≠ s.1 a) :
    (nodeStep nb own s a).2 a = false := by
  rcases node_cases (nb := nb) (own := own) s a with ⟨h1, h2⟩ | ⟨_, h3, _, _⟩ | ⟨_, _, _, h2⟩
  · rw [h2]; exact h1
  · exfalso
    rcases h3 with h3 | h3
    · exact h0 h3
    · obtain ⟨v, hv, e⟩ := List.mem_map.1 h3
      obtain ⟨hv, hs⟩ := List.mem_filter.1 hv
      have hne : v ≠ a := fun h => hirr (h ▸ hv)
      have hlt : ¬ v < a := fun h' => h v hv h' e
      unfold seen at hs
      have : a < v := by omega
      simp [e, h0, this] at hs
  · rw [h2]; exact upd_same _ _ _

theorem node_local {s : CS} {a : Nat} (h : s.2 a = true → s.1 a ≠ 0 → far nb own a = true) (h2 : (nodeStep nb own s a).2 a = true) :
    far nb own a = true := by
  rcases node_cases (nb := nb) (own := own) s a with ⟨h1, h3⟩ | ⟨ha, h0, _, h3⟩ | ⟨_, _, _, h3⟩
  · rw [h3, h1] at h2; exact absurd h2 (by decide)
  · rw [h3] at h2
    by_cases hz : s.1 a = 0
    · cases hf : far nb own a with
      | true => rfl
      | false => rw [if_pos ⟨hz, hf⟩, upd_same] at h2; exact absurd h2 (by decide)
    · exact h ha hz
  · rw [h3] at h2
    rw [show (s.1, upd s.2 a false).2 a = false from upd_same _ _ _] at h2
    exact absurd h2 (by decide)

/-! ## The nodes of one process -/

theorem run_other : ∀ (T : List Nat) (s : CS) {v : Nat}, v ∉ T → (run nb own s T).1 v = s.1 v ∧ (run nb own s T).2 v = s.2 v
  | [], _, _, _ => ⟨rfl, rfl⟩
  | a :: T, s, v, h => by
    have h1 := run_other T (nodeStep nb own s a) (fun hm => h (List.mem_cons_of_mem _ hm))
    have h2 := node_other (nb := nb) (own := own) s (a := a) (v := v) (fun e => h (e ▸ List.mem_cons_self ..))
    exact ⟨h1.1.trans h2.1, h1.2.trans h2.2⟩

theorem run_inactive : ∀ (T : List Nat) (s : CS) {v : Nat}, s.2 v = false → (run nb own s T).1 v = s.1 v ∧ (run nb own s T).2 v = s.2 v
  | [], _, _, _ => ⟨rfl, rfl⟩
  | a :: T, s, v, h => by
    have h2 : (nodeStep nb own s a).1 v = s.1 v ∧ (nodeStep nb own s a).2 v = s.2 v := by
      by_cases hv : v = a
      · subst hv; rw [node_inactive h]; exact ⟨rfl, rfl⟩
      · exact node_other s hv
    have h1 := run_inactive T (nodeStep nb own s a) (v := v) (h2.2.trans h)
    exact ⟨h1.1.trans h2.1, h1.2.trans h2.2⟩

/-- A visited node is visited once, in a state that agrees with the first one on the node and on all others that do not change. -/
theorem run_at {T : List Nat} (hT : T.Nodup) (s : CS) {a : Nat} (ha : a ∈ T) :
    ∃ t : CS, t.1 a = s.1 a ∧ t.2 a = s.2 a ∧ (∀ v, v ∉ T → t.1 v = s.1 v) ∧ (∀ v, s.2 v = false → t.1 v = s.1 v) ∧
      (run nb own s T).1 a = (nodeStep nb own t a).1 a ∧ (run nb own s T).2 a = (nodeStep nb own t a).2 a := by
  obtain ⟨T1, T2, rfl⟩ := List.append_of_mem ha
  rw [List.nodup_append] at hT
  obtain ⟨_, h2, h3⟩ := hT
  have h4 : a ∉ T1 := fun h => h3 a h a (List.mem_cons_self ..) rfl
  have h5 : a ∉ T2 := (List.nodup_cons.1 h2).1
  have e : run nb own s (T1 ++ a :: T2) = run nb own (nodeStep nb own (run nb own s T1) a) T2 := by
    unfold run; rw [List.foldl_append]; rfl
  refine ⟨run nb own s T1, (run_other T1 s h4).1, (run_other T1 s h4).2, fun v hv => ?_, fun v hv => (run_inactive T1 s hv).1, ?_, ?_⟩
  · exact (run_other T1 s fun h => hv (List.mem_append_left _ h)).1
  · rw [e]; exact (run_other T2 _ h5).1
  · rw [e]; exact (run_other T2 _ h5).2

/-- A changed colour differs from those of all neighbours. -/
theorem run_fresh (hsym : ∀ a b, b ∈ nb a → a ∈ nb b) (s0 : CS) : ∀ (T : List Nat) (s : CS),
    (∀ a, s.1 a ≠ s0.1 a → ∀ v ∈ nb a, v ≠ a → s.1 a ≠ s.1 v) →
    ∀ a, (run nb own s T).1 a ≠ s0.1 a → ∀ v ∈ nb a, v ≠ a → (run nb own s T).1 a ≠ (run nb own s T).1 v
  | [], _, h => h
  | b :: T, s, h => by
    refine run_fresh hsym s0 T (nodeStep nb own s b) fun a ha v hv hne => ?_
    by_cases hc : (nodeStep nb own s b).1 b = s.1 b
    · have e : ∀ x, (nodeStep nb own s b).1 x = s.1 x := fun x => by
        by_cases hx : x = b
        · rw [hx]; exact hc
        · exact (node_other s hx).1
      rw [e, e]
      rw [e] at ha
      exact h a ha v hv hne
    · by_cases hab : a = b
      · subst hab
        rw [(node_other s hne).1]
        exact node_fresh hc hv
      · by_cases hvb : v = b
        · subst hvb
          rw [(node_other s hab).1]
          exact Ne.symm (node_fresh hc (hsym _ _ hv))
        · rw [(node_other s hab).1] at ha ⊢
          rw [(node_other s hvb).1]
          exact h a ha v hv hne

/-! ## Supersteps -/

/-- The nodes that the processes visit. -/
structure Visits (own : Nat → Nat) (L : Nat → Nat → List Nat) (S N n : Nat) : Prop where
  nodup : ∀ p i, i < S → (L p i).Nodup
  owner : ∀ p i a, i < S → a ∈ L p i → own a = p
  all : ∀ a, a < n → own a < N ∧ ∃ i, i < S ∧ a ∈ L (own a) i

variable {L : Nat → Nat → List Nat} {S N n : Nat}

/-- What holds between supersteps. -/
structure Inv (nb : Nat → List Nat) (own : Nat → Nat) (s : CS) : Prop where
  conflict : ∀ a b, b ∈ nb a → s.1 a = s.1 b → s.1 a ≠ 0 → b < a → s.2 a = true ∧ own a ≠ own b
  uncolored : ∀ a, s.1 a = 0 → s.2 a = true
  bound : ∀ a, s.1 a ≤ (nb a).length + 1
  interface : ∀ a, s.2 a = true → s.1 a ≠ 0 → far nb own a = true

theorem far_of {a b : Nat} (h : b ∈ nb a) (hne : own a ≠ own b) : far nb own a = true := by
  unfold far
  rw [List.any_eq_true]
  exact ⟨b, h, by simpa using Ne.symm hne⟩

/-- What a superstep does to one node. -/
theorem step_at (Vs : Visits own L S N n) {s : CS} {i : Nat} (hi : i < S) (a : Nat) :
    (a ∉ L (own a) i ∧ (step nb own L s i).1 a = s.1 a ∧ (step nb own L s i).2 a = s.2 a) ∨
    ∃ t : CS, t.1 a = s.1 a ∧ t.2 a = s.2 a ∧ (∀ v, own v ≠ own a → t.1 v = s.1 v) ∧ (∀ v, s.2 v = false → t.1 v = s.1 v) ∧
      (step nb own L s i).1 a = (nodeStep nb own t a).1 a ∧ (step nb own L s i).2 a = (nodeStep nb own t a).2 a := by
  by_cases ha : a ∈ L (own a) i
  · right
    obtain ⟨t, h1, h2, h3, h4, h5, h6⟩ := run_at (nb := nb) (own := own) (Vs.nodup (own a) i hi) s ha
    exact ⟨t, h1, h2, fun v hv => h3 v fun hm => hv (Vs.owner _ i v hi hm), h4, h5, h6⟩
  · left
    exact ⟨ha, run_other _ s ha⟩

theorem step_inactive (Vs : Visits own L S N n) {s : CS} {i : Nat} (hi : i < S) {v : Nat} (h : s.2 v = false) :
    (step nb own L s i).1 v = s.1 v ∧ (step nb own L s i).2 v = false := by
  have := run_inactive (nb := nb) (own := own) (L (own v) i) s h
  exact ⟨this.1, this.2.trans h⟩

theorem step_far (Vs : Visits own L S N n) {s : CS} {i : Nat} (hi : i < S) {a : Nat} (hc : (step nb own L s i).1 a ≠ s.1 a)
    (hf : far nb own a = true) : (step nb own L s i).2 a = true ∧ a ∈ L (own a) i := by
  have hm : a ∈ L (own a) i := by
    by_contra hm
    exact hc (run_other _ s hm).1
  refine ⟨?_, hm⟩
  rcases step_at (nb := nb) Vs hi (s := s) a with ⟨h, _⟩ | ⟨t, h1, _, _, _, h5, h6⟩
  · exact absurd hm h
  · rw [h6]
    rw [h5, ← h1] at hc
    exact node_far hc hf

theorem Inv.step (hsym : ∀ a b, b ∈ nb a → a ∈ nb b) (Vs : Visits own L S N n) {s : CS} (I : Inv nb own s) {i : Nat} (hi : i < S) :
    Inv nb own (Greedy.step nb own L s i) where
  conflict := by
    intro a b hb he h0 hlt
    have J : ∀ p a, (run nb own s (L p i)).1 a ≠ s.1 a → ∀ v ∈ nb a, v ≠ a → _ :=
      fun p => run_fresh (own := own) hsym s (L p i) s fun a h => absurd rfl h
    have hne : b ≠ a := by omega
    by_cases ho : own a = own b
    · have he' : (run nb own s (L (own a) i)).1 a = (run nb own s (L (own a) i)).1 b := by
        have : (run nb own s (L (own a) i)).1 a = (run nb own s (L (own b) i)).1 b := he
        rw [← ho] at this; exact this
      by_cases ha : (run nb own s (L (own a) i)).1 a = s.1 a
      · by_cases hb' : (run nb own s (L (own a) i)).1 b = s.1 b
        · have h0' : s.1 a ≠ 0 := by rw [← ha]; exact h0
          exact absurd ho (I.conflict a b hb (by rw [← ha, ← hb']; exact he') h0' hlt).2
        · exact absurd he'.symm (J _ b hb' a (hsym _ _ hb) (Ne.symm hne))
      · exact absurd he' (J _ a ha b hb hne)
    · refine ⟨?_, ho⟩
      have hf := far_of hb ho
      by_cases ha : (Greedy.step nb own L s i).1 a = s.1 a
      swap
      · exact (step_far Vs hi ha hf).1
      by_cases hb' : (Greedy.step nb own L s i).1 b = s.1 b
      swap
      · exfalso
        have h1 := J (own b) b hb' a (hsym _ _ hb) (Ne.symm hne)
        have h2 : (run nb own s (L (own b) i)).1 a = s.1 a := (run_other _ s fun hm => ho (Vs.owner _ i a hi hm)).1
        rw [h2, ← ha] at h1
        exact h1 he.symm
      have hs : s.1 a = s.1 b := by rw [← ha, ← hb']; exact he
      have h0' : s.1 a ≠ 0 := by rw [← ha]; exact h0
      obtain ⟨hact, _⟩ := I.conflict a b hb hs h0' hlt
      rcases step_at (nb := nb) Vs hi (s := s) a with ⟨_, _, h⟩ | ⟨t, h1, h2, h3, _, _, h6⟩
      · rw [h]; exact hact
      · rw [h6]
        exact (node_conflict (by rw [h2]; exact hact) (by rw [h1]; exact h0') hb
          (by rw [h3 b (Ne.symm ho), h1]; exact hs.symm) (by omega)).2
  uncolored := by
    intro a h0
    rcases step_at (nb := nb) Vs hi (s := s) a with ⟨_, h1, h⟩ | ⟨t, h1, h2, h3, _, h5, h6⟩
    · rw [h]; exact I.uncolored a (by rw [← h1]; exact h0)
    · rw [h5] at h0
      refine absurd h0 (node_colored ?_)
      rw [h1, h2]
      by_cases h : s.1 a = 0
      · exact Or.inl (I.uncolored a h)
      · exact Or.inr h
  bound := by
    intro a
    rcases step_at (nb := nb) Vs hi (s := s) a with ⟨_, h1, h⟩ | ⟨t, h1, h2, h3, _, h5, h6⟩
    · rw [h1]; exact I.bound a
    · rw [h5]; exact node_bound (by rw [h1]; exact I.bound a)
  interface := by
    intro a hact h0
    rcases step_at (nb := nb) Vs hi (s := s) a with ⟨_, h1, h⟩ | ⟨t, h1, h2, h3, _, h5, h6⟩
    · exact I.interface a (by rw [← h]; exact hact) (by rw [← h1]; exact h0)
    · exact node_local (by rw [h1, h2]; exact I.interface a) (by rw [← h6]; exact hact)

theorem step_colored (Vs : Visits own L S N n) {s : CS} (I : Inv nb own s) {i : Nat} (hi : i < S) {a : Nat}
    (h : s.1 a ≠ 0 ∨ a ∈ L (own a) i) : (step nb own L s i).1 a ≠ 0 := by
  rcases step_at (nb := nb) Vs hi (s := s) a with ⟨h1, h2, _⟩ | ⟨t, h1, h2, h3, _, h5, h6⟩
  · rw [h2]
    rcases h with h | h
    · exact h
    · exact absurd h h1
  · rw [h5]
    apply node_colored
    rw [h1, h2]
    by_cases h : s.1 a = 0
    · exact Or.inl (I.uncolored a h)
    · exact Or.inr h

/-! ## Passes -/

theorem pass_succ (i : Nat) (s : CS) : pass nb own L (i + 1) s = step nb own L (pass nb own L i s) i := by
  unfold pass
  rw [List.range_succ, List.foldl_append]
  rfl

theorem Inv.pass (hsym : ∀ a b, b ∈ nb a → a ∈ nb b) (Vs : Visits own L S N n) {s : CS} (I : Inv nb own s) :
    ∀ {i : Nat}, i ≤ S → Inv nb own (Greedy.pass nb own L i s)
  | 0, _ => I
  | i + 1, h => by
    rw [pass_succ]
    exact (I.pass hsym Vs (i := i) (by omega)).step hsym Vs (by omega)

theorem pass_inactive (Vs : Visits own L S N n) {s : CS} {v : Nat} (h : s.2 v = false) :
    ∀ {i : Nat}, i ≤ S → (pass nb own L i s).1 v = s.1 v ∧ (pass nb own L i s).2 v = false
  | 0, _ => ⟨rfl, h⟩
  | i + 1, hi => by
    obtain ⟨h1, h2⟩ := pass_inactive Vs h (i := i) (by omega)
    obtain ⟨h3, h4⟩ := step_inactive (nb := nb) Vs (show i < S by omega) h2
    rw [pass_succ]
    exact ⟨h3.trans h1, h4⟩

/-- What is inactive at some point of a pass is inactive at its end. -/
theorem pass_inactive_later (Vs : Visits own L S N n) {s : CS} {v i : Nat} (h : (pass nb own L i s).2 v = false) :
    ∀ {j : Nat}, i ≤ j → j ≤ S → (pass nb own L j s).2 v = false := by
  intro j hij
  induction hij with
  | refl => intro _; exact h
  | step _ ih =>
    intro hj
    rw [Nat.succ_eq_add_one, pass_succ]
    exact (step_inactive Vs (by omega) (ih (by omega))).2

theorem pass_colored (hsym : ∀ a b, b ∈ nb a → a ∈ nb b) (Vs : Visits own L S N n) {s : CS} (I : Inv nb own s) {a : Nat} :
    ∀ {i : Nat}, i ≤ S → (s.1 a ≠ 0 ∨ ∃ j, j < i ∧ a ∈ L (own a) j) → (pass nb own L i s).1 a ≠ 0
  | 0, _, h => by
    rcases h with h | ⟨j, hj, _⟩
    · exact h
    · omega
  | i + 1, hi, h => by
    rw [pass_succ]
    apply step_colored Vs (I.pass hsym Vs (by omega)) (by omega)
    rcases h with h | ⟨j, hj, hm⟩
    · exact Or.inl (pass_colored hsym Vs I (by omega) (Or.inl h))
    · by_cases hji : j = i
      · subst hji; exact Or.inr hm
      · exact Or.inl (pass_colored hsym Vs I (by omega) (Or.inr ⟨j, by omega, hm⟩))

/-- The node is finished or differs from its smaller neighbours. -/
def Ahead (nb : Nat → List Nat) (k : Nat) (s : CS) : Prop := s.2 k = false ∨ ∀ v ∈ nb k, v < k → s.1 v ≠ s.1 k

theorem step_ahead (Vs : Visits own L S N n) {s : CS} {i k : Nat} (hi : i < S) (hs : ∀ a, a < k → s.2 a = false)
    (h : Ahead nb k s ∨ k ∈ L (own k) i) : Ahead nb k (step nb own L s i) := by
  rcases step_at (nb := nb) Vs hi (s := s) k with ⟨h1, h2, h3⟩ | ⟨t, h1, h2, h3, h4, h5, h6⟩
  · rcases h with (h | h) | h
    · left; rw [h3]; exact h
    · right
      intro v hv hlt
      rw [h2, (step_inactive Vs hi (hs v hlt)).1]
      exact h v hv hlt
    · exact absurd h h1
  · rcases node_smaller (nb := nb) (own := own) t k with h7 | h7
    · left; rw [h6]; exact h7
    · right
      intro v hv hlt
      rw [h5, (step_inactive Vs hi (hs v hlt)).1, ← h4 v (hs v hlt)]
      exact h7 v hv hlt

theorem pass_ahead (Vs : Visits own L S N n) {s : CS} {k : Nat} (hs : ∀ a, a < k → s.2 a = false) :
    ∀ {i : Nat}, i ≤ S → (Ahead nb k s ∨ ∃ j, j < i ∧ k ∈ L (own k) j) → Ahead nb k (pass nb own L i s)
  | 0, _, h => by
    rcases h with h | ⟨j, hj, _⟩
    · exact h
    · omega
  | i + 1, hi, h => by
    rw [pass_succ]
    apply step_ahead Vs (by omega) (fun a ha => (pass_inactive Vs (hs a ha) (by omega)).2)
    rcases h with h | ⟨j, hj, hm⟩
    · exact Or.inl (pass_ahead Vs hs (by omega) (Or.inl h))
    · by_cases hji : j = i
      · subst hji; exact Or.inr hm
      · exact Or.inl (pass_ahead Vs hs (by omega) (Or.inr ⟨j, by omega, hm⟩))

theorem pass_finish (hsym : ∀ a b, b ∈ nb a → a ∈ nb b) (hirr : ∀ a, a ∉ nb a) (Vs : Visits own L S N n) {s : CS} (I : Inv nb own s)
    {k : Nat} (hk : k < n) (hs : ∀ a, a < k → s.2 a = false) (h0 : s.1 k ≠ 0) (hA : Ahead nb k s) : (pass nb own L S s).2 k = false := by
  obtain ⟨_, i, hi, hm⟩ := Vs.all k hk
  refine pass_inactive_later Vs (i := i + 1) ?_ (by omega) (Nat.le_refl _)
  rw [pass_succ]
  have hA' := pass_ahead (own := own) (L := L) Vs hs (i := i) (by omega) (Or.inl hA)
  have h0' := pass_colored hsym Vs I (a := k) (i := i) (by omega) (Or.inl h0)
  have hs' : ∀ a, a < k → (pass nb own L i s).2 a = false := fun a ha => (pass_inactive Vs (hs a ha) (by omega)).2
  rcases hA' with hA' | hA'
  · exact (step_inactive Vs hi hA').2
  · rcases step_at (nb := nb) Vs hi (s := pass nb own L i s) k with ⟨h, _⟩ | ⟨t, h1, h2, h3, h4, h5, h6⟩
    · exact absurd hm h
    · rw [h6]
      refine node_finish (hirr k) (by rw [h1]; exact h0') fun v hv hlt => ?_
      rw [h4 v (hs' v hlt), h1]
      exact hA' v hv hlt

/-- `t` passes. -/
def passes (nb : Nat → List Nat) (own : Nat → Nat) (L : Nat → Nat → List Nat) (S : Nat) : Nat → CS → CS
  | 0, s => s
  | t + 1, s => pass nb own L S (passes nb own L S t s)

theorem Inv.passes (hsym : ∀ a b, b ∈ nb a → a ∈ nb b) (Vs : Visits own L S N n) {s : CS} (I : Inv nb own s) :
    ∀ t, Inv nb own (Greedy.passes nb own L S t s)
  | 0 => I
  | t + 1 => (I.passes hsym Vs t).pass hsym Vs (Nat.le_refl _)

theorem passes_colored (hsym : ∀ a b, b ∈ nb a → a ∈ nb b) (Vs : Visits own L S N n) {s : CS} (I : Inv nb own s) {a : Nat} (ha : a < n)
    (t : Nat) : (passes nb own L S (t + 1) s).1 a ≠ 0 := by
  obtain ⟨_, i, hi, hm⟩ := Vs.all a ha
  exact pass_colored hsym Vs (I.passes hsym Vs t) (Nat.le_refl _) (Or.inr ⟨i, hi, hm⟩)

/-- Two passes finish the smallest node that is not finished. -/
theorem passes_settle (hsym : ∀ a b, b ∈ nb a → a ∈ nb b) (hirr : ∀ a, a ∉ nb a) (Vs : Visits own L S N n) {s : CS} (I : Inv nb own s) :
    ∀ k, k ≤ n → ∀ a, a < k → (passes nb own L S (2 * k + 1) s).2 a = false
  | 0, _, a, h => absurd h (Nat.not_lt_zero _)
  | k + 1, hk, a, h => by
    have hs := passes_settle hsym hirr Vs I k (by omega)
    have e : passes nb own L S (2 * (k + 1) + 1) s = pass nb own L S (pass nb own L S (passes nb own L S (2 * k + 1) s)) := rfl
    have hs' : ∀ a, a < k → (pass nb own L S (passes nb own L S (2 * k + 1) s)).2 a = false :=
      fun a ha => (pass_inactive Vs (hs a ha) (Nat.le_refl _)).2
    rw [e]
    by_cases hak : a = k
    · subst hak
      obtain ⟨_, i, hi, hm⟩ := Vs.all a (by omega)
      exact pass_finish hsym hirr Vs (I.passes hsym Vs (2 * a + 2)) (by omega) hs'
        (passes_colored hsym Vs I (by omega) (2 * a + 1)) (pass_ahead Vs hs (Nat.le_refl _) (Or.inr ⟨i, hi, hm⟩))
    · exact (pass_inactive Vs (hs' a (by omega)) (Nat.le_refl _)).2

theorem settled_quiet (Vs : Visits own L S N n) {s : CS} (h : ∀ a, a < n → s.2 a = false)
    (hn : ∀ p i a, p < N → i < S → a ∈ L p i → a < n) : Quiet nb own L S N s :=
  fun i hi p hp a ha _ => (pass_inactive Vs (h a (hn p i a hp hi ha)) (by omega)).2

/-- A pass without messages ends with a proper colouring. -/
theorem quiet_proper (hsym : ∀ a b, b ∈ nb a → a ∈ nb b) (hirr : ∀ a, a ∉ nb a) (Vs : Visits own L S N n) {s : CS} (I : Inv nb own s)
    (hq : Quiet nb own L S N s) {a b : Nat} (ha : a < n) (hb : b < n) (h : b ∈ nb a) :
    (pass nb own L S s).1 a ≠ (pass nb own L S s).1 b := by
  have I' := I.pass hsym Vs (i := S) (Nat.le_refl _)
  have hc : ∀ x, x < n → (pass nb own L S s).1 x ≠ 0 := fun x hx => by
    obtain ⟨_, i, hi, hm⟩ := Vs.all x hx
    exact pass_colored hsym Vs I (Nat.le_refl _) (Or.inr ⟨i, hi, hm⟩)
  have hin : ∀ x, x < n → (pass nb own L S s).2 x = false := fun x hx => by
    rw [← Bool.not_eq_true]
    intro hact
    have hf := I'.interface x hact (hc x hx)
    obtain ⟨hp, i, hi, hm⟩ := Vs.all x hx
    have := pass_inactive_later Vs (hq i hi (own x) hp x hm hf) (j := S) (by omega) (Nat.le_refl _)
    rw [this] at hact
    exact absurd hact (by decide)
  intro e
  rcases Nat.lt_trichotomy a b with hlt | rfl | hlt
  · have := (I'.conflict b a (hsym _ _ h) e.symm (hc b hb) hlt).1
    rw [hin b hb] at this
    exact absurd this (by decide)
  · exact hirr a h
  · have := (I'.conflict a b h e (hc a ha) hlt).1
    rw [hin a ha] at this
    exact absurd this (by decide)

/-- A node with a loop and a neighbour on another process is never finished. -/
theorem loop_active (Vs : Visits own L S N n) {a : Nat} (hl : a ∈ nb a) (hf : far nb own a = true) {s : CS} (h : s.2 a = true) :
    ∀ {i : Nat}, i ≤ S → (pass nb own L i s).2 a = true
  | 0, _ => h
  | i + 1, hi => by
    have ih := loop_active Vs hl hf h (i := i) (by omega)
    rw [pass_succ]
    rcases step_at (nb := nb) Vs (show i < S by omega) (s := pass nb own L i s) a with ⟨_, _, h1⟩ | ⟨t, h1, h2, h3, h4, h5, h6⟩
    · rw [h1]; exact ih
    · rw [h6]
      rw [ih] at h2
      by_cases h0 : t.1 a = 0
      · apply node_far _ hf
        intro e
        have := node_colored (nb := nb) (own := own) (s := t) (a := a) (Or.inl h2)
        rw [e] at this
        exact this h0
      · exact (node_conflict h2 h0 hl rfl (Nat.le_refl _)).2

/-- A first state: no colours, all nodes are visited. -/
theorem Inv.start : Inv nb own (fun _ => 0, fun _ => true) where
  conflict _ _ _ _ h _ := absurd rfl h
  uncolored _ _ := rfl
  bound _ := Nat.zero_le _
  interface _ _ h := absurd rfl h

end Verif.Dist.Greedy

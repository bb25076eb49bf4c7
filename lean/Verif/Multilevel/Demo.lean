import Verif.Multilevel.Other

/-!
# Concrete parts and configurations for the examples
-/

namespace Verif.Multilevel
open Verif.Subgraph Verif.Subgraph.Props Verif.Blocks Verif.Blocks.Props Verif.Limits Verif.Metrics

theorem steps_perm (l : List Nat) : (l.flatMap fun u => [Step.take u, Step.store u]).Perm (l.map Step.take ++ l.map Step.store) := by
  induction l with
  | nil => exact List.Perm.refl _
  | cons a l ih =>
    rw [List.flatMap_cons, List.map_cons, List.map_cons]
    show (Step.take a :: Step.store a :: _).Perm (Step.take a :: (l.map Step.take ++ Step.store a :: l.map Step.store))
    refine List.Perm.cons _ ?_
    exact (List.Perm.cons _ ih).trans List.perm_middle.symm

theorem steps_causal (l : List Nat) : ∀ i u, (l.flatMap fun u => [Step.take u, Step.store u])[i]? = some (Step.store u) →
    Step.take u ∈ (l.flatMap fun u => [Step.take u, Step.store u]).take i := by
  induction l with
  | nil => intro i u h; simp at h
  | cons a l ih =>
    intro i u h
    rw [List.flatMap_cons] at h ⊢
    match i with
    | 0 => simp at h
    | 1 =>
      simp at h
      subst h
      simp
    | i + 2 =>
      have := ih i u (by simpa using h)
      rw [show i + 2 = (i + 1) + 1 from rfl]
      show Step.take u ∈ Step.take a :: Step.store a :: List.take i _
      exact List.mem_cons_of_mem _ (List.mem_cons_of_mem _ this)

theorem count_construct (f : Nat → Nat) (b : Nat) : ∀ k, ((List.range k).flatMap fun b => List.replicate (f b) b).count b =
    if b < k then f b else 0 := by
  intro k
  induction k with
  | zero => rfl
  | succ k ih =>
    rw [List.range_succ, List.flatMap_append, List.count_append, ih, List.flatMap_cons, List.flatMap_nil, List.append_nil,
      List.count_replicate]
    by_cases h : b = k
    · subst h; simp
    · have : ¬ (k == b) = true := by simpa using fun h' => h h'.symm
      rw [if_neg this]
      by_cases h2 : b < k
      · rw [if_pos h2, if_pos (by omega)]; omega
      · rw [if_neg h2, if_neg (by omega)]

theorem seqSched_ok (n k : Nat) (part : Nat → Nat) : (seqSched n k part).Ok n k part := by
  refine ⟨?_, steps_perm _, steps_causal _, ?_, ?_⟩
  · show ([List.range n] : List (List Nat)).flatten.Perm _
    simp
  · intro b hb
    show ((List.range k).flatMap fun b => List.replicate ((List.range n).countP (part · = b) + 1) b).count b = _
    rw [count_construct (fun b => (List.range n).countP (part · = b) + 1), if_pos hb]
  · intro b hb
    change b ∈ (List.range k).flatMap fun b => List.replicate ((List.range n).countP (part · = b) + 1) b at hb
    rw [List.mem_flatMap] at hb
    obtain ⟨c, hc, hb⟩ := hb
    rw [List.mem_replicate] at hb
    rw [hb.2]
    exact List.mem_range.1 hc

/-- A path of eight nodes with unit weights. -/
def path8 : LGraph := [(1, [(1, 1)]), (1, [(0, 1), (2, 1)]), (1, [(1, 1), (3, 1)]), (1, [(2, 1), (4, 1)]),
  (1, [(3, 1), (5, 1)]), (1, [(4, 1), (6, 1)]), (1, [(5, 1), (7, 1)]), (1, [(6, 1)])]

/-- Its contraction to four pairs. -/
def pairs4 : LGraph := [(2, [(1, 1)]), (2, [(0, 1), (2, 1)]), (2, [(1, 1), (3, 1)]), (2, [(2, 1)])]

/-- Parts that contract pairs of nodes of the path, cut every graph in the middle and refine nothing; the bipartitions
of a second copy put all nodes on one side. -/
def demo : Env where
  coarsen := fun _ g => if g = path8 then (some (pairs4, (· / 2)), true) else (some (g, id), false)
  bipart := fun key g u => if key = [1] then 1 else if 2 * u < g.length then 0 else 1
  bip := fun _ g _ _ u => if 2 * u < g.length then 0 else 1
  refine := fun _ p _ => p.part
  refine2 := fun _ p _ => p.part
  sched := fun _ p => seqSched p.g.length p.k p.part
  order := fun _ n => List.range n
  map0 := fun _ _ => 7
  slot0 := fun _ _ => 7
  nodes0 := fun _ _ => 7
  mapping0 := fun _ _ => 7
  cells := fun _ _ => 7
  lazyMem := fun _ _ => ⟨fun _ => 7, ⟨0, 0, 0, 0⟩, true⟩
  tmp := fun _ _ => ⟨fun _ => 7, ⟨0, 0, 0, 0⟩, true⟩

theorem demo_ok : demo.Ok := by
  refine ⟨?_, ?_, Or.inr ?_, ?_, ?_, ?_, ?_, ?_, ?_⟩
  · intro key g c f h hwf hp
    change (if g = path8 then (some (pairs4, (· / 2)), true) else (some (g, id), false) : Option (LGraph × (Nat → Nat)) × Bool).1
      = some (c, f) at h
    split at h
    · rename_i hg
      subst hg
      cases h
      exact ⟨by decide, by decide, by decide, by decide, by decide, by decide⟩
    · cases h
      exact ⟨hwf, hp, rfl, fun u hu => hu, le_refl _, le_refl _⟩
  · intro key g h
    change (if g = path8 then (some (pairs4, (· / 2)), true) else (some (g, id), false) : Option (LGraph × (Nat → Nat)) × Bool).2
      = true at h
    split at h
    · rename_i hg
      subst hg
      exact ⟨pairs4, (· / 2), rfl, by decide⟩
    · cases h
  · intro key g h
    change (if g = path8 then (some (pairs4, (· / 2)), true) else (some (g, id), false) : Option (LGraph × (Nat → Nat)) × Bool).1
      = none at h
    split at h <;> cases h
  · intro key g u
    show (if key = [1] then 1 else if 2 * u < g.length then 0 else 1) < 2
    split
    · decide
    · split <;> decide
  · intro key g b k u
    show (if 2 * u < g.length then 0 else 1) < 2
    split <;> decide
  · exact fun _ p _ h => h
  · exact fun _ p _ h => h
  · exact fun _ p _ => seqSched_ok _ _ _
  · exact fun _ n => List.Perm.refl _

theorem demo_memOk : demo.MemOk := ⟨fun _ _ => ⟨rfl, le_refl _, le_refl _⟩, fun _ _ => rfl⟩

theorem id_rounding : DoubleRounding (id : ℚ → ℚ) where
  mono := fun _ _ h => h
  exact := fun _ _ _ _ => rfl
  rel := fun x => by
    rw [id, sub_self, abs_zero]
    positivity

/-- Explicit limits for the nodes of the path. -/
def demoInput (limits : List Int) : PCtx := ⟨8, 8, 8, 1, limits.length, limits, limits, limits.sum, -1, false⟩

/-- A configuration with contraction limit 2. -/
def demoCfg (limits : List Int) (mode : Mode) (lazy : Bool) : Cfg where
  rd := id
  input := demoInput limits
  limit := 2
  threads := 2
  load := 1
  mode := mode
  lazy := lazy
  refineAfter := false
  minLevels := 1
  adaptive := false
  pow := fun _ _ => 1
  rbToplevel := false

theorem demo_hyp {limits : List Int} (h : ∀ x ∈ limits, 0 ≤ x) (hs : 4 ≤ limits.sum) (h2 : 2 ≤ limits.length)
    (hl : limits.length < 2 ^ 31) (mode : Mode) (lazy : Bool) : Hyp (demoCfg limits mode lazy) demo 8 where
  env := demo_ok
  rd := id_rounding
  limits := ⟨by decide, by decide, Or.inl ⟨rfl, rfl, h, by show (8 : Int) ≤ 2 * limits.sum; omega⟩⟩
  k2 := h2
  k31 := hl
  limit := by show 1 ≤ 2; decide
  levels := by show 1 ≤ 30; decide
  threads := by show 2 ^ 1 * 2 ≤ 2 ^ 32; decide

theorem path8_ok : GOk 8 path8 := ⟨by decide, by decide, by decide, by decide⟩

end Verif.Multilevel

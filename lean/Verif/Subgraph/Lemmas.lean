import Verif.Subgraph.Spec
import Verif.Contraction.PreprocessProps
import Mathlib.Algebra.Order.BigOperators.Group.List
import Mathlib.Algebra.BigOperators.Group.List.Basic

/-! Lemmas: what a view shows of a memory into which a graph was written. -/

namespace Verif.Subgraph

/-- First edge of node `i`. -/
def first (rows : LGraph) (i : Nat) : Nat := ((rows.take i).map fun r => r.2.length).sum

theorem first_zero (rows : LGraph) : first rows 0 = 0 := by simp [first]

theorem first_succ {rows : LGraph} {i : Nat} (h : i < rows.length) :
    first rows (i + 1) = first rows i + rows[i].2.length := by
  unfold first
  rw [List.take_add_one, List.getElem?_eq_getElem h]
  simp only [List.map_append, List.sum_append, Option.toList, List.map_cons, List.map_nil, List.sum_cons,
    List.sum_nil, Nat.add_zero]

theorem first_length (rows : LGraph) : first rows rows.length = rows.m := by
  simp [first, LGraph.m]

theorem length_flat (rows : LGraph) : (rows.flatMap Prod.snd).length = rows.m := by
  simp [List.length_flatMap, LGraph.m]

theorem first_mono {rows : LGraph} {i j : Nat} (h : i ≤ j) : first rows i ≤ first rows j := by
  induction j with
  | zero => rw [Nat.le_zero.1 h]
  | succ j ih =>
    rcases Nat.lt_or_eq_of_le h with h | rfl
    · have := ih (by omega)
      by_cases hj : j < rows.length
      · rw [first_succ hj]; omega
      · have : first rows (j + 1) = first rows j := by
          unfold first
          rw [List.take_of_length_le (by omega), List.take_of_length_le (by omega)]
        omega
    · exact Nat.le_refl _

theorem flat_get {rows : LGraph} {i j : Nat} (hi : i < rows.length) (hj : j < rows[i].2.length) :
    (rows.flatMap Prod.snd)[first rows i + j]? = some rows[i].2[j] := by
  have h : rows = rows.take i ++ rows[i] :: rows.drop (i + 1) := by simp
  have hl : first rows i = ((rows.take i).flatMap Prod.snd).length := by
    rw [List.length_flatMap]; rfl
  rw [hl]
  conv => lhs; arg 1; rw [h]
  rw [List.flatMap_append, List.flatMap_cons, List.getElem?_append_right (by omega), Nat.add_sub_cancel_left,
    List.getElem?_append_left hj, List.getElem?_eq_getElem hj]

/-- Every position of the edge array belongs to a node. -/
theorem first_find {rows : LGraph} {p c : Nat} (hc : c ≤ rows.length) (hp : p < first rows c) :
    ∃ i, ∃ (hi : i < rows.length), i < c ∧ first rows i ≤ p ∧ p - first rows i < rows[i].2.length := by
  induction c with
  | zero => simp [first_zero] at hp
  | succ c ih =>
    have hs := first_succ (rows := rows) (i := c) (by omega)
    by_cases h : p < first rows c
    · obtain ⟨i, hi, h1, h2, h3⟩ := ih (by omega) h
      exact ⟨i, hi, by omega, h2, h3⟩
    · exact ⟨c, by omega, by omega, by omega, by omega⟩

/-- The memory holds the graph `rows` at the given positions. -/
structure Stored (mem : Cell → Int) (nb eb : Nat) (nwf ewf : Bool) (rows : LGraph) : Prop where
  node : ∀ i, i ≤ rows.length → mem (.node (nb + i)) = (first rows i : Int)
  nw : nwf = true → ∀ i, (h : i < rows.length) → mem (.nw (nb + i)) = rows[i].1
  edge : ∀ j, (h : j < (rows.flatMap Prod.snd).length) → mem (.edge (eb + j)) = ((rows.flatMap Prod.snd)[j].1 : Int)
  ew : ewf = true → ∀ j, (h : j < (rows.flatMap Prod.snd).length) →
    mem (.ew (eb + j)) = (rows.flatMap Prod.snd)[j].2

theorem all_one {l : List Int} (h1 : ∀ x ∈ l, 1 ≤ x) (hs : l.sum = (l.length : Int)) : ∀ x ∈ l, x = 1 := by
  induction l with
  | nil => intro x hx; exact absurd hx List.not_mem_nil
  | cons a l ih =>
    have ha := h1 a List.mem_cons_self
    have hl : (l.length : Int) ≤ l.sum := by
      have : ∀ m : List Int, (∀ x ∈ m, 1 ≤ x) → (m.length : Int) ≤ m.sum := by
        intro m
        induction m with
        | nil => intro _; simp
        | cons b m ih =>
          intro h
          have := ih fun x hx => h x (List.mem_cons_of_mem _ hx)
          have := h b List.mem_cons_self
          simp only [List.length_cons, List.sum_cons]
          push_cast
          omega
      exact this l fun x hx => h1 x (List.mem_cons_of_mem _ hx)
    simp only [List.sum_cons, List.length_cons] at hs
    push_cast at hs
    intro x hx
    rcases List.mem_cons.1 hx with rfl | hx
    · omega
    · exact ih (fun x hx => h1 x (List.mem_cons_of_mem _ hx)) (by omega) x hx

/-- A graph object over a part of the memory shows the graph stored there. -/
theorem view_stored {mem : Cell → Int} {nb eb : Nat} {nwf ewf : Bool} {rows : LGraph}
    (hs : Stored mem nb eb nwf ewf rows) (hp : rows.Positive)
    (hn : nwf = false → ∀ r ∈ rows, r.1 = 1) (he : ewf = false → ∀ r ∈ rows, ∀ e ∈ r.2, e.2 = 1) :
    View.graph ⟨nb, rows.length, eb, rows.m, nwf, ewf⟩ mem = rows := by
  have hnw : ∀ i, (h : i < rows.length) →
      (if View.nodeWeighted ⟨nb, rows.length, eb, rows.m, nwf, ewf⟩ mem then mem (.nw (nb + i)) else 1) = rows[i].1 := by
    intro i h
    cases hf : nwf with
    | false =>
      subst hf
      simp [View.nodeWeighted, hn rfl _ (List.getElem_mem h)]
    | true =>
      subst hf
      have hl : (List.range rows.length).map (fun i => mem (.nw (nb + i))) = rows.map Prod.fst := by
        apply List.ext_getElem
        · simp
        · intro j h1 h2
          simp at h1 h2
          simp [hs.nw rfl j h1]
      unfold View.nodeWeighted
      simp only [hl, Bool.true_and]
      split
      · exact hs.nw rfl i h
      · rename_i hne
        simp only [ne_eq, decide_not, Bool.not_eq_true', decide_eq_false_iff_not, Decidable.not_not] at hne
        exact (all_one (l := rows.map Prod.fst) (by
          intro x hx
          obtain ⟨r, hr, rfl⟩ := List.mem_map.1 hx
          exact (hp r hr).1) (by simpa using hne) _ (List.mem_map.2 ⟨_, List.getElem_mem h, rfl⟩)).symm
  have hew : ∀ j, (h : j < (rows.flatMap Prod.snd).length) →
      (if View.edgeWeighted ⟨nb, rows.length, eb, rows.m, nwf, ewf⟩ mem then mem (.ew (eb + j)) else 1) =
        (rows.flatMap Prod.snd)[j].2 := by
    intro j h
    cases hf : ewf with
    | false =>
      subst hf
      obtain ⟨r, hr, hm⟩ := List.mem_flatMap.1 (List.getElem_mem h)
      simp [View.edgeWeighted, he rfl r hr _ hm]
    | true =>
      subst hf
      have hl : (List.range rows.m).map (fun i => mem (.ew (eb + i))) = (rows.flatMap Prod.snd).map Prod.snd := by
        apply List.ext_getElem
        · rw [List.length_map, List.length_map, length_flat, List.length_range]
        · intro j h1 h2
          simp only [List.length_map] at h2
          simp [hs.ew rfl j h2]
      unfold View.edgeWeighted
      simp only [hl, Bool.true_and]
      split
      · exact hs.ew rfl j h
      · rename_i hne
        simp only [ne_eq, decide_not, Bool.not_eq_true', decide_eq_false_iff_not, Decidable.not_not] at hne
        exact (all_one (l := (rows.flatMap Prod.snd).map Prod.snd) (by
          intro x hx
          obtain ⟨y, hy, rfl⟩ := List.mem_map.1 hx
          obtain ⟨r, hr, hm⟩ := List.mem_flatMap.1 hy
          exact (hp r hr).2 _ hm) (by rw [hne, List.length_map, length_flat]) _
            (List.mem_map.2 ⟨_, List.getElem_mem h, rfl⟩)).symm
  unfold View.graph
  apply List.ext_getElem
  · simp
  · intro i h1 h2
    rw [List.getElem_map, List.getElem_range]
    apply Prod.ext
    · exact hnw i h2
    · show List.map _ (List.range' _ _) = _
      simp only
      rw [Nat.add_assoc, hs.node i (by omega), hs.node (i + 1) (by omega), first_succ h2, Int.toNat_natCast,
        Int.toNat_natCast, Nat.add_sub_cancel_left]
      apply List.ext_getElem
      · simp
      · intro j h3 h4
        have hfg := flat_get h2 h4
        obtain ⟨hlt, heq⟩ := List.getElem?_eq_some_iff.1 hfg
        rw [List.getElem_map, List.getElem_range', Nat.one_mul]
        apply Prod.ext
        · show (mem _).toNat = _
          rw [hs.edge _ hlt, heq, Int.toNat_natCast]
        · exact (hew _ hlt).trans (by rw [heq])

/-! ## Writing a neighbourhood -/

/-- The entries `putEdges` writes. -/
def kept (mapping : Nat → Nat) (keep : Nat → Bool) (adj : List (Nat × Int)) : List (Nat × Int) :=
  (adj.filter fun e => keep e.1).map fun e => (mapping e.1, e.2)

@[simp] theorem store_size (m : Mem) (c : Cell) (x : Int) : (m.store c x).size = m.size := rfl
@[simp] theorem store_cell (m : Mem) (c : Cell) (x : Int) : (m.store c x).cell = upd m.cell c x := rfl

/-- Cells of the edge arrays in a range of positions. -/
def EdgeIn (a b : Nat) : Cell → Prop
  | .edge i => a ≤ i ∧ i < b
  | .ew i => a ≤ i ∧ i < b
  | _ => False

theorem putEdges_spec (wf : Bool) (base : Nat) (mapping : Nat → Nat) (keep : Nat → Bool) :
    ∀ (adj : List (Nat × Int)) (m : Mem) (e : Nat),
    let r := putEdges wf base mapping keep adj m e
    r.2 = e + (kept mapping keep adj).length ∧ r.1.size = m.size ∧
    (∀ c, ¬ EdgeIn (base + e) (base + e + (kept mapping keep adj).length) c → r.1.cell c = m.cell c) ∧
    (∀ j, (h : j < (kept mapping keep adj).length) →
      r.1.cell (.edge (base + e + j)) = ((kept mapping keep adj)[j].1 : Int) ∧
      (wf = true → r.1.cell (.ew (base + e + j)) = (kept mapping keep adj)[j].2)) ∧
    (m.ok = true → base + e + (kept mapping keep adj).length ≤ m.size.edges →
      (wf = true → base + e + (kept mapping keep adj).length ≤ m.size.ew) → r.1.ok = true)
  | [], m, e => by
    refine ⟨rfl, rfl, fun _ _ => rfl, fun j h => ?_, fun h _ _ => h⟩
    exact absurd h (Nat.not_lt_zero _)
  | (v, w) :: adj, m, e => by
    by_cases hk : keep v
    · have hkept : kept mapping keep ((v, w) :: adj) = (mapping v, w) :: kept mapping keep adj := by
        simp [kept, hk]
      rw [hkept]
      have ih := putEdges_spec wf base mapping keep adj
        (if wf then (m.store (.edge (base + e)) (mapping v)).store (.ew (base + e)) w
          else m.store (.edge (base + e)) (mapping v)) (e + 1)
      have hr : putEdges wf base mapping keep ((v, w) :: adj) m e = putEdges wf base mapping keep adj
        (if wf then (m.store (.edge (base + e)) (mapping v)).store (.ew (base + e)) w
          else m.store (.edge (base + e)) (mapping v)) (e + 1) := by
        simp [putEdges, hk]
      intro r
      have hre : r = putEdges wf base mapping keep ((v, w) :: adj) m e := rfl
      rw [hr] at hre
      rw [← hre] at ih
      obtain ⟨i1, i2, i3, i4, i5⟩ := ih
      simp only [List.length_cons]
      refine ⟨by rw [i1]; omega, ?_, ?_, ?_, ?_⟩
      · rw [i2]; split <;> rfl
      · intro c hc
        rw [i3]
        · have h1 : c ≠ .edge (base + e) := by
            rintro rfl; exact hc ⟨Nat.le_refl _, by omega⟩
          have h2 : c ≠ .ew (base + e) := by
            rintro rfl; exact hc ⟨Nat.le_refl _, by omega⟩
          split
          · simp [upd_ne _ _ h1, upd_ne _ _ h2]
          · simp [upd_ne _ _ h1]
        · intro h
          apply hc
          cases c <;> simp only [EdgeIn] at h ⊢ <;> omega
      · intro j h
        cases j with
        | zero =>
          rw [i3 _ (by simp only [EdgeIn]; omega), i3 _ (by simp only [EdgeIn]; omega)]
          simp only [Nat.add_zero, List.getElem_cons_zero]
          split
          · rename_i hw
            refine ⟨?_, fun _ => ?_⟩
            · simp only [store_cell]
              rw [upd_ne _ _ (by simp), upd_same]
            · simp
          · rename_i hw
            exact ⟨by simp, fun h => absurd h hw⟩
        | succ j =>
          have := i4 j (by omega)
          rw [show base + e + (j + 1) = base + (e + 1) + j by omega]
          exact this
      · intro hok hle hlw
        apply i5
        · split
          · rename_i hw
            have := hlw hw
            simp [Mem.store, Cell.valid, hok]
            omega
          · simp [Mem.store, Cell.valid, hok]
            omega
        · split <;> simp <;> omega
        · intro hw
          have := hlw hw
          split <;> simp <;> omega
    · have hkept : kept mapping keep ((v, w) :: adj) = kept mapping keep adj := by
        simp [kept, hk]
      rw [hkept]
      have hr : putEdges wf base mapping keep ((v, w) :: adj) m e = putEdges wf base mapping keep adj m e := by
        simp [putEdges, hk]
      rw [hr]
      exact putEdges_spec wf base mapping keep adj m e

end Verif.Subgraph

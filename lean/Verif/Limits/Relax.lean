import Verif.Limits.Lemmas

namespace Verif.Limits
open Verif.Math Verif.Blocks Verif.Subgraph Verif.Metrics Finset

theorem div_some {rd : ℚ → ℚ} {a b : ℚ} (hb : b ≠ 0) : div? rd a b = some (rd (a / b)) := by
  unfold div?
  rw [if_neg hb]

/-- Relaxing succeeds, raises every limit and leaves room for the heaviest node in every block. -/
theorem setup_relaxed {rd : ℚ → ℚ} (h : DoubleRounding rd) (e : ℚ) {g : GInfo} {limits : List Int}
    (h0 : ∀ x ∈ limits, 0 ≤ x) (hW : 0 < g.total) (hW2 : g.total ≤ 2 ^ 49) (hWS : g.total ≤ 2 * limits.sum) :
    ∃ c, PCtx.setup? rd e g limits true = some c ∧ c.k = limits.length ∧ c.unrelaxed = limits ∧ c.total = g.total ∧
      c.maxNode = g.maxNode ∧ c.maxBw.length = limits.length ∧ (∀ b, limits.getD b 0 ≤ c.maxBw.getD b 0) ∧
      g.total + limits.length * g.maxNode ≤ c.maxBw.sum := by
  have hS : 0 < limits.sum := by omega
  obtain ⟨hne, hD, hq⟩ := relax_share h hW hS hW2 hWS
  generalize hDe : rd (1 + rd (rd (rd (limits.sum : ℚ) / rd (g.total : ℚ)) - 1)) = D at hD hq
  have hmap : limits.mapM (fun (x : Int) => (div? rd (rd x) D).bind fun q => some (max x (⌈q⌉ + g.maxNode))) =
      some (limits.map fun (x : Int) => max x (⌈rd (rd x / D)⌉ + g.maxNode)) := by
    apply mapM_some
    intro x _
    rw [div_some hD.ne']
    rfl
  refine ⟨⟨g.n, g.total, g.total, g.maxNode, limits.length, limits.map fun x => max x (⌈rd (rd x / D)⌉ + g.maxNode),
    limits, limits.sum, e, false⟩, ?_, rfl, rfl, rfl, rfl, List.length_map _, ?_, ?_⟩
  · unfold PCtx.setup? PCtx.inferredEps? PCtx.inferEps?
    simp only [if_true, Bool.false_eq_true, if_false, div_some hne, Option.bind_eq_bind, Option.bind_some]
    rw [hDe, hmap]
    rfl
  · intro b
    show limits.getD b 0 ≤ (limits.map _).getD b 0
    rw [List.getD_eq_getElem?_getD, List.getD_eq_getElem?_getD, List.getElem?_map]
    cases limits[b]? with
    | none => simp
    | some x => exact le_max_left _ _
  · show g.total + limits.length * g.maxNode ≤ (limits.map _).sum
    have key : ∀ l : List Int, (∀ x ∈ l, x ∈ limits) →
        (l.sum : ℚ) * (g.total / limits.sum) * (1 - 15 / 2 ^ 53) + l.length * g.maxNode ≤
          ((l.map fun (x : Int) => max x (⌈rd (rd x / D)⌉ + g.maxNode)).sum : Int) := by
      intro l
      induction l with
      | nil => simp
      | cons x l ih =>
        intro hl
        have h1 := ih fun y hy => hl y (List.mem_cons_of_mem _ hy)
        have h2 := hq x (h0 x (hl x List.mem_cons_self))
        have h3 := Int.le_ceil (rd (rd (x : ℚ) / D))
        have h4 : ((⌈rd (rd (x : ℚ) / D)⌉ : ℤ) : ℚ) + g.maxNode ≤ ((max x (⌈rd (rd (x : ℚ) / D)⌉ + g.maxNode) : Int) : ℚ) := by
          exact_mod_cast le_max_right x (⌈rd (rd (x : ℚ) / D)⌉ + g.maxNode)
        simp only [List.sum_cons, List.map_cons, List.length_cons]
        generalize max x (⌈rd (rd (x : ℚ) / D)⌉ + g.maxNode) = A at *
        generalize (l.map fun (x : Int) => max x (⌈rd (rd x / D)⌉ + g.maxNode)).sum = M at *
        rw [Int.cast_add, Int.cast_add, Nat.cast_add, Nat.cast_one]
        linarith
    have h1 := key limits fun _ hx => hx
    have hSq : (0 : ℚ) < limits.sum := by exact_mod_cast hS
    have h2 : (limits.sum : ℚ) * (g.total / limits.sum) = g.total := by field_simp
    rw [h2] at h1
    have h3 : (g.total : ℚ) ≤ 2 ^ 49 := by exact_mod_cast hW2
    have h4 : (g.total : ℚ) + limits.length * g.maxNode - 1 <
        ((limits.map fun (x : Int) => max x (⌈rd (rd x / D)⌉ + g.maxNode)).sum : Int) := by
      refine lt_of_lt_of_le ?_ h1
      have : (g.total : ℚ) * (15 / 2 ^ 53) < 1 := by
        have : (g.total : ℚ) * (15 / 2 ^ 53) ≤ 2 ^ 49 * (15 / 2 ^ 53) := mul_le_mul_of_nonneg_right h3 (by norm_num)
        refine lt_of_le_of_lt this (by norm_num)
      linarith
    have h5 : g.total + limits.length * g.maxNode - 1 <
        (limits.map fun (x : Int) => max x (⌈rd (rd x / D)⌉ + g.maxNode)).sum := by exact_mod_cast h4
    omega

theorem sum_getD (l : List Int) : ∑ b ∈ range l.length, l.getD b 0 = l.sum := by
  induction l with
  | nil => rfl
  | cons a l ih =>
    rw [List.length_cons, Finset.sum_range_succ', List.sum_cons, ← ih]
    simp [add_comm]

/-- Limits with room for the heaviest node in every block can be met: put the nodes one by one into any block with
room. -/
theorem satisfiable {limits : List Int} {total maxNode : Int} (hne : limits ≠ [])
    (h : total + limits.length * maxNode ≤ limits.sum) (h0 : ∀ x ∈ limits, 0 ≤ x) : Satisfiable limits total maxNode := by
  intro ws hsum hw
  have key : ∀ m, m ≤ ws.length → ∃ f : Nat → Nat, (∀ i, i < m → f i < limits.length) ∧
      ∀ b, b < limits.length → (∑ i ∈ range m, if f i = b then ws.getD i 0 else 0) ≤ limits.getD b 0 := by
    intro m
    induction m with
    | zero =>
      intro _
      refine ⟨fun _ => 0, by omega, fun b hb => ?_⟩
      rw [Finset.range_zero, Finset.sum_empty, List.getD_eq_getElem?_getD, List.getElem?_eq_getElem hb]
      exact h0 _ (List.getElem_mem _)
    | succ m ih =>
      intro hm
      obtain ⟨f, hf, hb⟩ := ih (by omega)
      by_cases hex : ∃ b, b < limits.length ∧
          (∑ i ∈ range m, if f i = b then ws.getD i 0 else 0) + ws.getD m 0 ≤ limits.getD b 0
      · obtain ⟨c, hc, hroom⟩ := hex
        refine ⟨upd f m c, ?_, ?_⟩
        · intro i hi
          by_cases him : i = m
          · subst him; rw [upd_same]; exact hc
          · rw [upd_ne _ _ him]; exact hf i (by omega)
        · intro b hbl
          rw [Finset.sum_range_succ, upd_same]
          have : (∑ i ∈ range m, if upd f m c i = b then ws.getD i 0 else 0) =
              ∑ i ∈ range m, if f i = b then ws.getD i 0 else 0 := by
            apply Finset.sum_congr rfl
            intro i hi
            rw [upd_ne _ _ (by have := mem_range.1 hi; omega)]
          rw [this]
          by_cases hcb : c = b
          · subst hcb; rw [if_pos rfl]; exact hroom
          · rw [if_neg hcb, add_zero]; exact hb b hbl
      · exfalso
        have hall : ∀ b ∈ range limits.length, limits.getD b 0 + 1 ≤
            (∑ i ∈ range m, if f i = b then ws.getD i 0 else 0) + ws.getD m 0 := by
          intro b hbl
          by_contra hcon
          exact hex ⟨b, mem_range.1 hbl, by omega⟩
        have h1 := Finset.sum_le_sum hall
        rw [Finset.sum_add_distrib, Finset.sum_add_distrib, sum_getD, Finset.sum_comm] at h1
        have h2 : (∑ i ∈ range m, ∑ b ∈ range limits.length, if f i = b then ws.getD i 0 else 0) =
            ∑ i ∈ range m, ws.getD i 0 := by
          apply Finset.sum_congr rfl
          intro i hi
          rw [Finset.sum_ite_eq, if_pos (mem_range.2 (hf i (mem_range.1 hi)))]
        rw [h2, Finset.sum_const, Finset.sum_const, card_range, nsmul_eq_mul, nsmul_eq_mul] at h1
        have h3 : ∑ i ∈ range m, ws.getD i 0 ≤ ws.sum := by
          rw [← sum_getD]
          apply Finset.sum_le_sum_of_subset_of_nonneg (Finset.range_subset_range.2 (by omega))
          intro i hi _
          rw [List.getD_eq_getElem?_getD, List.getElem?_eq_getElem (mem_range.1 hi)]
          exact (hw _ (List.getElem_mem _)).1
        have h4 : ws.getD m 0 ≤ maxNode := by
          rw [List.getD_eq_getElem?_getD, List.getElem?_eq_getElem (by omega)]
          exact (hw _ (List.getElem_mem _)).2
        have h5 : 0 < limits.length := List.length_pos_iff.2 hne
        have h6 : (limits.length : Int) * ws.getD m 0 ≤ limits.length * maxNode :=
          mul_le_mul_of_nonneg_left h4 (by omega)
        generalize (limits.length : Int) * ws.getD m 0 = A at *
        generalize (limits.length : Int) * maxNode = B at *
        omega
  obtain ⟨f, hf, hb⟩ := key ws.length (Nat.le_refl _)
  exact ⟨f, hf, hb⟩

end Verif.Limits

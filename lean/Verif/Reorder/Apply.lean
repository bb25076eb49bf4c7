import Verif.Reorder.Lemmas
import Mathlib.Data.Finset.Card
import Mathlib.Data.Finset.Range

/-! # `apply_permutation` -/

namespace Verif.Reorder
open Verif.Compression (Nbr)

theorem view_swap (A : Arrs) (i j : Nat) :
    view true ⟨swap A.edges i j, swap A.weights i j⟩ = swap (view true A) i j := by
  funext p
  unfold view swap upd
  simp only [if_true]
  split
  · rfl
  · split <;> rfl

theorem swap_left {α : Type} (a : Nat → α) {i j : Nat} (h : i ≠ j) : swap a i j i = a j := by
  unfold swap; rw [upd_ne _ _ h, upd_same]

theorem swap_right {α : Type} (a : Nat → α) (i j : Nat) : swap a i j j = a i := by unfold swap; rw [upd_same]

theorem swap_other {α : Type} (a : Nat → α) {i j p : Nat} (h1 : p ≠ i) (h2 : p ≠ j) : swap a i j p = a p := by
  unfold swap; rw [upd_ne _ _ h2, upd_ne _ _ h1]

variable {b d : Nat} {U : Nat → Nbr} {π : Nat → Nat}

/-- `π` permutes the numbers below `d`. -/
structure IsPerm (d : Nat) (π : Nat → Nat) : Prop where
  lt : ∀ i, i < d → π i < d
  inj : ∀ i j, i < d → j < d → π i = π j → i = j

/-- Between two iterations of the outer loop: the positions in `D` are done. -/
structure OInv (b d : Nat) (U : Nat → Nbr) (π : Nat → Nat) (D : Nat → Prop) (A : Arrs) (ind : Nat → Nat) : Prop where
  yes : ∀ j, j < d → D j → ind j = j ∧ view true A (b + j) = U (b + π j)
  no : ∀ j, j < d → ¬ D j → ind j = π j ∧ view true A (b + j) = U (b + j)
  fwd : ∀ j, j < d → D j → D (π j)
  back : ∀ j, j < d → D (π j) → D j
  out : ∀ p, p < b ∨ b + d ≤ p → view true A p = U p

/-- In the inner loop. -/
structure IInv (b d : Nat) (U : Nat → Nbr) (π : Nat → Nat) (i : Nat) (D : Nat → Prop) (A : Arrs) (ind : Nat → Nat) (cur : Nat) :
    Prop where
  lt : cur < d
  new : ¬ D cur
  isInd : ind cur = π cur
  val : view true A (b + cur) = U (b + i)
  yes : ∀ j, j < d → D j → ind j = j ∧ view true A (b + j) = U (b + π j)
  no : ∀ j, j < d → ¬ D j → j ≠ cur → ind j = π j ∧ view true A (b + j) = U (b + j)
  start : cur = i ∨ D i
  fwd : ∀ j, j < d → D j → D (π j) ∨ π j = cur
  back : ∀ j, j < d → D (π j) ∨ π j = cur → π j = i ∨ D j
  out : ∀ p, p < b ∨ b + d ≤ p → view true A p = U p

/-- The number of positions below `d` that are not fixed. -/
def moved (d : Nat) (ind : Nat → Nat) : Nat := ((Finset.range d).filter fun j => ind j ≠ j).card

theorem moved_le (d : Nat) (ind : Nat → Nat) : moved d ind ≤ d := by
  unfold moved
  exact (Finset.card_filter_le _ _).trans (by simp)

theorem moved_upd {ind : Nat → Nat} {cur : Nat} (h : cur < d) (hne : ind cur ≠ cur) :
    moved d (upd ind cur cur) < moved d ind := by
  unfold moved
  apply Finset.card_lt_card
  rw [Finset.ssubset_iff_of_subset]
  · refine ⟨cur, by simp [h, hne], by simp⟩
  · intro j hj
    simp only [Finset.mem_filter, Finset.mem_range] at hj ⊢
    refine ⟨hj.1, ?_⟩
    by_cases e : j = cur
    · subst e; simp at hj
    · rw [upd_ne _ _ e] at hj; exact hj.2

theorem cycle_ok (hπ : IsPerm d π) {i : Nat} : ∀ (fuel : Nat) (D : Nat → Prop) (A : Arrs) (ind : Nat → Nat) (cur : Nat),
    IInv b d U π i D A ind cur → moved d ind ≤ fuel →
    ∃ A' ind' cur' D', cycle? b b i fuel A ind cur = some (A', ind', cur') ∧ IInv b d U π i D' A' ind' cur' ∧ π cur' = i ∧
      ∀ j, D j → D' j := by
  intro fuel
  induction fuel with
  | zero =>
    intro D A ind cur h hm
    have hf : ind cur = cur := by
      by_contra hne
      have := moved_upd h.lt hne
      omega
    have he : i = ind cur := by
      rw [hf]
      rcases h.back cur h.lt (Or.inr (by rw [← h.isInd]; exact hf)) with h1 | h1
      · rw [← h1, ← h.isInd]; exact hf
      · exact absurd h1 h.new
    refine ⟨A, ind, cur, D, ?_, h, ?_, fun j hj => hj⟩
    · unfold cycle?
      rw [if_neg (by simpa using he)]
    · rw [← h.isInd]; exact he.symm
  | succ fuel ih =>
    intro D A ind cur h hm
    unfold cycle?
    by_cases he : i = ind cur
    · rw [if_neg (by simpa using he)]
      exact ⟨A, ind, cur, D, rfl, h, by rw [← h.isInd]; exact he.symm, fun j hj => hj⟩
    · rw [if_pos he]
      have hnext : ind cur < d := by rw [h.isInd]; exact hπ.lt cur h.lt
      have hnc : ind cur ≠ cur := by
        intro e
        rcases h.back cur h.lt (Or.inr (by rw [← h.isInd]; exact e)) with h1 | h1
        · rw [← h.isInd] at h1; exact he h1.symm
        · exact h.new h1
      have hnD : ¬ D (ind cur) := by
        intro e
        rcases h.back cur h.lt (Or.inl (by rw [← h.isInd]; exact e)) with h1 | h1
        · rw [← h.isInd] at h1; exact he h1.symm
        · exact h.new h1
      have hmv := moved_upd (d := d) h.lt hnc
      simp only
      have hv := view_swap A (b + cur) (b + ind cur)
      obtain ⟨A', ind', cur', D', h1, h2, h3, h4⟩ := ih (fun j => D j ∨ j = cur)
        ⟨swap A.edges (b + cur) (b + ind cur), swap A.weights (b + cur) (b + ind cur)⟩ (upd ind cur cur) (ind cur)
        { lt := hnext
          new := by rintro (e | e); exacts [hnD e, hnc e]
          isInd := by rw [upd_ne _ _ hnc]; exact (h.no _ hnext hnD hnc).1
          val := by rw [hv, swap_right]; exact h.val
          yes := by
            intro j hj hD
            by_cases e : j = cur
            · subst e
              refine ⟨upd_same .., ?_⟩
              rw [hv, swap_left _ (by omega), ← h.isInd]
              exact (h.no _ hnext hnD hnc).2
            · have hDj := hD.resolve_right e
              have hjn : j ≠ ind cur := fun e' => hnD (e' ▸ hDj)
              rw [upd_ne _ _ e, hv, swap_other _ (by omega) (by omega)]
              exact h.yes j hj hDj
          no := by
            intro j hj hD hjn
            have e : j ≠ cur := fun e => hD (Or.inr e)
            rw [upd_ne _ _ e, hv, swap_other _ (by omega) (by omega)]
            exact h.no j hj (fun h => hD (Or.inl h)) e
          start := by
            rcases h.start with e | e
            · exact Or.inr (Or.inr e.symm)
            · exact Or.inr (Or.inl e)
          fwd := by
            rintro j hj (hD | rfl)
            · rcases h.fwd j hj hD with e | e
              · exact Or.inl (Or.inl e)
              · exact Or.inl (Or.inr e)
            · exact Or.inr h.isInd.symm
          back := by
            rintro j hj ((e | e) | e)
            · exact (h.back j hj (Or.inl e)).imp_right Or.inl
            · exact (h.back j hj (Or.inr e)).imp_right Or.inl
            · rw [h.isInd] at e
              exact Or.inr (Or.inr (hπ.inj j cur hj h.lt e))
          out := by
            intro p hp
            have := h.lt
            rw [hv, swap_other _ (by omega) (by omega)]
            exact h.out p hp }
        (by omega)
      exact ⟨A', ind', cur', D', h1, h2, h3, fun j hj => h4 j (Or.inl hj)⟩

theorem apply_step (hπ : IsPerm d π) {i : Nat} (hi : i < d) {D : Nat → Prop} {A : Arrs} {ind : Nat → Nat}
    (h : OInv b d U π D A ind) : ∃ A' ind' cur' D', cycle? b b i d A ind i = some (A', ind', cur') ∧
      OInv b d U π D' A' (upd ind' cur' cur') ∧ D' i ∧ ∀ j, D j → D' j := by
  by_cases hD : D i
  · have hf := (h.yes i hi hD).1
    refine ⟨A, ind, i, D, ?_, ?_, hD, fun j hj => hj⟩
    · cases d with
      | zero => omega
      | succ d => unfold cycle?; rw [if_neg (by simpa using hf.symm)]
    · have : upd ind i i = ind := by
        funext j
        by_cases e : j = i
        · subst e; rw [upd_same]; exact hf.symm
        · rw [upd_ne _ _ e]
      rw [this]; exact h
  · obtain ⟨A', ind', cur', D', h1, h2, h3, h4⟩ := cycle_ok (b := b) (U := U) hπ (i := i) d D A ind i
      { lt := hi, new := hD, isInd := (h.no i hi hD).1, val := (h.no i hi hD).2, yes := h.yes
        no := fun j hj hDj _ => h.no j hj hDj
        start := Or.inl rfl
        fwd := fun j hj hDj => Or.inl (h.fwd j hj hDj)
        back := by
          rintro j hj (e | e)
          · exact Or.inr (h.back j hj e)
          · exact Or.inl e
        out := h.out } (moved_le d ind)
    refine ⟨A', ind', cur', fun j => D' j ∨ j = cur', h1, ?_, ?_, fun j hj => Or.inl (h4 j hj)⟩
    · refine ⟨?_, ?_, ?_, ?_, h2.out⟩
      · intro j hj hDj
        by_cases e : j = cur'
        · subst e
          refine ⟨upd_same .., ?_⟩
          rw [h2.val, h3]
        · rw [upd_ne _ _ e]; exact h2.yes j hj (hDj.resolve_right e)
      · intro j hj hDj
        have e : j ≠ cur' := fun e => hDj (Or.inr e)
        rw [upd_ne _ _ e]; exact h2.no j hj (fun h => hDj (Or.inl h)) e
      · rintro j hj (hDj | rfl)
        · exact h2.fwd j hj hDj
        · rw [h3]; exact (h2.start.imp_left Eq.symm).symm
      · intro j hj hDj
        rcases h2.back j hj hDj with e | e
        · exact Or.inr (hπ.inj j cur' hj h2.lt (e.trans h3.symm))
        · exact Or.inl e
    · exact (h2.start.imp_left Eq.symm).symm

theorem apply_ok (hπ : IsPerm d π) (A : Arrs) : ∃ A' ind', applyPermutation? b b d A π = some (A', ind') ∧
    (∀ j, j < d → view true A' (b + j) = view true A (b + π j)) ∧
    (∀ p, p < b ∨ b + d ≤ p → view true A' p = view true A p) := by
  have key : ∀ (m k : Nat) (D : Nat → Prop) (B : Arrs) (ind : Nat → Nat), k + m = d → OInv b d (view true A) π D B ind →
      (∀ j, j < k → D j) → ∃ A' ind' D', (List.range' k m).foldlM (fun (s : Arrs × (Nat → Nat)) i => do
        let (A, ind, current) ← cycle? b b i d s.1 s.2 i
        some (A, upd ind current current)) (B, ind) = some (A', ind') ∧ OInv b d (view true A) π D' A' ind' ∧ ∀ j, j < d → D' j := by
    intro m
    induction m with
    | zero =>
      intro k D B ind hk h hD
      exact ⟨B, ind, D, rfl, h, fun j hj => hD j (by omega)⟩
    | succ m ih =>
      intro k D B ind hk h hD
      obtain ⟨A', ind', cur', D', h1, h2, h3, h4⟩ := apply_step hπ (i := k) (by omega) h
      obtain ⟨A'', ind'', D'', g1, g2, g3⟩ := ih (k + 1) D' A' (upd ind' cur' cur') (by omega) h2 (by
        intro j hj
        by_cases e : j = k
        · subst e; exact h3
        · exact h4 j (hD j (by omega)))
      refine ⟨A'', ind'', D'', ?_, g2, g3⟩
      rw [List.range'_succ, List.foldlM_cons]
      simp only [h1, Option.bind_eq_bind, Option.bind_some]
      exact g1
  obtain ⟨A', ind', D', h1, h2, h3⟩ := key d 0 (fun _ => False) A π (by omega)
    ⟨fun _ _ h => h.elim, fun _ _ _ => ⟨rfl, rfl⟩, fun _ _ h => h.elim, fun _ _ h => h, fun _ _ => rfl⟩ (fun j hj => by omega)
  refine ⟨A', ind', ?_, fun j hj => (h2.yes j hj (h3 j hj)).2, h2.out⟩
  unfold applyPermutation?
  rw [List.range_eq_range']
  exact h1

end Verif.Reorder

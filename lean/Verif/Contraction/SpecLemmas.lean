import Verif.Contraction.Spec

/-!
# Consequences of the specification of contractions
-/

namespace Verif.Contraction
open Finset

variable {g h : Graph} {mapping : Nat → Nat}

/-- Summing over the fibres of the mapping. -/
theorem sum_fibre (n k : Nat) (mapping : Nat → Nat) (hm : ∀ u, u < n → mapping u < k) (f : Nat → Int) :
    ∑ u ∈ range n, f u = ∑ c ∈ range k, ∑ u ∈ range n, if mapping u = c then f u else 0 := by
  rw [Finset.sum_comm]
  apply Finset.sum_congr rfl
  intro u hu
  rw [Finset.sum_eq_single (mapping u)]
  · simp
  · intro b _ hb; simp [Ne.symm hb]
  · intro h; exact absurd (mem_range.2 (hm u (mem_range.1 hu))) h

theorem Contracted.total (hc : Contracted g mapping h) : ∑ c ∈ range h.n, h.w c = ∑ u ∈ range g.n, g.w u := by
  rw [sum_fibre g.n h.n mapping hc.maps]
  exact Finset.sum_congr rfl fun c hcm => hc.weight c (mem_range.1 hcm)

theorem Contracted.block (hc : Contracted g mapping h) (part : Nat → Nat) (b : Nat) :
    blockWeight h part b = blockWeight g (fun u => part (mapping u)) b := by
  unfold blockWeight
  rw [sum_fibre g.n h.n mapping hc.maps]
  apply Finset.sum_congr rfl
  intro c hcm
  rw [hc.weight c (mem_range.1 hcm)]
  by_cases hp : part c = b
  · rw [if_pos hp]
    apply Finset.sum_congr rfl
    intro u _
    by_cases hu : mapping u = c
    · simp [hu, hp]
    · simp [hu]
  · rw [if_neg hp]
    symm
    apply Finset.sum_eq_zero
    intro u _
    by_cases hu : mapping u = c
    · simp [hu, hp]
    · simp [hu]

theorem Contracted.wt_symm (hc : Contracted g mapping h) (hs : g.Symm) {c d : Nat} (hcn : c < h.n) (hd : d < h.n)
    (hne : c ≠ d) : h.wt c d = h.wt d c := by
  rw [hc.edge c d hcn hd hne, hc.edge d c hd hcn (Ne.symm hne), Finset.sum_comm]
  apply Finset.sum_congr rfl
  intro v hv
  apply Finset.sum_congr rfl
  intro u hu
  by_cases h1 : mapping u = c <;> by_cases h2 : mapping v = d <;> simp [h1, h2]
  exact g.wt_symm hs (mem_range.1 hu) (mem_range.1 hv)

/-- In a simple adjacency list the weight to `d` is the weight of its only entry. -/
theorem wt_of_mem {l : List (Nat × Int)} (hn : (l.map Prod.fst).Nodup) {d : Nat} {w : Int} (hm : (d, w) ∈ l) :
    ((l.filter fun e => e.1 = d).map Prod.snd).sum = w := by
  induction l with
  | nil => simp at hm
  | cons a l ih =>
    rw [List.map_cons, List.nodup_cons] at hn
    rcases List.mem_cons.1 hm with rfl | hm
    · have : l.filter (fun e => decide (e.1 = d)) = [] := by
        rw [List.filter_eq_nil_iff]
        intro e he h
        exact hn.1 (List.mem_map.2 ⟨e, he, by simpa using h⟩)
      simp [this]
    · have hne : a.1 ≠ d := fun e => hn.1 (List.mem_map.2 ⟨(d, w), hm, e.symm⟩)
      rw [List.filter_cons, if_neg (by simpa using hne), ih hn.2 hm]

theorem count_simple {l : List (Nat × Int)} (hn : (l.map Prod.fst).Nodup) (x : Nat × Int) :
    l.count x = if x ∈ l then 1 else 0 := by
  by_cases h : x ∈ l
  · rw [if_pos h]
    have := List.nodup_iff_count_le_one.1 (nodup_of_map hn) x
    have := List.count_pos_iff.2 h
    omega
  · rw [if_neg h, List.count_eq_zero]; exact h

theorem mem_of_count_symm (hs : g.Symm) {u v : Nat} (hu : u < g.n) (hv : v < g.n) {w : Int} (h : (v, w) ∈ g.adj u) :
    (u, w) ∈ g.adj v := by
  have h1 := hs u v w hu hv
  have h2 := List.count_pos_iff.2 h
  exact List.count_pos_iff.1 (by omega)

theorem Contracted.symm (hc : Contracted g mapping h) (hg : g.WF) (hs : g.Symm) : h.Symm := by
  intro c d w hcn hd
  have half : ∀ c d, c < h.n → d < h.n → (d, w) ∈ h.adj c → (c, w) ∈ h.adj d := by
    intro c d hcn hd hm
    have hne : d ≠ c := hc.loopless c hcn _ hm
    have ha := (hc.adjacent c d hcn hd (Ne.symm hne)).1 (List.mem_map.2 ⟨_, hm, rfl⟩)
    obtain ⟨u, hu, huc, e, he, hed⟩ := ha
    have he1 := hg u hu e he
    have := (hc.adjacent d c hd hcn hne).2 ⟨e.1, he1, hed, (u, e.2), mem_of_count_symm hs hu he1 he, huc⟩
    obtain ⟨⟨c', w'⟩, hm', rfl⟩ := List.mem_map.1 this
    have h1 : h.wt c' d = w := wt_of_mem (hc.simple _ hcn) hm
    have h2 : h.wt d c' = w' := wt_of_mem (hc.simple _ hd) hm'
    have h3 := hc.wt_symm hs hcn hd (Ne.symm hne)
    have : w' = w := by rw [← h1, ← h2, h3]
    rwa [this] at hm'
  rw [count_simple (hc.simple c hcn), count_simple (hc.simple d hd)]
  by_cases hm : (d, w) ∈ h.adj c
  · rw [if_pos hm, if_pos (half c d hcn hd hm)]
  · rw [if_neg hm, if_neg fun h' => hm (half d c hd hcn h')]

/-- Projecting a partition keeps the cut. -/
theorem Contracted.cut (hc : Contracted g mapping h) (hg : g.WF) (hs : g.Symm) (part : Nat → Nat) :
    g.cut (fun u => part (mapping u)) = h.cut part := by
  have hsum : ∑ u ∈ range g.n, g.conn u (fun v => part (mapping u) ≠ part (mapping v)) =
      ∑ c ∈ range h.n, h.conn c (fun d => part c ≠ part d) := by
    rw [sum_fibre g.n h.n mapping hc.maps]
    apply Finset.sum_congr rfl
    intro c hcm
    have hcn := mem_range.1 hcm
    rw [h.conn_eq_sum hc.wf hcn]
    have e1 : ∀ d ∈ range h.n, (if part c ≠ part d then h.wt c d else 0) =
        ∑ u ∈ range g.n, if mapping u = c then ∑ v ∈ range g.n,
          (if mapping v = d then (if part c ≠ part d then g.wt u v else 0) else 0) else 0 := by
      intro d hd
      by_cases hp : part c = part d
      · simp [hp]
      · rw [if_pos hp, hc.edge c d hcn (mem_range.1 hd) fun e => hp (e ▸ rfl)]
        apply Finset.sum_congr rfl
        intro u _
        by_cases hu : mapping u = c
        · rw [if_pos hu]
          apply Finset.sum_congr rfl
          intro v _
          simp [hu, hp]
        · rw [if_neg hu]
          apply Finset.sum_eq_zero
          intro v _
          simp [hu]
    rw [Finset.sum_congr rfl e1, Finset.sum_comm]
    apply Finset.sum_congr rfl
    intro u hu
    by_cases huc : mapping u = c
    · simp only [huc, if_true]
      rw [g.conn_eq_sum hg (mem_range.1 hu), sum_fibre g.n h.n mapping hc.maps]
      apply Finset.sum_congr rfl
      intro d _
      apply Finset.sum_congr rfl
      intro v _
      by_cases hv : mapping v = d
      · simp [hv]
      · simp [hv]
    · simp [huc]
  have h1 := g.sum_conn_ne hg hs fun u => part (mapping u)
  have h2 := h.sum_conn_ne hc.wf (hc.symm hg hs) part
  have h3 : 2 * g.cut (fun u => part (mapping u)) = 2 * h.cut part := by rw [← h1, ← h2, hsum]
  linarith

end Verif.Contraction

import Verif.InitialCoarsening.Cluster
import Verif.Contraction.PreprocessProps

/-!
# Numbering of the clusters and sorting of the nodes
-/

namespace Verif.InitialCoarsening
open Finset
open Verif.Contraction (size psum psum_succ psum_size psum_mono)

/-- After the nodes below `k`. -/
structure MapInv (cl : Clus) (k : Nat) (s : MapSt) : Prop where
  cur : s.cur = #((range k).image cl.leader)
  unseen : ∀ l, (∀ v, v < k → cl.leader v ≠ l) → s.lmap l = 0
  seen : ∀ v, v < k → 0 < s.lmap (cl.leader v) ∧ s.lmap (cl.leader v) ≤ s.cur
  inj : ∀ v v', v < k → v' < k → s.lmap (cl.leader v) = s.lmap (cl.leader v') → cl.leader v = cl.leader v'
  onto : ∀ c, c < s.cur → ∃ v, v < k ∧ s.lmap (cl.leader v) = c + 1
  map : ∀ v, v < k → s.mapping v = s.lmap (cl.leader v) - 1
  cw : ∀ v, v < k → s.cw (s.lmap (cl.leader v) - 1) = cl.weight (cl.leader v)
  sizes : ∀ c, s.sizes c = size k s.mapping c

theorem size_congr {n : Nat} {f f' : Nat → Nat} (h : ∀ u, u < n → f u = f' u) (c : Nat) : size n f c = size n f' c := by
  unfold size
  apply List.countP_congr
  intro u hu
  rw [h u (List.mem_range.1 hu)]

theorem size_succ (n : Nat) (f : Nat → Nat) (c : Nat) : size (n + 1) f c = size n f c + if f n = c then 1 else 0 := by
  unfold size
  rw [List.range_succ, List.countP_append]
  simp [List.countP_cons]

theorem mapStep_inv {cl : Clus} {k : Nat} {s : MapSt} (h : MapInv cl k s) : MapInv cl (k + 1) (mapStep cl s k) := by
  have hlt : ∀ v, v < k + 1 → v < k ∨ v = k := fun v hv => by omega
  unfold mapStep
  simp only
  by_cases h0 : s.lmap (cl.leader k) = 0
  · rw [if_pos h0]
    simp only
    have hns : ∀ v, v < k → cl.leader v ≠ cl.leader k := by
      intro v hv he
      have := (h.seen v hv).1
      rw [he] at this
      omega
    have hl : ∀ v, v < k → upd s.lmap (cl.leader k) (s.cur + 1) (cl.leader v) = s.lmap (cl.leader v) :=
      fun v hv => upd_ne _ _ (hns v hv)
    have hlk : upd s.lmap (cl.leader k) (s.cur + 1) (cl.leader k) = s.cur + 1 := upd_same _ _ _
    have hm : ∀ v, v < k → upd s.mapping k (s.cur + 1 - 1) v = s.mapping v := fun v hv => upd_ne _ _ (by omega)
    refine ⟨?_, ?_, ?_, ?_, ?_, ?_, ?_, ?_⟩
    · show s.cur + 1 = _
      rw [range_add_one, image_insert, card_insert_of_notMem, h.cur]
      intro hc
      obtain ⟨v, hv, he⟩ := mem_image.1 hc
      exact hns v (mem_range.1 hv) he
    · intro l hl'
      show upd s.lmap (cl.leader k) (s.cur + 1) l = 0
      rw [upd_ne _ _ (Ne.symm (hl' k (by omega)))]
      exact h.unseen l fun v hv => hl' v (by omega)
    · intro v hv
      show 0 < upd s.lmap (cl.leader k) (s.cur + 1) (cl.leader v) ∧
        upd s.lmap (cl.leader k) (s.cur + 1) (cl.leader v) ≤ s.cur + 1
      rcases hlt v hv with hv | rfl
      · rw [hl v hv]; have := h.seen v hv; omega
      · rw [hlk]; omega
    · intro v v' hv hv' he
      replace he : upd s.lmap (cl.leader k) (s.cur + 1) (cl.leader v) =
        upd s.lmap (cl.leader k) (s.cur + 1) (cl.leader v') := he
      rcases hlt v hv with hv | rfl <;> rcases hlt v' hv' with hv' | rfl
      · rw [hl v hv, hl v' hv'] at he; exact h.inj v v' hv hv' he
      · rw [hl v hv, hlk] at he; have := h.seen v hv; omega
      · rw [hl v' hv', hlk] at he; have := h.seen v' hv'; omega
      · rfl
    · intro c hc
      replace hc : c < s.cur + 1 := hc
      show ∃ v, v < k + 1 ∧ upd s.lmap (cl.leader k) (s.cur + 1) (cl.leader v) = c + 1
      by_cases hc' : c = s.cur
      · exact ⟨k, by omega, by rw [hlk, hc']⟩
      · obtain ⟨v, hv, he⟩ := h.onto c (by omega)
        exact ⟨v, by omega, by rw [hl v hv, he]⟩
    · intro v hv
      show upd s.mapping k (upd s.lmap (cl.leader k) (s.cur + 1) (cl.leader k) - 1) v =
        upd s.lmap (cl.leader k) (s.cur + 1) (cl.leader v) - 1
      rw [hlk]
      rcases hlt v hv with hv | rfl
      · rw [hl v hv, hm v hv]; exact h.map v hv
      · rw [hlk, upd_same]
    · intro v hv
      show upd s.cw s.cur (cl.weight (cl.leader k)) (upd s.lmap (cl.leader k) (s.cur + 1) (cl.leader v) - 1) = _
      rcases hlt v hv with hv | rfl
      · have := h.seen v hv
        rw [hl v hv, upd_ne _ _ (by omega)]; exact h.cw v hv
      · rw [hlk]; exact upd_same _ _ _
    · intro c
      show upd s.sizes _ _ c = size (k + 1) (upd s.mapping k _) c
      rw [hlk, size_succ, size_congr hm, upd_same]
      by_cases hc : c = s.cur + 1 - 1
      · subst hc; rw [upd_same, h.sizes, if_pos rfl]
      · rw [upd_ne _ _ hc, h.sizes, if_neg (Ne.symm hc)]; rfl
  · rw [if_neg h0]
    have hex : ∃ v, v < k ∧ cl.leader v = cl.leader k := by
      by_contra hc
      exact h0 (h.unseen _ fun v hv he => hc ⟨v, hv, he⟩)
    obtain ⟨v0, hv0, he0⟩ := hex
    have hm : ∀ v, v < k → upd s.mapping k (s.lmap (cl.leader k) - 1) v = s.mapping v := fun v hv => upd_ne _ _ (by omega)
    refine ⟨?_, fun l hl => h.unseen l fun v hv => hl v (by omega), ?_, ?_, ?_, ?_, ?_, ?_⟩
    · show s.cur = _
      rw [range_add_one, image_insert, insert_eq_of_mem, h.cur]
      exact mem_image.2 ⟨v0, mem_range.2 hv0, he0⟩
    · intro v hv
      rcases hlt v hv with hv | rfl
      · exact h.seen v hv
      · rw [← he0]; exact h.seen v0 hv0
    · intro v v' hv hv' he
      rcases hlt v hv with hv | rfl <;> rcases hlt v' hv' with hv' | rfl
      · exact h.inj v v' hv hv' he
      · rw [← he0] at he ⊢; exact h.inj v v0 hv hv0 he
      · rw [← he0] at he ⊢; exact h.inj v0 v' hv0 hv' he
      · rfl
    · intro c hc
      obtain ⟨v, hv, he⟩ := h.onto c hc
      exact ⟨v, by omega, he⟩
    · intro v hv
      show upd s.mapping k (s.lmap (cl.leader k) - 1) v = s.lmap (cl.leader v) - 1
      rcases hlt v hv with hv | rfl
      · rw [hm v hv]; exact h.map v hv
      · rw [upd_same]
    · intro v hv
      rcases hlt v hv with hv | rfl
      · exact h.cw v hv
      · show s.cw (s.lmap (cl.leader _) - 1) = _
        rw [← he0]; exact h.cw v0 hv0
    · intro c
      show upd s.sizes _ _ c = size (k + 1) (upd s.mapping k _) c
      rw [size_succ, size_congr hm, upd_same]
      by_cases hc : c = s.lmap (cl.leader k) - 1
      · subst hc; rw [upd_same, h.sizes, if_pos rfl]
      · rw [upd_ne _ _ hc, h.sizes, if_neg (Ne.symm hc)]; rfl

theorem mapLoop_inv (cl : Clus) (cw : Nat → Int) (mapping : Nat → Nat) : ∀ n, MapInv cl n (mapLoop n cl cw mapping)
  | 0 => by
    refine ⟨rfl, fun _ _ => rfl, ?_, ?_, ?_, ?_, ?_, fun _ => rfl⟩
    · intro v hv; omega
    · intro v v' hv; omega
    · intro c hc; exact absurd hc (Nat.not_lt_zero _)
    · intro v hv; omega
    · intro v hv; omega
  | n + 1 => by
    have : mapLoop (n + 1) cl cw mapping = mapStep cl (mapLoop n cl cw mapping) n := by
      unfold mapLoop; rw [List.range_succ, List.foldl_append]; rfl
    rw [this]
    exact mapStep_inv (mapLoop_inv cl cw mapping n)

/-- What the numbering achieves. -/
structure Numbered (n cn : Nat) (cl : Clus) (mapping : Nat → Nat) (cw : Nat → Int) : Prop where
  lt : ∀ u, u < n → mapping u < cn
  onto : ∀ c, c < cn → ∃ u, u < n ∧ mapping u = c
  same : ∀ u v, u < n → v < n → (mapping u = mapping v ↔ cl.leader u = cl.leader v)
  cw : ∀ u, u < n → cw (mapping u) = cl.weight (cl.leader u)

theorem numbered {n : Nat} {w : Nat → Int} {R : Nat → Nat → Prop} {max : Int} {cl : Clus} (h : VC n w R max cl)
    (cw : Nat → Int) (mapping : Nat → Nat) :
    Numbered n (n - cl.moves) cl (mapLoop n cl cw mapping).mapping (mapLoop n cl cw mapping).cw := by
  have hi := mapLoop_inv cl cw mapping n
  have hcard : (mapLoop n cl cw mapping).cur = n - cl.moves := by
    rw [hi.cur, h.moves]
    have h1 : (range n).image cl.leader = {l ∈ range n | cl.leader l = l} := by
      ext l
      simp only [mem_image, mem_range, mem_filter]
      constructor
      · rintro ⟨u, hu, rfl⟩; exact ⟨h.lt u hu, h.idem u hu⟩
      · rintro ⟨hl, he⟩; exact ⟨l, hl, he⟩
    have h2 := Finset.card_filter_add_card_filter_not (s := range n) (fun l => cl.leader l = l)
    rw [card_range] at h2
    rw [h1]
    simp only [ne_eq]
    omega
  refine ⟨?_, ?_, ?_, ?_⟩
  · intro u hu
    have := hi.seen u hu
    rw [hi.map u hu, ← hcard]; omega
  · intro c hc
    obtain ⟨v, hv, he⟩ := hi.onto c (by rw [hcard]; exact hc)
    exact ⟨v, hv, by rw [hi.map v hv, he]; rfl⟩
  · intro u v hu hv
    have h1 := hi.seen u hu
    have h2 := hi.seen v hv
    rw [hi.map u hu, hi.map v hv]
    constructor
    · intro he; exact hi.inj u v hu hv (by omega)
    · intro he; rw [he]
  · intro u hu
    rw [hi.map u hu]; exact hi.cw u hu

theorem prefixLoop_eq (sizes : Nat → Nat) : ∀ n,
    ((List.range n).foldl (fun (s : Nat × (Nat → Nat)) u => (s.1 + s.2 u, upd s.2 u s.1)) (0, sizes)).1 = psum sizes n ∧
    ∀ i, ((List.range n).foldl (fun (s : Nat × (Nat → Nat)) u => (s.1 + s.2 u, upd s.2 u s.1)) (0, sizes)).2 i =
      if i < n then psum sizes i else sizes i
  | 0 => ⟨rfl, fun i => by simp⟩
  | n + 1 => by
    obtain ⟨h1, h2⟩ := prefixLoop_eq sizes n
    rw [List.range_succ, List.foldl_append]
    simp only [List.foldl_cons, List.foldl_nil]
    refine ⟨?_, fun i => ?_⟩
    · rw [h1, h2, if_neg (by omega), psum_succ]
    · by_cases hi : i = n
      · rw [hi, upd_same, h1, if_pos (by omega)]
      · rw [upd_ne _ _ hi, h2]
        by_cases hlt : i < n
        · rw [if_pos hlt, if_pos (by omega)]
        · rw [if_neg hlt, if_neg (by omega)]

/-- The nodes of cluster `c`. -/
def members (n : Nat) (mapping : Nat → Nat) (c : Nat) : List Nat := (List.range n).filter (mapping · = c)

theorem members_length (n : Nat) (mapping : Nat → Nat) (c : Nat) : (members n mapping c).length = size n mapping c := by
  unfold members size; rw [List.countP_eq_length_filter]

theorem members_succ (n : Nat) (mapping : Nat → Nat) (c : Nat) :
    members (n + 1) mapping c = members n mapping c ++ if mapping n = c then [n] else [] := by
  unfold members
  rw [List.range_succ, List.filter_append]
  by_cases h : mapping n = c <;> simp [h]

theorem size_mono {k n : Nat} (h : k ≤ n) (mapping : Nat → Nat) (c : Nat) : size k mapping c ≤ size n mapping c := by
  induction n with
  | zero => have : k = 0 := by omega
            subst this; exact le_refl _
  | succ n ih =>
    by_cases hk : k = n + 1
    · rw [hk]
    · rw [size_succ]; exact (ih (by omega)).trans (Nat.le_add_right _ _)

theorem place_inv {n cn : Nat} {mapping : Nat → Nat} (hm : ∀ u, u < n → mapping u < cn) {start : Nat → Nat}
    (hst : ∀ c, c < cn → start c = psum (size n mapping) c) (old : Nat → Nat) : ∀ k, k ≤ n →
    (∀ c, c < cn → ((List.range k).foldl (fun (s : (Nat → Nat) × (Nat → Nat)) u =>
      (upd s.1 (s.2 (mapping u)) u, upd s.2 (mapping u) (s.2 (mapping u) + 1))) (old, start)).2 c =
      psum (size n mapping) c + size k mapping c) ∧
    (∀ c, c < cn → ∀ i, (members k mapping c)[i]? = if i < size k mapping c then
      some (((List.range k).foldl (fun (s : (Nat → Nat) × (Nat → Nat)) u =>
      (upd s.1 (s.2 (mapping u)) u, upd s.2 (mapping u) (s.2 (mapping u) + 1))) (old, start)).1
        (psum (size n mapping) c + i)) else none)
  | 0, _ => by
    refine ⟨fun c hc => ?_, fun c _ i => by simp [members, size]⟩
    simp [size, hst c hc]
  | k + 1, hk => by
    obtain ⟨h1, h2⟩ := place_inv hm hst old k (by omega)
    have hk' := hm k (by omega)
    rw [List.range_succ, List.foldl_append]
    simp only [List.foldl_cons, List.foldl_nil]
    refine ⟨fun c hc => ?_, fun c hc i => ?_⟩
    · rw [size_succ]
      by_cases he : c = mapping k
      · rw [he, upd_same, h1 _ hk', if_pos rfl]; omega
      · rw [upd_ne _ _ he, h1 c hc, if_neg (Ne.symm he)]; rfl
    · rw [h1 _ hk', size_succ, members_succ]
      have hlen := members_length k mapping c
      by_cases he : mapping k = c
      · rw [if_pos he, if_pos he, he]
        by_cases hi : i < size k mapping c
        · rw [if_pos (by omega), List.getElem?_append_left (by omega), h2 c hc i, if_pos hi, upd_ne _ _ (by omega)]
        · by_cases hi' : i = size k mapping c
          · rw [if_pos (by omega), List.getElem?_append_right (by omega), hi', hlen, Nat.sub_self, upd_same]; rfl
          · rw [if_neg (by omega), List.getElem?_append_right (by omega)]
            rw [List.getElem?_eq_none]; simp; omega
      · rw [if_neg he, if_neg he, List.append_nil, h2 c hc i, Nat.add_zero]
        by_cases hi : i < size k mapping c
        · rw [if_pos hi, if_pos hi, upd_ne]
          -- the slots of different clusters are disjoint
          have e1 : size k mapping c ≤ size n mapping c := size_mono (by omega) _ _
          have e2 : size k mapping (mapping k) < size n mapping (mapping k) := by
            have := size_mono (k := k + 1) (n := n) (by omega) mapping (mapping k)
            rw [size_succ, if_pos rfl] at this
            omega
          rcases Nat.lt_or_gt_of_ne he with hlt | hgt
          · have := psum_mono (size n mapping) (i := mapping k + 1) (j := c) (by omega)
            rw [psum_succ] at this
            omega
          · have := psum_mono (size n mapping) (i := c + 1) (j := mapping k) (by omega)
            rw [psum_succ] at this
            omega
        · rw [if_neg hi, if_neg hi]

theorem psum_size_all {n cn : Nat} {mapping : Nat → Nat} (hm : ∀ u, u < n → mapping u < cn) :
    psum (size n mapping) cn = n := by
  have : psum (size n mapping) cn = (List.range n).countP (fun u => mapping u < cn) := psum_size cn
  rw [this, List.countP_eq_length.2, List.length_range]
  intro u hu
  simp [hm u (List.mem_range.1 hu)]

/-- The sorted nodes are the clusters one after the other. -/
theorem place_eq {n cn : Nat} {mapping : Nat → Nat} (hm : ∀ u, u < n → mapping u < cn) (hcn : cn ≤ n) {sizes : Nat → Nat}
    (hs : ∀ c, sizes c = size n mapping c) (old : Nat → Nat) :
    (List.range n).map (placeLoop n mapping (prefixLoop n sizes) old) =
      (List.range cn).flatMap (members n mapping) := by
  have hsz : sizes = size n mapping := funext hs
  subst hsz
  have hst : ∀ c, c < cn → prefixLoop n (size n mapping) c = psum (size n mapping) c := by
    intro c hc
    unfold prefixLoop
    rw [(prefixLoop_eq (size n mapping) n).2, if_pos (by omega)]
  obtain ⟨_, h2⟩ := place_inv hm hst old n (le_refl _)
  have key : ∀ c, c ≤ cn → (List.range (psum (size n mapping) c)).map (placeLoop n mapping (prefixLoop n (size n mapping)) old) =
      (List.range c).flatMap (members n mapping) := by
    intro c
    induction c with
    | zero => intro _; rfl
    | succ c ih =>
      intro hc
      rw [psum_succ, List.range_add, List.map_append, ih (by omega), List.range_succ, List.flatMap_append]
      congr 1
      simp only [List.flatMap_cons, List.flatMap_nil, List.append_nil, List.map_map]
      apply List.ext_getElem?
      intro i
      rw [h2 c (by omega) i, List.getElem?_map]
      by_cases hi : i < size n mapping c
      · rw [if_pos hi, List.getElem?_range hi]; rfl
      · rw [if_neg hi, List.getElem?_eq_none (by simpa using hi)]; rfl
  rw [← key cn (le_refl _), psum_size_all hm]

end Verif.InitialCoarsening

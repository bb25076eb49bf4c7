import Verif.Dist.Lemmas

/-!
# C64: the distributed graph in memory is the graph that the caller passed
-/

namespace Verif.Dist
open Verif.Math

theorem mapM_some {α β : Type} {f : α → Option β} {g : α → β} : ∀ {l : List α}, (∀ x, x ∈ l → f x = some (g x)) →
    l.mapM f = some (l.map g)
  | [], _ => rfl
  | a :: l, h => by
    rw [List.mapM_cons, h a List.mem_cons_self, mapM_some fun x hx => h x (List.mem_cons_of_mem _ hx)]
    rfl

theorem narrow_of_fits {w : Int} (h : -2 ^ 31 ≤ w ∧ w < 2 ^ 31) : narrow w = w := by
  unfold narrow
  exact Int.bmod_eq_of_le (by omega) (by omega)

section
variable {dist : List Nat} {rank : Nat} {inp : Input}

theorem Valid.mono (h : Valid dist rank inp) : ∀ {i j : Nat}, i ≤ j → j < dist.length → first dist i ≤ first dist j := by
  intro i j hij
  induction j with
  | zero => intro _; rw [Nat.le_zero.1 hij]; exact Nat.le_refl _
  | succ j ih =>
    intro hj
    rcases Nat.lt_or_ge i (j + 1) with hlt | hge
    · exact Nat.le_trans (ih (by omega) (by omega)) (h.sorted j (by omega))
    · rw [show i = j + 1 by omega]; exact Nat.le_refl _

theorem Valid.owner (h : Valid dist rank inp) {v : Nat} (hv : v < first dist (dist.length - 1)) :
    Owns dist (findInDistribution v dist) v := by
  have hr := h.exists_rank
  exact Verif.Math.Props.C01_find_in_distribution v dist
    ⟨0, by rw [getD_some (by omega)]; exact congrArg some h.zero, Nat.zero_le _⟩
    ⟨_, List.mem_of_getElem? (getD_some (show dist.length - 1 < dist.length by omega)), hv⟩

theorem Valid.owns_iff (h : Valid dist rank inp) {v : Nat} : Owns dist rank v ↔ first dist rank ≤ v ∧ v < first dist (rank + 1) := by
  have hr := h.exists_rank
  constructor
  · rintro ⟨lo, hi, h1, h2, h3, h4⟩
    rw [getD_some (by omega)] at h1
    rw [getD_some (by omega)] at h2
    cases h1
    cases h2
    exact ⟨h3, h4⟩
  · intro ⟨h1, h2⟩
    exact ⟨_, _, getD_some (by omega), getD_some (by omega), h1, h2⟩

theorem Valid.xadj_mono (h : Valid dist rank inp) : ∀ {i j : Nat}, i ≤ j → j ≤ localN dist rank →
    inp.xadj.getD i 0 ≤ inp.xadj.getD j 0 := by
  intro i j hij
  induction j with
  | zero => intro _; rw [Nat.le_zero.1 hij]; exact Nat.le_refl _
  | succ j ih =>
    intro hj
    rcases Nat.lt_or_ge i (j + 1) with hlt | hge
    · exact Nat.le_trans (ih (by omega) (by omega)) (h.xadj_sorted j (by omega))
    · rw [show i = j + 1 by omega]; exact Nat.le_refl _

/-- The values that `import?` computes. -/
structure Built (dist : List Nat) (rank : Nat) (inp : Input) (T : List (Nat × Nat)) (g : DGraph) : Prop where
  rank_eq : g.rank = rank
  dist_eq : g.dist = dist
  nodes_eq : g.nodes = inp.xadj
  edgeWeights_eq : g.edgeWeights = inp.adjwgt
  nodeWeights_eq : g.nodeWeights = if inp.vwgt = [] then [] else inp.vwgt ++
    List.replicate (localN dist rank + (foreign dist rank inp).length) 0
  edges_length : g.edges.length = inp.adjncy.length
  edges_eq : ∀ e v : Nat, inp.adjncy[e]? = some v → ∃ l : Nat, g.edges[e]? = some l ∧
    if first dist rank ≤ v ∧ v < first dist (rank + 1) then l = v - first dist rank else (v, l) ∈ T
  keys : (T.map Prod.fst).Nodup
  values : (T.map Prod.snd).Perm (List.range' (localN dist rank) (foreign dist rank inp).length)
  mem : ∀ v, v ∈ T.map Prod.fst ↔ v ∈ foreign dist rank inp
  owners_length : (foreign dist rank inp).length ≤ g.ghostOwner.length
  globals_length : g.ghostToGlobal.length = (foreign dist rank inp).length
  arrays : ∀ v l : Nat, (v, l) ∈ T → g.ghostToGlobal[l - localN dist rank]? = some v ∧
    g.ghostOwner[l - localN dist rank]? = some (findInDistribution v dist)
  lookup : ∀ v l, g.globalToGhost.lookup (v + 1) = some l ↔ (v, l) ∈ T

theorem import_built (hv : Valid dist rank inp) (hf : Fits dist rank inp) {order : List Nat}
    (horder : order.Perm (List.range inp.adjncy.length)) {shuffle : List (Nat × Nat) → List (Nat × Nat)}
    (hshuffle : ∀ l, (shuffle l).Perm l) : ∃ T g, import? dist rank inp order shuffle = some g ∧ Built dist rank inp T g := by
  have hr := hv.exists_rank
  have hd1 : dist[rank]? = some (first dist rank) := getD_some (by omega)
  have hd2 : dist[rank + 1]? = some (first dist (rank + 1)) := getD_some hr
  have hle : first dist rank ≤ first dist (rank + 1) := hv.sorted rank (by omega)
  have hfn := hf.nodes
  have hb64 : first dist (rank + 1) < 2 ^ 64 := Nat.lt_of_le_of_lt (hv.mono (by omega) (by omega)) hv.bound
  have hn : subW 64 (first dist (rank + 1)) (first dist rank) % 2 ^ 32 = localN dist rank := by
    have hN : first dist (rank + 1) - first dist rank = localN dist rank := by unfold localN; omega
    rw [subW_of_le hle hb64, hN, Nat.mod_eq_of_lt (by omega)]
  have hxl := hv.xadj_length
  have hm : inp.xadj[localN dist rank]? = some inp.adjncy.length := by
    rw [getD_some (by omega), hv.xadj_last]
  have hmm : inp.adjncy.length % 2 ^ 32 = inp.adjncy.length := Nat.mod_eq_of_lt hf.edges
  have hnodes : (List.range (localN dist rank + 1)).mapM (fun u => inp.xadj[u]?.map (· % 2 ^ 32)) = some inp.xadj := by
    rw [mapM_some (g := fun u => inp.xadj.getD u 0)]
    · congr 1
      refine List.ext_getElem (by simp [hxl]) fun i h1 h2 => ?_
      simp [h2]
    · intro u hu
      rw [List.mem_range] at hu
      rw [getD_some (by omega)]
      have := hv.xadj_mono (show u ≤ localN dist rank by omega) (Nat.le_refl _)
      rw [hv.xadj_last] at this
      rw [Option.map_some, Nat.mod_eq_of_lt (Nat.lt_of_le_of_lt this hf.edges)]
  obtain ⟨s, hs, hi⟩ := loop_ok (n := localN dist rank) (fr := first dist rank) (ub := first dist (rank + 1)) (adjncy := inp.adjncy) hfn
    (Nat.le_refl _) order [] ⟨⟨[], localN dist rank⟩, fun _ => 0⟩
    ⟨List.nodup_nil, rfl, rfl, fun g => by simp, fun e he => absurd he List.not_mem_nil⟩
    (fun e he => List.mem_range.1 ((horder.mem_iff).1 he))
    (by rw [List.nil_append]; exact (horder.nodup_iff).2 List.nodup_range)
  rw [List.nil_append] at hi
  have hmem : ∀ v, v ∈ s.mapper.table.map Prod.fst ↔ v ∈ foreign dist rank inp := by
    intro v
    rw [hi.mem v]
    unfold foreign
    rw [List.mem_dedup, List.mem_filter]
    constructor
    · rintro ⟨e, _, h2, h3⟩
      exact ⟨List.mem_of_getElem? h2, by simpa using h3⟩
    · rintro ⟨h1, h2⟩
      obtain ⟨e, he⟩ := List.mem_iff_getElem?.1 h1
      obtain ⟨hel, _⟩ := List.getElem?_eq_some_iff.1 he
      exact ⟨e, (horder.mem_iff).2 (List.mem_range.2 hel), he, by simpa using h2⟩
  have hlen : s.mapper.table.length = (foreign dist rank inp).length := by
    have h1 := nodup_length_le hi.keys (m := foreign dist rank inp) fun v h => (hmem v).1 h
    have h2 := nodup_length_le (l := foreign dist rank inp) (m := s.mapper.table.map Prod.fst) (List.nodup_dedup _) fun v h => (hmem v).2 h
    rw [List.length_map] at h1 h2
    omega
  have hvals : (s.mapper.table.map Prod.snd).Perm (List.range' (localN dist rank) (foreign dist rank inp).length) := by
    rw [hi.values, hlen]
    exact List.reverse_perm _
  have hnext : s.mapper.next = localN dist rank + (foreign dist rank inp).length := by rw [hi.next, hlen]
  have hghost : subW 32 s.mapper.next (localN dist rank) = (foreign dist rank inp).length := by
    rw [hnext, subW_of_le (by omega) (by omega)]
    omega
  have hpsh := hshuffle s.mapper.table
  obtain ⟨t, ht, hti⟩ := finalize_ok (dist := dist) (n := localN dist rank) (ghostN := (foreign dist rank inp).length) hfn
    (shuffle s.mapper.table) [] ⟨fun _ => 0, fun _ => 0, []⟩ ⟨fun e he => absurd he List.not_mem_nil, rfl⟩
    (fun e he => by
      have : e.2 ∈ s.mapper.table.map Prod.snd := List.mem_map_of_mem ((hpsh.mem_iff).1 he)
      have := (hvals.mem_iff).1 this
      rw [List.mem_range'_1] at this
      exact this)
    (by rw [List.nil_append]; exact ((hpsh.map _).nodup_iff).2 hi.keys)
    (by rw [List.nil_append]; exact ((hpsh.map _).nodup_iff).2 ((hvals.nodup_iff).2 List.nodup_range'))
    (fun e he => absurd he List.not_mem_nil)
  rw [List.nil_append] at hti
  have hew : copyEdgeWeights? inp.adjncy.length inp.adjwgt = some inp.adjwgt := by
    unfold copyEdgeWeights?
    rcases hv.adjwgt with h | h
    · rw [if_pos h, h]
    · by_cases h0 : inp.adjwgt = []
      · rw [if_pos h0, h0]
      rw [if_neg h0, mapM_some (g := fun e => inp.adjwgt.getD e 0)]
      · congr 1
        refine List.ext_getElem (by simp [h]) fun i h1 h2 => ?_
        simp [h2]
      · intro e he
        rw [List.mem_range] at he
        rw [getDI_some (by omega), Option.map_some, narrow_of_fits]
        exact hf.weights _ (.inr (List.mem_of_getElem? (getDI_some (by omega))))
  have hnw : copyNodeWeights? (localN dist rank) ((localN dist rank + s.mapper.next) % 2 ^ 32) inp.vwgt = some (if inp.vwgt = [] then [] else inp.vwgt ++
        List.replicate (localN dist rank + (foreign dist rank inp).length) 0) := by
    unfold copyNodeWeights?
    by_cases h0 : inp.vwgt = []
    · rw [if_pos h0, if_pos h0]
    have hl := hv.vwgt.resolve_left h0
    have harr := hf.array.resolve_left h0
    rw [if_neg h0, if_neg h0, hnext, Nat.mod_eq_of_lt (by omega), if_pos (by omega),
      mapM_some (g := fun u => inp.vwgt.getD u 0)]
    · rw [Option.map_some, show localN dist rank + (localN dist rank + (foreign dist rank inp).length) - localN dist rank =
        localN dist rank + (foreign dist rank inp).length by omega]
      congr 2
      refine List.ext_getElem (by simp [hl]) fun i h1 h2 => ?_
      simp [h2]
    · intro u hu
      rw [List.mem_range] at hu
      rw [getDI_some (by omega), Option.map_some, narrow_of_fits]
      exact hf.weights _ (.inl (List.mem_of_getElem? (getDI_some (by omega))))
  have hfin : finish? dist rank inp (localN dist rank) inp.adjncy.length inp.xadj inp.adjwgt s shuffle = some {
      rank := rank
      dist := dist
      nodes := inp.xadj
      edges := (List.range inp.adjncy.length).map s.edges
      nodeWeights := if inp.vwgt = [] then [] else inp.vwgt ++ List.replicate (localN dist rank + (foreign dist rank inp).length) 0
      edgeWeights := inp.adjwgt
      ghostOwner := (List.range (foreign dist rank inp).length).map t.owner
      ghostToGlobal := (List.range (foreign dist rank inp).length).map t.toGlobal
      globalToGhost := t.toGhost } := by
    unfold finish?
    rw [hnw, hghost]
    simp only [Option.bind_eq_bind, Option.bind_some]
    rw [ht]
    rfl
  have hbld : build? dist rank inp (first dist rank) (first dist (rank + 1)) (localN dist rank) inp.adjncy.length order shuffle =
      finish? dist rank inp (localN dist rank) inp.adjncy.length inp.xadj inp.adjwgt s shuffle := by
    unfold build?
    rw [hnodes]
    simp only [Option.bind_eq_bind, Option.bind_some]
    rw [hs, Option.bind_some, hew, Option.bind_some]
  have himp : import? dist rank inp order shuffle =
      finish? dist rank inp (localN dist rank) inp.adjncy.length inp.xadj inp.adjwgt s shuffle := by
    unfold import?
    rw [hd1, Option.bind_some, hd2, Option.bind_some, hn]
    unfold importN?
    rw [hm, Option.bind_some, hmm, hbld]
  refine ⟨s.mapper.table, _, himp.trans hfin, ?_⟩
  · refine ⟨rfl, rfl, rfl, rfl, rfl, by simp, ?_, hi.keys, hvals, hmem, by simp, by simp, ?_, ?_⟩
    · intro e v he
      obtain ⟨hel, _⟩ := List.getElem?_eq_some_iff.1 he
      refine ⟨s.edges e, by simp [hel], ?_⟩
      obtain ⟨v', h1, h2⟩ := hi.edges e ((horder.mem_iff).2 (List.mem_range.2 hel))
      rw [he] at h1
      cases h1
      split
      · next hc => rwa [if_pos hc] at h2
      · next hc =>
        rw [if_neg hc] at h2
        exact mem_of_lookup h2
    · intro v l hvl
      have hl : l ∈ s.mapper.table.map Prod.snd := List.mem_map_of_mem (f := Prod.snd) hvl
      have hl := (hvals.mem_iff).1 hl
      rw [List.mem_range'_1] at hl
      have := hti.arrays (v, l) ((hpsh.mem_iff).2 hvl)
      dsimp only at this ⊢
      have hlt : l - localN dist rank < (foreign dist rank inp).length := by omega
      simp [hlt, this]
    · intro v l
      dsimp only
      rw [hti.table]
      have hkn : (((shuffle s.mapper.table).map fun e => (e.1 + 1, e.2)).reverse.map Prod.fst).Nodup := by
        rw [List.map_reverse, (List.reverse_perm _).nodup_iff, List.map_map]
        have h0 : ((shuffle s.mapper.table).map Prod.fst).Nodup := ((hpsh.map _).nodup_iff).2 hi.keys
        have := nodup_map_on (f := (· + 1)) h0 fun a _ b _ h => by omega
        rw [List.map_map] at this
        exact this
      constructor
      · intro h
        have := mem_of_lookup h
        rw [List.mem_reverse, List.mem_map] at this
        obtain ⟨x, h1, h2⟩ := this
        obtain ⟨rfl, rfl⟩ : x.1 = v ∧ x.2 = l := by
          simp only [Prod.mk.injEq] at h2
          omega
        exact (hpsh.mem_iff).1 h1
      · intro h
        refine lookup_of_mem hkn ?_
        rw [List.mem_reverse, List.mem_map]
        exact ⟨(v, l), (hpsh.mem_iff).2 h, rfl⟩

theorem Built.represents (hv : Valid dist rank inp) {T : List (Nat × Nat)} {g : DGraph} (b : Built dist rank inp T g) :
    Represents dist rank inp g := by
  have hr := hv.exists_rank
  have hle : first dist rank ≤ first dist (rank + 1) := hv.sorted rank (by omega)
  have hn : g.n = localN dist rank := by
    unfold DGraph.n
    rw [b.nodes_eq, hv.xadj_length]
    rfl
  have htot : g.totalN = localN dist rank + (foreign dist rank inp).length := by
    unfold DGraph.totalN DGraph.ghostN
    rw [hn, b.globals_length, Nat.add_comm]
  have hoff : g.offset? = some (first dist rank) := by
    unfold DGraph.offset?
    rw [b.rank_eq, b.dist_eq]
    exact getD_some (by omega)
  have hNto : ∀ v, (first dist rank ≤ v ∧ v < first dist rank + localN dist rank) ↔
      (first dist rank ≤ v ∧ v < first dist (rank + 1)) := by
    intro v
    unfold localN
    omega
  have hfor : ∀ v, v ∈ foreign dist rank inp → ¬(first dist rank ≤ v ∧ v < first dist (rank + 1)) ∧ v ∈ inp.adjncy := by
    intro v h
    unfold foreign at h
    rw [List.mem_dedup, List.mem_filter] at h
    have := of_decide_eq_true h.2
    exact ⟨by omega, h.1⟩
  have hown : ∀ u, u < localN dist rank → g.localToGlobal? u = some (first dist rank + u) := by
    intro u hu
    unfold DGraph.localToGlobal?
    rw [hn, if_pos hu, hoff]
    rfl
  have hT : ∀ l, localN dist rank ≤ l → l < g.totalN → ∃ v, (v, l) ∈ T := by
    intro l h1 h2
    rw [htot] at h2
    have : l ∈ T.map Prod.snd := (b.values.mem_iff).2 (List.mem_range'_1.2 ⟨h1, h2⟩)
    obtain ⟨x, h3, rfl⟩ := List.mem_map.1 this
    exact ⟨x.1, h3⟩
  have hTl : ∀ v l, (v, l) ∈ T → localN dist rank ≤ l ∧ l < g.totalN := by
    intro v l h
    rw [htot]
    have : l ∈ T.map Prod.snd := List.mem_map_of_mem (f := Prod.snd) h
    exact List.mem_range'_1.1 ((b.values.mem_iff).1 this)
  have hTg : ∀ v l, (v, l) ∈ T → g.localToGlobal? l = some v := by
    intro v l h
    unfold DGraph.localToGlobal?
    rw [hn, if_neg (by have := hTl v l h; omega)]
    exact (b.arrays v l h).1
  have hTf : ∀ v l, (v, l) ∈ T → v ∈ foreign dist rank inp := fun v l h => (b.mem v).1 (List.mem_map_of_mem (f := Prod.fst) h)
  have hg2l : ∀ v, g.globalToLocal? v = if first dist rank ≤ v ∧ v < first dist (rank + 1) then some (v - first dist rank) else
      g.globalToGhost.lookup (v + 1) := by
    intro v
    unfold DGraph.globalToLocal?
    rw [hoff, Option.bind_some, hn]
    simp only [hNto]
  have hinv : ∀ l v, l < g.totalN → g.localToGlobal? l = some v → g.globalToLocal? v = some l := by
    intro l v hl h
    rw [hg2l]
    rcases Nat.lt_or_ge l (localN dist rank) with hlt | hge
    · rw [hown l hlt] at h
      cases h
      rw [if_pos (by have : localN dist rank = first dist (rank + 1) - first dist rank := rfl
                     omega)]
      congr 1
      omega
    · obtain ⟨v', h'⟩ := hT l hge hl
      rw [hTg _ _ h'] at h
      cases h
      rw [if_neg (hfor _ (hTf _ _ h')).1]
      exact (b.lookup _ _).2 h'
  have hinv' : ∀ v l, g.globalToLocal? v = some l → l < g.totalN ∧ g.localToGlobal? l = some v := by
    intro v l h
    rw [hg2l] at h
    split at h
    · next hc =>
      cases h
      have hlt : v - first dist rank < localN dist rank := by
        have : localN dist rank = first dist (rank + 1) - first dist rank := rfl
        omega
      refine ⟨by omega, ?_⟩
      rw [hown _ hlt]
      congr 1
      omega
    · have := (b.lookup v l).1 h
      exact ⟨(hTl _ _ this).2, hTg _ _ this⟩
  refine ⟨b.rank_eq, b.dist_eq, hn, htot, hown, ?_, hinv, hinv', ?_, ?_, ?_, ?_, ?_, ?_, ?_⟩
  · intro l h1 h2
    obtain ⟨v, h⟩ := hT l h1 h2
    have hvf := hTf _ _ h
    have ho := hv.owner (hv.targets v (hfor v hvf).2)
    refine ⟨v, _, hTg _ _ h, hvf, ?_, ho, ?_⟩
    · unfold DGraph.owner?
      rw [hn]
      exact (b.arrays v l h).2
    · intro he
      rw [he, hv.owns_iff] at ho
      exact (hfor v hvf).1 ho
  · intro v
    unfold DGraph.containsGlobal? DGraph.isOwnedGlobal?
    rw [hoff, Option.map_some, Option.map_some, hn]
    simp only [hNto]
    have : (g.globalToGhost.lookup (v + 1)).isSome = decide (v ∈ foreign dist rank inp) := by
      by_cases h : v ∈ foreign dist rank inp
      · obtain ⟨x, h1, h2⟩ := List.mem_map.1 ((b.mem v).2 h)
        have := (b.lookup v x.2).2 (by rw [← h2]; exact h1)
        rw [this]
        simp [h]
      · cases hl : g.globalToGhost.lookup (v + 1) with
        | none => simp [h]
        | some l => exact absurd (hTf _ _ ((b.lookup v l).1 hl)) h
    rw [this]
  · intro u hu
    have hx1 : inp.xadj[u]? = some (inp.xadj.getD u 0) := getD_some (by rw [hv.xadj_length]; omega)
    have hx2 : inp.xadj[u + 1]? = some (inp.xadj.getD (u + 1) 0) := getD_some (by rw [hv.xadj_length]; omega)
    have hxm : inp.xadj.getD (u + 1) 0 ≤ inp.adjncy.length := by
      rw [← hv.xadj_last]
      exact hv.xadj_mono (by omega) (Nat.le_refl _)
    have hedge : ∀ e, e < inp.adjncy.length → ∃ l, g.edges[e]? = some l ∧ g.localToGlobal? l = some (inp.adjncy.getD e 0) := by
      intro e he
      obtain ⟨l, h1, h2⟩ := b.edges_eq e _ (getD_some he)
      refine ⟨l, h1, ?_⟩
      split at h2
      · next hc =>
        rw [h2, hown _ (by have : localN dist rank = first dist (rank + 1) - first dist rank := rfl
                           omega)]
        congr 1
        omega
      · exact hTg _ _ h2
    have hwt : ∀ e, e < inp.adjncy.length → g.edgeWeight? e = some (inp.weight e) := by
      intro e he
      unfold Input.weight DGraph.edgeWeight?
      rw [b.edgeWeights_eq]
      by_cases h0 : inp.adjwgt = []
      · rw [if_pos h0, if_pos h0]
      · rw [if_neg h0, if_neg h0]
        exact getDI_some (by rw [hv.adjwgt.resolve_left h0]; exact he)
    refine ⟨(List.range' (inp.xadj.getD u 0) (inp.xadj.getD (u + 1) 0 - inp.xadj.getD u 0)).map fun e =>
      (g.edges.getD e 0, inp.weight e), ?_, ?_⟩
    · unfold DGraph.adjacent?
      rw [b.nodes_eq, hx1, hx2]
      simp only [Option.bind_eq_bind, Option.bind_some]
      refine mapM_some fun e he => ?_
      rw [List.mem_range'_1] at he
      obtain ⟨l, h1, _⟩ := hedge e (by omega)
      rw [hwt e (by omega), h1]
      simp [h1]
    · rw [List.mapM_map]
      unfold Input.neighbours
      refine mapM_some fun e he => ?_
      rw [List.mem_range'_1] at he
      obtain ⟨l, h1, h2⟩ := hedge e (by omega)
      have : g.edges.getD e 0 = l := by simp [h1]
      simp only [Function.comp]
      rw [this, h2]
      rfl
  · rw [b.nodeWeights_eq, htot]
    by_cases h0 : inp.vwgt = []
    · rw [if_pos h0, if_pos h0]
    · rw [if_neg h0, if_neg h0]
      simp only [List.length_append, List.length_replicate]
      omega
  · intro u hu
    unfold DGraph.nodeWeight? Input.nodeWeight
    rw [b.nodeWeights_eq]
    by_cases h0 : inp.vwgt = []
    · rw [if_pos h0, if_pos h0, if_pos rfl]
    · rw [if_neg h0, if_neg h0]
      have hl := hv.vwgt.resolve_left h0
      rw [if_neg (by simp [h0]), List.getElem?_append_left (by omega)]
      exact getDI_some (by omega)
  · intro v h
    unfold DGraph.findOwner
    rw [b.dist_eq]
    exact hv.owner h
  · intro l v hl h
    unfold DGraph.isGhost
    rw [decide_eq_true_eq, hn, hv.owns_iff]
    rcases Nat.lt_or_ge l (localN dist rank) with hlt | hge
    · rw [hown l hlt] at h
      cases h
      have : localN dist rank = first dist (rank + 1) - first dist rank := rfl
      omega
    · obtain ⟨v', h'⟩ := hT l hge hl
      rw [hTg _ _ h'] at h
      cases h
      exact ⟨fun _ => (hfor _ (hTf _ _ h')).1, fun _ => hge⟩
  · intro q u l hq
    unfold DGraph.mapRemote?
    rw [b.dist_eq, getD_some (by omega : q < dist.length), Option.bind_some]
    exact ⟨fun h => hinv' _ _ h, fun h => hinv _ _ h.1 h.2⟩

/-- **C64.**  Each process passes its part of a distributed graph that fits into the IDs and weights of the build.  Whatever the
order in which the threads process the edges and the entries of the hash table, the import succeeds and the graph in the memory of
the process represents the part that was passed: neighbours, weights and owners are the same, and local and global IDs correspond one
to one. -/
theorem C64_import_partial (hv : Valid dist rank inp) (hf : Fits dist rank inp) (order : List Nat)
    (horder : order.Perm (List.range inp.adjncy.length)) (shuffle : List (Nat × Nat) → List (Nat × Nat))
    (hshuffle : ∀ l, (shuffle l).Perm l) :
    ∃ g, import? dist rank inp order shuffle = some g ∧ Represents dist rank inp g := by
  obtain ⟨T, g, h1, h2⟩ := import_built hv hf horder hshuffle
  exact ⟨g, h1, h2.represents hv⟩

/-- **C64, number of nodes.**  The array of node weights is sized with a sum that counts the nodes of the process twice.  If this sum
is too large for 32 bits, the weights are written past the end of the array, although nodes and foreign nodes together fit. -/
theorem C64_many_weighted_nodes (hv : Valid dist rank inp) (hn : localN dist rank + (foreign dist rank inp).length < 2 ^ 32)
    (hm : inp.adjncy.length < 2 ^ 32) (hw : inp.vwgt ≠ []) (hbig : 2 ^ 32 ≤ 2 * localN dist rank + (foreign dist rank inp).length)
    (order : List Nat) (horder : order.Perm (List.range inp.adjncy.length)) (shuffle : List (Nat × Nat) → List (Nat × Nat)) :
    import? dist rank inp order shuffle = none := by
  have hr := hv.exists_rank
  have hd1 : dist[rank]? = some (first dist rank) := getD_some (by omega)
  have hd2 : dist[rank + 1]? = some (first dist (rank + 1)) := getD_some hr
  have hle : first dist rank ≤ first dist (rank + 1) := hv.sorted rank (by omega)
  have hb64 : first dist (rank + 1) < 2 ^ 64 := Nat.lt_of_le_of_lt (hv.mono (by omega) (by omega)) hv.bound
  have hnn : subW 64 (first dist (rank + 1)) (first dist rank) % 2 ^ 32 = localN dist rank := by
    have hN : first dist (rank + 1) - first dist rank = localN dist rank := by unfold localN; omega
    rw [subW_of_le hle hb64, hN, Nat.mod_eq_of_lt (by omega)]
  have hxl := hv.xadj_length
  have hx : inp.xadj[localN dist rank]? = some inp.adjncy.length := by
    rw [getD_some (by omega), hv.xadj_last]
  obtain ⟨s, hs, hi⟩ := loop_ok (n := localN dist rank) (fr := first dist rank) (ub := first dist (rank + 1)) (adjncy := inp.adjncy) hn
    (Nat.le_refl _) order [] ⟨⟨[], localN dist rank⟩, fun _ => 0⟩
    ⟨List.nodup_nil, rfl, rfl, fun g => by simp, fun e he => absurd he List.not_mem_nil⟩
    (fun e he => List.mem_range.1 ((horder.mem_iff).1 he))
    (by rw [List.nil_append]; exact (horder.nodup_iff).2 List.nodup_range)
  rw [List.nil_append] at hi
  have hsub : foreign dist rank inp ⊆ s.mapper.table.map Prod.fst := by
    intro v h
    rw [hi.mem v]
    unfold foreign at h
    rw [List.mem_dedup, List.mem_filter] at h
    obtain ⟨e, he⟩ := List.mem_iff_getElem?.1 h.1
    obtain ⟨hel, _⟩ := List.getElem?_eq_some_iff.1 he
    exact ⟨e, (horder.mem_iff).2 (List.mem_range.2 hel), he, by simpa using h.2⟩
  have hsup : s.mapper.table.map Prod.fst ⊆ foreign dist rank inp := by
    intro v h
    obtain ⟨e, _, h2, h3⟩ := (hi.mem v).1 h
    unfold foreign
    rw [List.mem_dedup, List.mem_filter]
    exact ⟨List.mem_of_getElem? h2, by simpa using h3⟩
  have h1 := nodup_length_le (l := foreign dist rank inp) (List.nodup_dedup _) hsub
  have h2 := nodup_length_le hi.keys hsup
  rw [List.length_map] at h1 h2
  have hcap : (localN dist rank + s.mapper.next) % 2 ^ 32 < localN dist rank := by
    have := hi.next
    have h3 : localN dist rank + s.mapper.next = (2 * localN dist rank + (foreign dist rank inp).length - 2 ^ 32) + 2 ^ 32 := by omega
    rw [h3, Nat.add_mod_right, Nat.mod_eq_of_lt (by omega)]
    omega
  have hnone : copyNodeWeights? (localN dist rank) ((localN dist rank + s.mapper.next) % 2 ^ 32) inp.vwgt = none := by
    unfold copyNodeWeights?
    rw [if_neg hw, if_neg (by omega)]
  have hfin : ∀ nodes ew, finish? dist rank inp (localN dist rank) inp.adjncy.length nodes ew s shuffle = none := by
    intro nodes ew
    unfold finish?
    rw [hnone]
    rfl
  unfold import?
  rw [hd1, Option.bind_some, hd2, Option.bind_some, hnn]
  unfold importN?
  rw [hx, Option.bind_some, Nat.mod_eq_of_lt hm]
  unfold build?
  rw [hs]
  cases (List.range (localN dist rank + 1)).mapM fun u => inp.xadj[u]?.map (· % 2 ^ 32) with
  | none => rfl
  | some nodes =>
    cases copyEdgeWeights? inp.adjncy.length inp.adjwgt with
    | none => rfl
    | some ew => exact hfin nodes ew

end

/-- **C64, large weights.**  A weight of the library interface that does not fit into 32 bits is replaced by another one, without a
message: the graph in memory is not the one that was passed. -/
theorem C64_large_weight_changed (w : Int) (hw : ¬(-2 ^ 31 ≤ w ∧ w < 2 ^ 31)) :
    ∃ inp, Valid [0, 1] 0 inp ∧ inp.nodeWeight 0 = w ∧ ∀ order shuffle, order.Perm (List.range inp.adjncy.length) →
      (∀ l : List (Nat × Nat), (shuffle l).Perm l) →
      ∃ g w', import? [0, 1] 0 inp order shuffle = some g ∧ g.nodeWeight? 0 = some w' ∧ w' ≠ w := by
  refine ⟨⟨[0, 0], [], [w], []⟩, ⟨by decide, by decide, by decide, by decide, rfl, rfl, fun u hu => ?_, rfl, by simp,
    .inl rfl, .inr rfl⟩, rfl, fun order shuffle ho hsh => ?_⟩
  · have : u = 0 := by
      have : localN [0, 1] 0 = 1 := by decide
      omega
    subst this
    exact Nat.le_refl _
  have h1 : order = [] := List.length_eq_zero_iff.1 ho.length_eq
  have h2 : shuffle [] = [] := List.length_eq_zero_iff.1 (hsh []).length_eq
  subst h1
  refine ⟨⟨0, [0, 1], [0, 0], [], [narrow w, 0], [], [], [], []⟩, narrow w, ?_, rfl, ?_⟩
  · have hsub : subW 64 1 0 % 2 ^ 32 = 1 := by decide
    have hg : subW 32 1 1 = 0 := by decide
    unfold import?
    rw [show ([0, 1] : List Nat)[0]? = some 0 from rfl, Option.bind_some, show ([0, 1] : List Nat)[0 + 1]? = some 1 from rfl,
      Option.bind_some, hsub]
    unfold importN?
    rw [show ([0, 0] : List Nat)[1]? = some 0 from rfl, Option.bind_some, Nat.zero_mod]
    unfold build?
    rw [show (List.range (1 + 1)).mapM (fun u => ([0, 0] : List Nat)[u]?.map (· % 2 ^ 32)) = some [0, 0] by decide]
    unfold finish? copyEdgeWeights? copyNodeWeights?
    simp only [List.foldlM_nil, Option.bind_eq_bind, Option.bind_some, if_true, Option.pure_def, hg, h2]
    rfl
  · unfold narrow
    have := Int.le_bmod (x := w) (m := 2 ^ 32) (by decide)
    have := Int.bmod_lt (x := w) (m := 2 ^ 32) (by decide)
    intro h
    omega

/-- **C64, edge offsets.**  The offsets of the processes in the numbering of all edges are the numbers of edges of the processes before
them. -/
theorem C64_edge_distribution (ms : List Nat) (q : Nat) (hq : q ≤ ms.length) :
    (edgeDistribution ms)[q]? = some (ms.take q).sum ∧ (edgeDistribution ms).length = ms.length + 1 := by
  have key : ∀ (l done : List Nat) (acc : List Nat), acc = (List.range done.length).map (fun i => (done.take i).sum) →
      l.foldl (fun (s : List Nat × Nat) m => (s.1 ++ [s.2], s.2 + m)) (acc, done.sum) =
        ((List.range (done.length + l.length)).map fun i => ((done ++ l).take i).sum, (done ++ l).sum) := by
    intro l
    induction l with
    | nil => intro done acc h; simp [h]
    | cons a l ih =>
      intro done acc h
      rw [List.foldl_cons]
      have := ih (done ++ [a]) (acc ++ [done.sum]) (by
        rw [h, List.length_append, List.length_singleton, List.range_succ, List.map_append]
        congr 1
        · refine List.map_congr_left fun i hi => ?_
          rw [List.mem_range] at hi
          rw [List.take_append_of_le_length (by omega)]
        · simp)
      simp only [List.sum_append, List.sum_cons, List.sum_nil, Nat.add_zero] at this ⊢
      rw [this]
      simp only [List.append_assoc, List.singleton_append, List.length_append, List.length_cons, List.length_nil, Prod.mk.injEq]
      refine ⟨?_, by omega⟩
      rw [show done.length + (0 + 1) + l.length = done.length + (l.length + 1) by omega]
  have := key (ms ++ [0]) [] [] rfl
  unfold edgeDistribution
  simp only [List.sum_nil, List.nil_append, List.length_nil, Nat.zero_add] at this
  rw [this]
  simp only [List.length_append, List.length_singleton, List.length_map, List.length_range, and_true]
  have hq' : q < ms.length + 1 := by omega
  simp [hq', List.take_append_of_le_length hq]

/-! ## Examples -/

/-- Three processes; the second one has no nodes.  Process 0 owns the nodes 0, 1, 2 of a path `0 - 1 - 2 - 3 - 4` with the
additional edge `0 - 4`. -/
def dist3 : List Nat := [0, 3, 3, 5]

def inp0 : Input := ⟨[0, 2, 4, 6], [1, 4, 0, 2, 1, 3], [5, 6, 7], [1, 10, 1, 2, 2, 3]⟩

def inp1 : Input := ⟨[0], [], [], []⟩

def inp2 : Input := ⟨[0, 2, 4], [2, 4, 3, 0], [8, 9], [3, 4, 4, 10]⟩

theorem valid0 : Valid dist3 0 inp0 :=
  ⟨by decide, by decide, by decide, by decide, by decide, by decide, by decide, by decide, by decide, by decide, by decide⟩

theorem valid1 : Valid dist3 1 inp1 :=
  ⟨by decide, by decide, by decide, by decide, by decide, by decide, by decide, by decide, by decide, by decide, by decide⟩

theorem valid2 : Valid dist3 2 inp2 :=
  ⟨by decide, by decide, by decide, by decide, by decide, by decide, by decide, by decide, by decide, by decide, by decide⟩

theorem fits0 : Fits dist3 0 inp0 := ⟨by decide, by decide, by
  intro w h
  simp [inp0] at h
  omega, .inr (by decide)⟩

/-- The edges in reverse order: node 3 is the first ghost node, node 4 the second. -/
example : (import? dist3 0 inp0 [5, 4, 3, 2, 1, 0] List.reverse).map (fun g => (g.edges, g.ghostToGlobal, g.ghostOwner)) =
    some ([1, 4, 0, 2, 1, 3], [3, 4], [2, 2]) := by decide +kernel

/-- In order, the IDs of the ghost nodes are the other way round. -/
example : (import? dist3 0 inp0 [0, 1, 2, 3, 4, 5] id).map (fun g => (g.edges, g.ghostToGlobal, g.ghostOwner)) =
    some ([1, 3, 0, 2, 1, 4], [4, 3], [2, 2]) := by decide +kernel

/-- Half of all 32-bit IDs, no edges: the hypotheses of `C64_many_weighted_nodes` can be met. -/
example : Valid [0, 2 ^ 31] 0 ⟨List.replicate (2 ^ 31 + 1) 0, [], List.replicate (2 ^ 31) 1, []⟩ ∧
    2 ^ 32 ≤ 2 * localN [0, 2 ^ 31] 0 := by
  have hN : localN [0, 2 ^ 31] 0 = 2 ^ 31 := by decide
  have hget : ∀ i, (List.replicate (2 ^ 31 + 1) 0).getD i 0 = 0 := by
    intro i
    rw [List.getD_eq_getElem?_getD, List.getElem?_replicate]
    split <;> rfl
  refine ⟨⟨by decide, by decide, ?_, by decide, ?_, hget 0, ?_, ?_, ?_, .inl rfl, .inr ?_⟩, by rw [hN]; decide⟩
  · intro q hq
    have : q = 0 := by
      simp only [List.length_cons, List.length_nil] at hq
      omega
    subst this
    decide
  · rw [hN, List.length_replicate]
  · intro u _
    show (List.replicate (2 ^ 31 + 1) 0).getD u 0 ≤ (List.replicate (2 ^ 31 + 1) 0).getD (u + 1) 0
    rw [hget, hget]; exact Nat.le_refl _
  · exact hget _
  · intro v hv
    cases hv
  · rw [hN]
    exact List.length_replicate

example : edgeDistribution [6, 0, 4] = [0, 6, 6, 10] := by decide

end Verif.Dist

import Verif.Net.Model
import Verif.Grid.Props

/-!
# Collecting the messages
-/

namespace Verif.Net

variable {α : Type}

theorem collect_fold : ∀ (calls : List (Nat × List α)) (out : List (List α)), (calls.map Prod.fst).Nodup → (∀ c ∈ calls, c.1 < out.length) →
    ∃ out', calls.foldlM (fun out c => if c.1 < out.length then some (out.set c.1 c.2) else none) out = some out' ∧ out'.length = out.length ∧
      (∀ c ∈ calls, out'[c.1]? = some c.2) ∧ ∀ i, i ∉ calls.map Prod.fst → out'[i]? = out[i]?
  | [], out, _, _ => ⟨out, rfl, rfl, by simp, fun _ _ => rfl⟩
  | c :: calls, out, hn, hl => by
    rw [List.map_cons, List.nodup_cons] at hn
    have hc := hl c (List.mem_cons_self ..)
    obtain ⟨out', h1, h2, h3, h4⟩ := collect_fold calls (out.set c.1 c.2) hn.2 (fun d hd => by
      rw [List.length_set]; exact hl d (List.mem_cons_of_mem _ hd))
    refine ⟨out', ?_, by rw [h2, List.length_set], ?_, ?_⟩
    · rw [List.foldlM_cons, if_pos hc]
      exact h1
    · intro d hd
      rcases List.mem_cons.1 hd with rfl | hd
      · rw [h4 _ hn.1, List.getElem?_set_self hc]
      · exact h3 d hd
    · intro i hi
      rw [List.map_cons, List.mem_cons, not_or] at hi
      rw [h4 i hi.2, List.getElem?_set_ne (fun h => hi.1 h.symm)]

/-- If the receiver is called once for each rank, the buffers are complete. -/
theorem collect_ok {N : Nat} {calls : List (Nat × List α)} (g : Nat → List α) (h : calls.Perm ((List.range N).map fun src => (src, g src))) :
    collect? N calls = some ((List.range N).map g) := by
  have hk : (calls.map Prod.fst).Perm (List.range N) := by
    have := h.map Prod.fst
    rw [List.map_map] at this
    have he : (Prod.fst ∘ fun src => (src, g src)) = id := rfl
    rwa [he, List.map_id] at this
  have hm : ∀ c ∈ calls, c.1 < N ∧ c.2 = g c.1 := by
    intro c hc
    have := (h.mem_iff).1 hc
    simp only [List.mem_map, List.mem_range] at this
    obtain ⟨a, h1, rfl⟩ := this
    exact ⟨h1, rfl⟩
  obtain ⟨out', h1, h2, h3, h4⟩ := collect_fold calls (List.replicate N []) (hk.nodup_iff.2 List.nodup_range) (fun c hc => by
    rw [List.length_replicate]; exact (hm c hc).1)
  unfold collect?
  rw [h1]
  congr 1
  refine List.ext_getElem? fun i => ?_
  by_cases hi : i < N
  · have : (i, g i) ∈ calls := h.mem_iff.2 (List.mem_map.2 ⟨i, List.mem_range.2 hi, rfl⟩)
    rw [h3 _ this]
    simp [hi]
  · rw [List.getElem?_eq_none (by rw [h2, List.length_replicate]; omega), List.getElem?_eq_none (by simpa using hi)]

theorem calls_ok {N : Nat} (hN : 0 < N) (z : α) (send : Nat → List (List α)) (hs : ∀ src, src < N → (send src).length = N) {me : Nat} (hme : me < N) :
    ∃ calls, calls? N z send me = some calls ∧ calls.Perm ((List.range N).map fun src => (src, (send src).getD me [])) := by
  unfold calls?
  split
  · exact Grid.C45_grid N hN z send hs me hme
  · exact ⟨_, rfl, List.Perm.refl _⟩

theorem get_ok {N : Nat} (hN : 0 < N) (z : α) (send : Nat → List (List α)) (hs : ∀ src, src < N → (send src).length = N) {me : Nat} (hme : me < N) :
    get? N z send me = some ((List.range N).map fun src => (send src).getD me []) := by
  obtain ⟨calls, h1, h2⟩ := calls_ok hN z send hs hme
  unfold get?
  rw [h1]
  exact collect_ok _ h2

/-- `sparse_alltoall_alltoallv` on a rank. -/
theorem alltoallv_ok {N : Nat} (z : α) (send : Nat → List (List α)) (hs : ∀ src, src < N → (send src).length = N) {me : Nat} (hme : me < N) :
    alltoallv? N z send me = some ((List.range N).map fun src => (src, (send src).getD me [])) := by
  have hidx : (List.range N).idxOf me = me := by
    apply Grid.idx_of_get List.nodup_range
    simp [hme]
  have hlen : ((List.range N).flatMap fun pe => (send pe).getD me []).length =
      ((List.range N).map fun pe => ((send pe).getD me []).length).sum := by rw [List.length_flatMap]
  unfold alltoallv?
  rw [Grid.alltoallv_parts (comm := fun _ => List.range N) (call := fun pe => some (vcall N z send pe)) rfl rfl (fun src => (send src).getD me []) rfl rfl]
  · simp only [Option.bind_eq_bind, Option.bind_some]
    apply Grid.mapM_some
    intro pe hpe
    have hpe := List.mem_range.1 hpe
    have h1 : (vcall N z send me).rcnt[pe]? = some ((send pe).getD me []).length := by
      simp [vcall, hpe]
    have h2 : (Grid.displs (vcall N z send me).rcnt)[pe]? =
        some (((((List.range N).map fun src => (send src).getD me [])).map List.length).take pe).sum := by
      rw [Grid.displs_get (by simp [vcall]; omega)]
      simp [vcall, Function.comp_def]
    rw [h1, Option.bind_some, h2, Option.bind_some, List.flatMap_def, Grid.slice_part (by simp [hpe])]
    rfl
  · intro src hsrc
    have hsrc := List.mem_range.1 hsrc
    refine ⟨_, send src, [], rfl, by simp [vcall], rfl, rfl, ?_⟩
    rw [hidx]
    have : me < (send src).length := by rw [hs src hsrc]; exact hme
    simp [this]
  · rw [hlen]
    simp only [vcall, List.length_replicate, Grid.displs_last]
    omega

theorem foldlM_isSome {X S : Type} {f : S → X → Option S} : ∀ {l : List X} {s t : S}, l.foldlM f s = some t → ∀ x ∈ l, ∃ s', (f s' x).isSome
  | [], _, _, _, _, hx => by simp at hx
  | y :: l, s, t, h, x, hx => by
    rw [List.foldlM_cons] at h
    cases hf : f s y with
    | none => simp [hf] at h
    | some s1 =>
      rw [hf] at h
      rcases List.mem_cons.1 hx with rfl | hx
      · exact ⟨s, by rw [hf]; rfl⟩
      · exact foldlM_isSome (s := s1) h x hx

theorem foldlM_congr {X S : Type} {f g : S → X → Option S} : ∀ {l : List X} (s : S), (∀ x ∈ l, ∀ s s', f s x = some s' → g s x = some s') →
    ∀ t, l.foldlM f s = some t → l.foldlM g s = some t
  | [], _, _, _, h => h
  | y :: l, s, hfg, t, h => by
    rw [List.foldlM_cons] at h ⊢
    cases hf : f s y with
    | none => simp [hf] at h
    | some s1 =>
      rw [hf] at h
      rw [hfg y (List.mem_cons_self ..) s s1 hf]
      exact foldlM_congr s1 (fun x hx => hfg x (List.mem_cons_of_mem _ hx)) t h

/-- `sparse_alltoallv` can replace `MPI_Alltoallv`. -/
theorem sparseAlltoallv_ok {N : Nat} (hN : 0 < N) (z : α) (call : Nat → Grid.Call α) (out : Nat → List α)
    (h : ∀ me, me < N → Grid.alltoallv? (fun _ => List.range N) (fun pe => some (call pe)) me = some (out me)) {me : Nat} (hme : me < N) :
    sparseAlltoallv? N z call me = some (out me) := by
  have hidx : ∀ {me}, me < N → (List.range N).idxOf me = me := by
    intro me hme
    apply Grid.idx_of_get List.nodup_range
    simp [hme]
  -- the parts of all buffers exist
  have hpart : ∀ src me, src < N → me < N → ∃ n d x, (call src).scnt[me]? = some n ∧ (call src).sdis[me]? = some d ∧
      Grid.slice? (call src).sbuf d n = some x := by
    intro src me hsrc hme
    have := h me hme
    unfold Grid.alltoallv? at this
    simp only [Option.bind_eq_bind, Option.bind_some, List.length_range, hidx hme] at this
    obtain ⟨s', hs⟩ := foldlM_isSome this src (List.mem_range.2 hsrc)
    rw [List.getElem?_range hsrc, Option.bind_some] at hs
    cases h1 : (call src).scnt[me]? with
    | none => simp [h1] at hs
    | some n =>
      cases h2 : (call src).sdis[me]? with
      | none => simp [h1, h2] at hs
      | some d =>
        cases h3 : (call me).rcnt[src]? with
        | none => simp [h1, h2, h3] at hs
        | some rn =>
          cases h4 : (call me).rdis[src]? with
          | none => simp [h1, h2, h3, h4] at hs
          | some rd =>
            cases h5 : Grid.slice? (call src).sbuf d n with
            | none => simp [h1, h2, h3, h4, h5] at hs
            | some x => exact ⟨n, d, x, rfl, rfl, h5⟩
  choose! cn cd cx hx1 hx2 hx3 using hpart
  have hsplit : ∀ src, src < N → splitSend? N (call src).sbuf (call src).scnt (call src).sdis = some ((List.range N).map (cx src)) := by
    intro src hsrc
    apply Grid.mapM_some
    intro pe hpe
    have hpe := List.mem_range.1 hpe
    rw [hx1 src pe hsrc hpe, Option.bind_eq_bind, Option.bind_some, hx2 src pe hsrc hpe, Option.bind_some, hx3 src pe hsrc hpe]
  have hsend : (List.range N).mapM (fun pe => splitSend? N (call pe).sbuf (call pe).scnt (call pe).sdis) =
      some ((List.range N).map fun pe => (List.range N).map (cx pe)) :=
    Grid.mapM_some fun pe hpe => hsplit pe (List.mem_range.1 hpe)
  unfold sparseAlltoallv?
  rw [hsend]
  simp only [Option.bind_eq_bind, Option.bind_some]
  have hget : ∀ src, src < N → ((List.range N).map fun pe => (List.range N).map (cx pe)).getD src [] = (List.range N).map (cx src) := by
    intro src hsrc
    simp [hsrc]
  rw [get_ok hN z _ (fun src hsrc => by rw [hget src hsrc]; simp) hme, Option.bind_some]
  have hr : ((List.range N).map fun src => (((List.range N).map fun pe => (List.range N).map (cx pe)).getD src []).getD me []) =
      (List.range N).map fun src => cx src me := by
    apply List.map_congr_left
    intro src hsrc
    rw [hget src (List.mem_range.1 hsrc)]
    simp [hme]
  rw [hr]
  have := h me hme
  unfold Grid.alltoallv? at this
  simp only [Option.bind_eq_bind, Option.bind_some, List.length_range, hidx hme] at this
  unfold joinRecv?
  refine foldlM_congr _ ?_ _ this
  intro src hsrc s s' hs
  have hsrc := List.mem_range.1 hsrc
  rw [List.getElem?_range hsrc, Option.bind_some, hx1 src me hsrc hme, Option.bind_some, hx2 src me hsrc hme, Option.bind_some] at hs
  cases h3 : (call me).rcnt[src]? with
  | none => simp [h3] at hs
  | some rn =>
    cases h4 : (call me).rdis[src]? with
    | none => simp [h3, h4] at hs
    | some rd =>
      rw [h3, Option.bind_some, h4, Option.bind_some] at hs
      split at hs
      · rw [hx3 src me hsrc hme, Option.bind_some] at hs
        simp [hsrc, hs]
      · simp at hs

end Verif.Net

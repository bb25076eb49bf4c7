import Verif.Dist.Cut
import Verif.Dist.CutSpec
import Verif.Dist.CommProps

/-!
# C66: the metrics of a distributed partition are those of the whole graph
-/

namespace Verif.Dist

variable {dist : List Nat} {inp : Nat → Input} {g : Nat → DGraph} {part : Nat → List Nat} {P : Nat → Nat}

/-! ## Sums -/

theorem sum_nonneg : ∀ {l : List Int}, (∀ x, x ∈ l → 0 ≤ x) → 0 ≤ l.sum
  | [], _ => Int.le_refl _
  | a :: l, h => by
    rw [List.sum_cons]
    have h1 := h a List.mem_cons_self
    have h2 := sum_nonneg fun x hx => h x (List.mem_cons_of_mem _ hx)
    omega

theorem mem_le_sum : ∀ {l : List Int} {x : Int}, (∀ x, x ∈ l → 0 ≤ x) → x ∈ l → x ≤ l.sum
  | a :: l, x, h, hx => by
    rw [List.sum_cons]
    have h1 := h a List.mem_cons_self
    have h2 := sum_nonneg fun x hx => h x (List.mem_cons_of_mem _ hx)
    rcases List.mem_cons.1 hx with rfl | hx
    · omega
    · have := mem_le_sum (fun x hx => h x (List.mem_cons_of_mem _ hx)) hx
      omega

theorem sum_append_int (l l' : List Int) : (l ++ l').sum = l.sum + l'.sum := by
  induction l with
  | nil => simp
  | cons a l ih => rw [List.cons_append, List.sum_cons, List.sum_cons, ih]; omega

theorem sum_flatMap_map {α β : Type} (f : α → List β) (φ : β → Int) : ∀ l : List α,
    ((l.flatMap f).map φ).sum = (l.map fun x => ((f x).map φ).sum).sum
  | [] => rfl
  | a :: l => by
    rw [List.flatMap_cons, List.map_append, sum_append_int, sum_flatMap_map f φ l, List.map_cons, List.sum_cons]

theorem sum_filter_map {α : Type} (c : α → Bool) (φ : α → Int) : ∀ l : List α,
    ((l.filter c).map φ).sum = (l.map fun x => if c x = true then φ x else 0).sum
  | [] => rfl
  | a :: l => by
    rw [List.filter_cons, List.map_cons, List.sum_cons, ← sum_filter_map c φ l]
    by_cases h : c a = true
    · rw [if_pos h, if_pos h, List.map_cons, List.sum_cons]
    · rw [if_neg h, if_neg h, Int.zero_add]

theorem sum_map_add {α : Type} (φ ψ : α → Int) : ∀ l : List α,
    (l.map fun x => φ x + ψ x).sum = (l.map φ).sum + (l.map ψ).sum
  | [] => rfl
  | a :: l => by
    rw [List.map_cons, List.map_cons, List.map_cons, List.sum_cons, List.sum_cons, List.sum_cons, sum_map_add φ ψ l]; omega

theorem sum_map_le {α : Type} {φ ψ : α → Int} : ∀ {l : List α}, (∀ x, x ∈ l → φ x ≤ ψ x) → (l.map φ).sum ≤ (l.map ψ).sum
  | [], _ => Int.le_refl _
  | a :: l, h => by
    rw [List.map_cons, List.map_cons, List.sum_cons, List.sum_cons]
    have h1 := h a List.mem_cons_self
    have h2 := sum_map_le (l := l) fun x hx => h x (List.mem_cons_of_mem _ hx)
    omega

theorem add_fold_ok {B : Int} (hB : 0 ≤ B) : ∀ (l : List Int) (a : Int), (∀ x, x ∈ l → 0 ≤ x) → 0 ≤ a → a + l.sum < B →
    l.foldlM (add? B) a = some (a + l.sum)
  | [], a, _, _, _ => by
    rw [List.sum_nil, Int.add_zero]; rfl
  | x :: l, a, h, ha, hs => by
    rw [List.sum_cons] at hs ⊢
    have h1 := h x List.mem_cons_self
    have h2 := sum_nonneg fun y hy => h y (List.mem_cons_of_mem _ hy)
    rw [List.foldlM_cons]
    show (add? B a x).bind _ = _
    unfold add?
    rw [if_pos ⟨by omega, by omega⟩, Option.bind_some]
    have h3 := add_fold_ok hB l (a + x) (fun y hy => h y (List.mem_cons_of_mem _ hy)) (by omega) (by omega)
    unfold add? at h3
    rw [h3, Int.add_assoc]

theorem add_fold_sound {B : Int} : ∀ (l : List Int) (a r : Int), l.foldlM (add? B) a = some r →
    r = a + l.sum ∧ (a < B → r < B)
  | [], a, r, h => by
    have : a = r := by simpa using h
    subst this
    exact ⟨by simp, id⟩
  | x :: l, a, r, h => by
    rw [List.foldlM_cons] at h
    change (add? B a x).bind _ = _ at h
    unfold add? at h
    by_cases hc : -B ≤ a + x ∧ a + x < B
    · rw [if_pos hc, Option.bind_some] at h
      obtain ⟨h1, h2⟩ := add_fold_sound l (a + x) r h
      rw [List.sum_cons]
      exact ⟨by omega, fun _ => h2 hc.2⟩
    · rw [if_neg hc] at h; cases h

theorem threadSum_fold {B : Int} (hB : 0 ≤ B) {terms? : Nat → Option (List Int)} {terms : Nat → List Int} : ∀ (us : List Nat) (a : Int),
    (∀ u, u ∈ us → terms? u = some (terms u)) → (∀ u, u ∈ us → ∀ x, x ∈ terms u → 0 ≤ x) → 0 ≤ a →
    a + (us.map fun u => (terms u).sum).sum < B →
    us.foldlM (fun s u => (terms? u).bind fun ts => ts.foldlM (add? B) s) a = some (a + (us.map fun u => (terms u).sum).sum)
  | [], a, _, _, _, _ => by
    rw [List.map_nil, List.sum_nil, Int.add_zero]; rfl
  | u :: us, a, h, hn, ha, hs => by
    rw [List.map_cons, List.sum_cons] at hs ⊢
    have h1 := sum_nonneg (hn u List.mem_cons_self)
    have h2 : 0 ≤ (us.map fun u => (terms u).sum).sum := sum_nonneg fun y hy => by
      obtain ⟨v, hv, rfl⟩ := List.mem_map.1 hy
      exact sum_nonneg (hn v (List.mem_cons_of_mem _ hv))
    rw [List.foldlM_cons]
    show Option.bind _ _ = _
    rw [h u List.mem_cons_self, Option.bind_some, add_fold_ok hB (terms u) a (hn u List.mem_cons_self) ha (by omega), Option.bind_some,
      threadSum_fold hB us _ (fun v hv => h v (List.mem_cons_of_mem _ hv)) (fun v hv => hn v (List.mem_cons_of_mem _ hv)) (by omega)
        (by omega)]
    congr 1
    omega

theorem sum_flatten_map (φ : Nat → Int) (parts : List (List Nat)) :
    (parts.flatten.map φ).sum = (parts.map fun us => (us.map φ).sum).sum := by
  have := sum_flatMap_map (fun us : List Nat => us) φ parts
  rw [show parts.flatMap (fun us : List Nat => us) = parts.flatten from by simp [List.flatMap]] at this
  exact this

theorem parallelSum_ok {B : Int} (hB : 0 ≤ B) {terms? : Nat → Option (List Int)} {terms : Nat → List Int} {parts : List (List Nat)} {n : Nat}
    (hp : parts.flatten.Perm (List.range n)) (h : ∀ u, u < n → terms? u = some (terms u))
    (hn : ∀ u, u < n → ∀ x, x ∈ terms u → 0 ≤ x) (hs : ((List.range n).map fun u => (terms u).sum).sum < B) :
    parallelSum? B terms? parts = some (((List.range n).map fun u => (terms u).sum).sum) := by
  have hS : (parts.map fun us => (us.map fun u => (terms u).sum).sum).sum = ((List.range n).map fun u => (terms u).sum).sum := by
    rw [← sum_flatten_map]
    exact (hp.map _).sum_eq
  have hmem : ∀ us, us ∈ parts → ∀ u, u ∈ us → u < n := by
    intro us hus u hu
    exact List.mem_range.1 (hp.mem_iff.1 (List.mem_flatten.2 ⟨us, hus, hu⟩))
  have hpos : ∀ us, us ∈ parts → 0 ≤ (us.map fun u => (terms u).sum).sum := by
    intro us hus
    refine sum_nonneg fun y hy => ?_
    obtain ⟨v, hv, rfl⟩ := List.mem_map.1 hy
    exact sum_nonneg (hn v (hmem us hus v hv))
  have hpos2 : ∀ x, x ∈ (parts.map fun us => (us.map fun u => (terms u).sum).sum) → 0 ≤ x := by
    intro x hx
    obtain ⟨us, hus, rfl⟩ := List.mem_map.1 hx
    exact hpos us hus
  unfold parallelSum?
  have hm : parts.mapM (threadSum? B terms?) = some (parts.map fun us => (us.map fun u => (terms u).sum).sum) := by
    refine mapM_some fun us hus => ?_
    unfold threadSum?
    have hle := mem_le_sum hpos2 (List.mem_map.2 ⟨us, hus, rfl⟩)
    rw [hS] at hle
    rw [threadSum_fold hB us 0 (fun u hu => h u (hmem us hus u hu)) (fun u hu => hn u (hmem us hus u hu)) (Int.le_refl _) (by omega),
      Int.zero_add]
  rw [hm, Option.bind_some, add_fold_ok hB _ 0 hpos2 (Int.le_refl _) (by rw [hS]; omega), hS, Int.zero_add]

theorem mapM_comp {α β γ : Type} {f : α → Option β} {h : α → Option γ} {k : β → γ} : ∀ {l : List α} {r : List β}, l.mapM f = some r →
    (∀ x y, x ∈ l → f x = some y → h x = some (k y)) → l.mapM h = some (r.map k)
  | [], r, hm, _ => by
    have : r = [] := by simpa using hm.symm
    subst this; rfl
  | a :: l, r, hm, hh => by
    rw [List.mapM_cons] at hm
    cases ha : f a with
    | none => rw [ha] at hm; cases hm
    | some b =>
      rw [ha] at hm
      change Option.bind (l.mapM f) _ = _ at hm
      cases hl : l.mapM f with
      | none => rw [hl] at hm; cases hm
      | some r' =>
        rw [hl] at hm
        have hr : r = b :: r' := by
          injection hm with hm
          exact hm.symm
        subst hr
        rw [List.mapM_cons, hh a b List.mem_cons_self ha]
        show Option.bind (l.mapM h) _ = _
        rw [mapM_comp hl fun x y hx => hh x y (List.mem_cons_of_mem _ hx)]
        rfl

/-! ## The cut -/

theorem cutTerms_eq (W : World dist inp g) (hk : Knows dist g part P) {p : Nat} (hp : p < procs dist) {u : Nat} (hu : u < localN dist p) :
    cutTerms? (g p) (part p) u =
      some ((((inp p).neighbours u).filter fun x => decide (P (first dist p + u) ≠ P x.1)).map (·.2)) := by
  obtain ⟨l, hl, hm⟩ := (W.represents p hp).neighbours u hu
  have h1 := hk p hp u _ ((W.represents p hp).own u hu)
  have h2 : l.mapM (fun x => (part p)[x.1]?.map fun b' => (b', x.2)) = some (((inp p).neighbours u).map fun y => (P y.1, y.2)) := by
    refine mapM_comp hm fun x y _ hxy => ?_
    obtain ⟨v, hv, rfl⟩ := Option.map_eq_some_iff.1 hxy
    rw [hk p hp x.1 v hv]
    rfl
  unfold cutTerms?
  rw [h1]
  show Option.bind ((g p).adjacent? u) _ = _
  rw [hl]
  show Option.bind (l.mapM _) _ = _
  rw [h2]
  show some ((((((inp p).neighbours u).map fun y => (P y.1, y.2)).filter _).map (·.2))) = _
  rw [List.filter_map, List.map_map]
  rfl

/-- The directed sum over all edges between blocks. -/
theorem edges_sum (φ : Nat → Nat → Int → Int) :
    ((List.range (procs dist)).map fun p => ((List.range (localN dist p)).map fun u =>
      (((inp p).neighbours u).map fun x => φ (first dist p + u) x.1 x.2).sum).sum).sum =
    ((edges dist inp).map fun e => φ e.1 e.2.1 e.2.2).sum := by
  unfold edges
  rw [sum_flatMap_map]
  congr 1
  apply List.map_congr_left
  intro p _
  rw [sum_flatMap_map]
  congr 1
  apply List.map_congr_left
  intro u _
  rw [List.map_map]
  rfl

theorem mem_edges {p u : Nat} (hp : p < procs dist) (hu : u < localN dist p) {x : Nat × Int} (hx : x ∈ (inp p).neighbours u) :
    (first dist p + u, x.1, x.2) ∈ edges dist inp := by
  unfold edges
  exact List.mem_flatMap.2 ⟨p, List.mem_range.2 hp, List.mem_flatMap.2 ⟨u, List.mem_range.2 hu, List.mem_map.2 ⟨x, hx, rfl⟩⟩⟩

theorem directed_cut (hu : Undirected dist inp) :
    ((edges dist inp).map fun e => if P e.1 ≠ P e.2.1 then e.2.2 else 0).sum = 2 * cut dist inp P := by
  have h1 : (edges dist inp).map (fun e => if P e.1 ≠ P e.2.1 then e.2.2 else 0) =
      (edges dist inp).map (fun e => (if decide (e.1 < e.2.1 ∧ P e.1 ≠ P e.2.1) = true then e.2.2 else 0) +
        (if decide (e.2.1 < e.1 ∧ P e.2.1 ≠ P e.1) = true then e.2.2 else 0)) := by
    apply List.map_congr_left
    rintro ⟨a, b, w⟩ _
    simp only [decide_eq_true_iff]
    by_cases hP : P a = P b
    · rw [if_neg (by simp [hP]), if_neg (by simp [hP]), if_neg (by simp [hP])]; rfl
    · have hne : a ≠ b := fun h => hP (by rw [h])
      rw [if_pos hP]
      rcases Nat.lt_or_gt_of_ne hne with h | h
      · rw [if_pos ⟨h, hP⟩, if_neg (by omega), Int.add_zero]
      · rw [if_neg (by omega), if_pos ⟨h, fun h2 => hP h2.symm⟩, Int.zero_add]
  have h2 : ((edges dist inp).map fun e => if decide (e.2.1 < e.1 ∧ P e.2.1 ≠ P e.1) = true then e.2.2 else 0).sum = cut dist inp P := by
    unfold cut
    rw [sum_filter_map, ← (hu.map _).sum_eq, List.map_map]
    rfl
  rw [h1, sum_map_add, h2]
  unfold cut
  rw [sum_filter_map]
  omega

/-- **C66**, edge cut: if the processes know the blocks of their nodes and ghost nodes, `edge_cut` returns the weight of the edges
between blocks, each counted once, on every split of the work between threads. -/
theorem C66_edge_cut (W : World dist inp g) (hu : Undirected dist inp) (hk : Knows dist g part P) (parts : Nat → List (List Nat))
    (hs : Splits dist parts) (hpos : ∀ e, e ∈ edges dist inp → 0 ≤ e.2.2)
    (hfit : ((edges dist inp).map (·.2.2)).sum < 2 ^ 63) :
    edgeCut? (procs dist) g part parts = some (cut dist inp P) := by
  have hB : (0 : Int) ≤ B64 := by decide
  have hfit : ((edges dist inp).map (·.2.2)).sum < B64 := hfit
  let terms : Nat → Nat → List Int := fun p u =>
    (((inp p).neighbours u).filter fun x => decide (P (first dist p + u) ≠ P x.1)).map (·.2)
  have hterm : ∀ p u, (terms p u).sum = (((inp p).neighbours u).map fun x => if P (first dist p + u) ≠ P x.1 then x.2 else 0).sum := by
    intro p u
    show (((((inp p).neighbours u).filter _).map _)).sum = _
    rw [sum_filter_map]
    congr 1
    apply List.map_congr_left
    intro x _
    simp only [decide_eq_true_iff]
  have htpos : ∀ p, p < procs dist → ∀ u, u < localN dist p → ∀ x, x ∈ terms p u → 0 ≤ x := by
    intro p hp u hu2 x hx
    obtain ⟨y, hy, rfl⟩ := List.mem_map.1 hx
    exact hpos _ (mem_edges hp hu2 (List.mem_filter.1 hy).1)
  let loc : Nat → Int := fun p => ((List.range (localN dist p)).map fun u => (terms p u).sum).sum
  have hloc0 : ∀ p, p < procs dist → 0 ≤ loc p := by
    intro p hp
    refine sum_nonneg fun y hy => ?_
    obtain ⟨u, hu2, rfl⟩ := List.mem_map.1 hy
    exact sum_nonneg (htpos p hp u (List.mem_range.1 hu2))
  have hloc0' : ∀ x, x ∈ (List.range (procs dist)).map loc → 0 ≤ x := by
    intro x hx
    obtain ⟨p, hp, rfl⟩ := List.mem_map.1 hx
    exact hloc0 p (List.mem_range.1 hp)
  have htotal : ((List.range (procs dist)).map loc).sum =
      ((edges dist inp).map fun e => if P e.1 ≠ P e.2.1 then e.2.2 else 0).sum := by
    rw [← edges_sum (dist := dist) (inp := inp) (fun a b w => if P a ≠ P b then w else 0)]
    congr 1
    apply List.map_congr_left
    intro p _
    show ((List.range (localN dist p)).map fun u => (terms p u).sum).sum = _
    congr 1
    apply List.map_congr_left
    intro u _
    exact hterm p u
  have hle : ((List.range (procs dist)).map loc).sum < B64 := by
    rw [htotal]
    refine Int.lt_of_le_of_lt (sum_map_le fun e he => ?_) hfit
    have := hpos e he
    by_cases h : P e.1 ≠ P e.2.1
    · rw [if_pos h]
    · rw [if_neg h]; exact this
  unfold edgeCut?
  have hm : (List.range (procs dist)).mapM (fun p => localEdgeCut? (g p) (part p) (parts p)) = some ((List.range (procs dist)).map loc) := by
    refine mapM_some fun p hp => ?_
    have hp := List.mem_range.1 hp
    have h1 := mem_le_sum hloc0' (List.mem_map.2 ⟨p, List.mem_range.2 hp, rfl⟩)
    exact parallelSum_ok hB (hs p hp) (fun u hu2 => cutTerms_eq W hk hp hu2) (htpos p hp) (by show loc p < B64; omega)
  rw [hm, Option.bind_some, add_fold_ok hB _ 0 hloc0' (Int.le_refl _) (by omega), htotal, directed_cut hu, Int.zero_add, Option.map_some,
    Int.mul_tdiv_cancel_left _ (by decide)]

/-- **C66**, the value that `compute_partition` returns is the cut if it is below 2^31 (default build). -/
theorem C66_returned_cut_partial (W : World dist inp g) (hu : Undirected dist inp) (hk : Knows dist g part P)
    (parts : Nat → List (List Nat)) (hs : Splits dist parts) (hpos : ∀ e, e ∈ edges dist inp → 0 ≤ e.2.2)
    (hfit : ((edges dist inp).map (·.2.2)).sum < 2 ^ 63) (hc : cut dist inp P < 2 ^ 31) :
    returnedCut? (procs dist) g part parts = some (cut dist inp P) := by
  unfold returnedCut?
  rw [C66_edge_cut W hu hk parts hs hpos hfit, Option.map_some, narrow_of_fits]
  refine ⟨?_, hc⟩
  have h : 0 ≤ cut dist inp P := by
    unfold cut
    refine sum_nonneg fun x hx => ?_
    obtain ⟨e, he, rfl⟩ := List.mem_map.1 hx
    exact hpos e (List.mem_filter.1 he).1
  omega

/-- **C66** is false for the returned value from 2^31 on, although its type has 64 bits. -/
theorem C66_returned_cut_truncated (W : World dist inp g) (hu : Undirected dist inp) (hk : Knows dist g part P)
    (parts : Nat → List (List Nat)) (hs : Splits dist parts) (hpos : ∀ e, e ∈ edges dist inp → 0 ≤ e.2.2)
    (hfit : ((edges dist inp).map (·.2.2)).sum < 2 ^ 63) (hc : 2 ^ 31 ≤ cut dist inp P) :
    ∃ c, returnedCut? (procs dist) g part parts = some c ∧ c < cut dist inp P := by
  refine ⟨narrow (cut dist inp P), ?_, ?_⟩
  · unfold returnedCut?
    rw [C66_edge_cut W hu hk parts hs hpos hfit, Option.map_some]
  · unfold narrow
    have := Int.bmod_lt (x := cut dist inp P) (m := 2 ^ 32) (by decide)
    norm_num at this
    rw [show (2 ^ 32 : Nat) = 4294967296 by norm_num]
    omega

/-! ## Block weights -/

theorem tile_sum (hz : first dist 0 = 0) (hsort : ∀ q, q < dist.length - 1 → first dist q ≤ first dist (q + 1)) (F : Nat → Int) : ∀ k,
    k ≤ procs dist → ((List.range k).map fun p => ((List.range (localN dist p)).map fun u => F (first dist p + u)).sum).sum =
      ((List.range (first dist k)).map F).sum
  | 0, _ => by rw [hz]; rfl
  | k + 1, hk => by
    have h1 := hsort k (by unfold procs at hk; omega)
    have h2 : first dist (k + 1) = first dist k + localN dist k := by unfold localN; omega
    rw [List.range_succ, List.map_append, sum_append_int, tile_sum hz hsort F k (by omega), h2, List.range_add, List.map_append,
      sum_append_int, List.map_map, List.map_singleton, List.sum_singleton]
    rfl

theorem World.tile (W : World dist inp g) (F : Nat → Int) :
    ((List.range (procs dist)).map fun p => ((List.range (localN dist p)).map fun u => F (first dist p + u)).sum).sum =
      ((List.range (globalN dist)).map F).sum :=
  tile_sum (W.valid 0 W.some_process).zero (W.valid 0 W.some_process).sorted F _ (Nat.le_refl _)

theorem owned_lt (W : World dist inp g) {p u : Nat} (hp : p < procs dist) (hu : u < localN dist p) : first dist p + u < globalN dist := by
  have V := W.valid p hp
  unfold globalN
  have := V.mono (i := p + 1) (j := procs dist) (by omega) (by unfold procs at hp ⊢; omega)
  unfold localN at hu
  omega

/-- **C66**, block weights: every process computes, for each block, the weight of all nodes in it, whichever process owns them. -/
theorem C66_block_weights (W : World dist inp g) (hk : Knows dist g part P) (k : Nat) (hP : ∀ a, a < globalN dist → P a < k)
    (Wt : Nat → Int) (hW : HasWeights dist inp Wt) (hpos : ∀ a, a < globalN dist → 0 ≤ Wt a)
    (hfit : ((List.range (globalN dist)).map Wt).sum < 2 ^ 63) (parts : Nat → List (List Nat)) (hs : Splits dist parts) :
    blockWeights? (procs dist) g part k parts = some ((List.range k).map (blockWeight dist Wt P)) := by
  have hB : (0 : Int) ≤ B64 := by decide
  have hfit : ((List.range (globalN dist)).map Wt).sum < B64 := hfit
  unfold blockWeights?
  refine mapM_some fun b _ => ?_
  let F : Nat → Int := fun a => if decide (P a = b) = true then Wt a else 0
  have hF : blockWeight dist Wt P b = ((List.range (globalN dist)).map F).sum := by
    unfold blockWeight
    rw [sum_filter_map]
  have hF0 : ∀ a, a < globalN dist → 0 ≤ F a := by
    intro a ha
    show 0 ≤ (if decide (P a = b) = true then Wt a else 0)
    by_cases h : decide (P a = b) = true
    · rw [if_pos h]; exact hpos a ha
    · rw [if_neg h]
  let terms : Nat → Nat → List Int := fun p u => if P (first dist p + u) = b then [Wt (first dist p + u)] else []
  have hterms : ∀ p u, (terms p u).sum = F (first dist p + u) := by
    intro p u
    show (if P (first dist p + u) = b then [Wt (first dist p + u)] else []).sum =
      (if decide (P (first dist p + u) = b) = true then Wt (first dist p + u) else 0)
    by_cases h : P (first dist p + u) = b
    · rw [if_pos h, if_pos (by simpa using h)]; simp
    · rw [if_neg h, if_neg (by simpa using h)]; rfl
  let loc : Nat → Int := fun p => ((List.range (localN dist p)).map fun u => F (first dist p + u)).sum
  have hloc0 : ∀ x, x ∈ (List.range (procs dist)).map loc → 0 ≤ x := by
    intro x hx
    obtain ⟨p, hp, rfl⟩ := List.mem_map.1 hx
    refine sum_nonneg fun y hy => ?_
    obtain ⟨u, hu, rfl⟩ := List.mem_map.1 hy
    exact hF0 _ (owned_lt W (List.mem_range.1 hp) (List.mem_range.1 hu))
  have htot : ((List.range (procs dist)).map loc).sum = blockWeight dist Wt P b := by
    rw [hF]; exact W.tile F
  have hlt : ((List.range (procs dist)).map loc).sum < B64 := by
    rw [htot, hF]
    refine Int.lt_of_le_of_lt (sum_map_le fun a ha => ?_) hfit
    show (if decide (P a = b) = true then Wt a else 0) ≤ Wt a
    by_cases h : decide (P a = b) = true
    · rw [if_pos h]
    · rw [if_neg h]; exact hpos a (List.mem_range.1 ha)
  have hm : (List.range (procs dist)).mapM (fun p => parallelSum? B64 (blockTerms? (g p) (part p) k b) (parts p)) =
      some ((List.range (procs dist)).map loc) := by
    refine mapM_some fun p hp => ?_
    have hp := List.mem_range.1 hp
    have h1 := mem_le_sum hloc0 (List.mem_map.2 ⟨p, List.mem_range.2 hp, rfl⟩)
    have hsum : ((List.range (localN dist p)).map fun u => (terms p u).sum).sum = loc p := by
      show _ = ((List.range (localN dist p)).map fun u => F (first dist p + u)).sum
      congr 1
      apply List.map_congr_left
      intro u _
      exact hterms p u
    rw [← hsum]
    refine parallelSum_ok hB (hs p hp) (terms := terms p) (fun u hu => ?_) (fun u hu x hx => ?_) (by rw [hsum]; omega)
    · unfold blockTerms?
      rw [hk p hp u _ ((W.represents p hp).own u hu)]
      show Option.bind ((g p).nodeWeight? u) _ = _
      rw [(W.represents p hp).node_weight u hu]
      show (if P (first dist p + u) < k then some (if P (first dist p + u) = b then [(inp p).nodeWeight u] else []) else none) = _
      rw [if_pos (hP _ (owned_lt W hp hu)), ← hW p hp u hu]
    · change x ∈ (if P (first dist p + u) = b then [Wt (first dist p + u)] else []) at hx
      by_cases h : P (first dist p + u) = b
      · rw [if_pos h] at hx
        rw [List.mem_singleton.1 hx]
        exact hpos _ (owned_lt W hp hu)
      · rw [if_neg h] at hx
        exact absurd hx List.not_mem_nil
  rw [hm, Option.bind_some, add_fold_ok hB _ 0 hloc0 (Int.le_refl _) (by omega), Int.zero_add, htot]

theorem count_fold (c : Nat → Prop) [DecidablePred c] : ∀ (l : List Nat) (a : Nat),
    l.foldl (fun s b => if c b then s + 1 else s) a = a + (l.filter fun b => decide (c b)).length
  | [], _ => rfl
  | b :: l, a => by
    rw [List.foldl_cons, count_fold c l, List.filter_cons]
    by_cases h : c b
    · rw [if_pos h, if_pos (by simpa using h), List.length_cons]; omega
    · rw [if_neg h, if_neg (by simpa using h)]

theorem num_zero (weights maxWeights : List Int) :
    numImbalancedBlocks weights maxWeights = 0 ↔ ∀ b, b < weights.length → weights.getD b 0 ≤ maxWeights.getD b 0 := by
  unfold numImbalancedBlocks
  rw [count_fold fun b => weights.getD b 0 > maxWeights.getD b 0, Nat.zero_add, List.length_eq_zero_iff, List.filter_eq_nil_iff]
  constructor
  · intro h b hb
    have := h b (List.mem_range.2 hb)
    simp only [decide_eq_true_iff] at this
    omega
  · intro h b hb
    have := h b (List.mem_range.1 hb)
    simp only [decide_eq_true_iff]
    omega

/-- **C66**, feasibility: with these block weights, `is_feasible` says whether no block is heavier than its limit. -/
theorem C66_feasible (k : Nat) (Wt : Nat → Int) (limits : List Int) (hl : limits.length = k) :
    isFeasible ((List.range k).map (blockWeight dist Wt P)) limits = true ↔
      ∀ b L, limits[b]? = some L → blockWeight dist Wt P b ≤ L := by
  unfold isFeasible
  rw [beq_iff_eq, num_zero]
  constructor
  · intro h b L hb
    obtain ⟨hb2, hb3⟩ := List.getElem?_eq_some_iff.1 hb
    have hbk : b < k := by omega
    have := h b (by simpa using hbk)
    simpa [hbk, hb] using this
  · intro h b hb
    have hbk : b < k := by simpa using hb
    have hb2 : b < limits.length := by omega
    have := h b limits[b] (List.getElem?_eq_getElem hb2)
    simpa [hbk, hb2] using this

/-- **C66**, overload: `imbalance_l1` is the sum of what the blocks weigh beyond their limits. -/
theorem C66_overload (weights limits : List Int) :
    imbalanceL1 weights limits = ((List.range weights.length).map fun b => max 0 (weights.getD b 0 - limits.getD b 0)).sum := by
  unfold imbalanceL1
  have key : ∀ (l : List Nat) (a : Int), l.foldl (fun d b => if weights.getD b 0 > limits.getD b 0 then
      d + max 0 (weights.getD b 0 - limits.getD b 0) else d) a =
      a + (l.map fun b => max 0 (weights.getD b 0 - limits.getD b 0)).sum := by
    intro l
    induction l with
    | nil => intro a; simp
    | cons b l ih =>
      intro a
      rw [List.foldl_cons, ih, List.map_cons, List.sum_cons]
      by_cases h : weights.getD b 0 > limits.getD b 0
      · rw [if_pos h]; omega
      · rw [if_neg h]
        have : max 0 (weights.getD b 0 - limits.getD b 0) = 0 := by omega
        omega
  rw [key, Int.zero_add]

/-! ## Total weights -/

/-- **C66**, total weight: if the weight of the nodes of each process is below 2^31 (default build), the processes compute the
weight of all nodes. -/
theorem C66_total_weight_partial (W : World dist inp g) (Wt : Nat → Int) (hW : HasWeights dist inp Wt)
    (hpos : ∀ a, a < globalN dist → 0 ≤ Wt a) (hfit : ((List.range (globalN dist)).map Wt).sum < 2 ^ 63)
    (hloc : ∀ p, p < procs dist → ((List.range (localN dist p)).map fun u => Wt (first dist p + u)).sum < 2 ^ 31)
    (parts : Nat → List (List Nat)) (hs : Splits dist parts) :
    globalTotalWeight? (procs dist) g parts = some (((List.range (globalN dist)).map Wt).sum) := by
  have hB : (0 : Int) ≤ B64 := by decide
  have hB32 : (0 : Int) ≤ B32 := by decide
  have hfit : ((List.range (globalN dist)).map Wt).sum < B64 := hfit
  let loc : Nat → Int := fun p => ((List.range (localN dist p)).map fun u => Wt (first dist p + u)).sum
  have hloc0 : ∀ x, x ∈ (List.range (procs dist)).map loc → 0 ≤ x := by
    intro x hx
    obtain ⟨p, hp, rfl⟩ := List.mem_map.1 hx
    refine sum_nonneg fun y hy => ?_
    obtain ⟨u, hu, rfl⟩ := List.mem_map.1 hy
    exact hpos _ (owned_lt W (List.mem_range.1 hp) (List.mem_range.1 hu))
  have htot : ((List.range (procs dist)).map loc).sum = ((List.range (globalN dist)).map Wt).sum := W.tile Wt
  have hm : (List.range (procs dist)).mapM (fun p => localTotalWeight? (g p) (parts p)) = some ((List.range (procs dist)).map loc) := by
    refine mapM_some fun p hp => ?_
    have hp := List.mem_range.1 hp
    have hlp : loc p < 2 ^ 31 := hloc p hp
    unfold localTotalWeight?
    by_cases hnil : (g p).nodeWeights = []
    · rw [if_pos hnil]
      have hone : ∀ u, u < localN dist p → Wt (first dist p + u) = 1 := by
        intro u hu
        have h1 := (W.represents p hp).node_weight u hu
        unfold DGraph.nodeWeight? at h1
        rw [if_pos hnil] at h1
        injection h1 with h1
        rw [hW p hp u hu, ← h1]
      have hl : loc p = (localN dist p : Int) := by
        show ((List.range (localN dist p)).map fun u => Wt (first dist p + u)).sum = _
        rw [List.map_congr_left (g := fun _ => (1 : Int)) fun u hu => hone u (List.mem_range.1 hu)]
        simp
      rw [(W.represents p hp).n_eq, hl, narrow_of_fits]
      omega
    · rw [if_neg hnil]
      have hterm : ∀ u, u < localN dist p → (g p).nodeWeights[u]?.map (fun w => [w]) = some [Wt (first dist p + u)] := by
        intro u hu
        have h1 := (W.represents p hp).node_weight u hu
        unfold DGraph.nodeWeight? at h1
        rw [if_neg hnil] at h1
        rw [h1, hW p hp u hu]; rfl
      have hsum : ((List.range (localN dist p)).map fun u => ([Wt (first dist p + u)] : List Int).sum).sum = loc p := by
        show _ = ((List.range (localN dist p)).map fun u => Wt (first dist p + u)).sum
        congr 1
        apply List.map_congr_left
        intro u _
        simp
      rw [← hsum]
      refine parallelSum_ok hB32 (hs p hp) (terms := fun u => [Wt (first dist p + u)]) hterm (fun u hu x hx => ?_) (by
        rw [hsum]; exact hlp)
      rw [List.mem_singleton.1 hx]
      exact hpos _ (owned_lt W hp hu)
  unfold globalTotalWeight?
  rw [hm, Option.bind_some, add_fold_ok hB _ 0 hloc0 (Int.le_refl _) (by omega), Int.zero_add, htot]

theorem threadSum_sound {B : Int} {terms? : Nat → Option (List Int)} {terms : Nat → List Int} : ∀ (us : List Nat) (a r : Int),
    (∀ u, u ∈ us → terms? u = some (terms u)) →
    us.foldlM (fun s u => (terms? u).bind fun ts => ts.foldlM (add? B) s) a = some r → r = a + (us.map fun u => (terms u).sum).sum
  | [], a, r, _, h => by
    have : a = r := by simpa using h
    simp [this]
  | u :: us, a, r, hu, h => by
    rw [List.foldlM_cons] at h
    change Option.bind _ _ = _ at h
    rw [hu u List.mem_cons_self, Option.bind_some] at h
    cases hf : (terms u).foldlM (add? B) a with
    | none => rw [hf] at h; cases h
    | some s =>
      rw [hf, Option.bind_some] at h
      have h1 := (add_fold_sound _ _ _ hf).1
      have h2 := threadSum_sound us s r (fun v hv => hu v (List.mem_cons_of_mem _ hv)) h
      rw [List.map_cons, List.sum_cons]
      omega

/-- **C66** is false for the total weight beyond that, although the interface has 64-bit weights: if a process has nodes of weight at
least 2^31, the sum overflows on every split of the work. -/
theorem C66_total_weight_overflow (W : World dist inp g) (p : Nat) (hp : p < procs dist) (hne : (inp p).vwgt ≠ [])
    (hsum : 2 ^ 31 ≤ ((List.range (localN dist p)).map fun u => (inp p).nodeWeight u).sum)
    (parts : List (List Nat)) (hs : parts.flatten.Perm (List.range (localN dist p))) :
    localTotalWeight? (g p) parts = none := by
  have R := W.represents p hp
  have hroom := R.room
  rw [if_neg hne] at hroom
  have hpos : 0 < localN dist p := by
    rcases Nat.eq_zero_or_pos (localN dist p) with h | h
    · rw [h] at hsum; simp at hsum
    · exact h
  have hnil : (g p).nodeWeights ≠ [] := by
    intro h
    rw [h, R.total] at hroom
    simp at hroom
    omega
  have hterm : ∀ u, u < localN dist p → (g p).nodeWeights[u]?.map (fun w => [w]) = some [(inp p).nodeWeight u] := by
    intro u hu
    have h1 := R.node_weight u hu
    unfold DGraph.nodeWeight? at h1
    rw [if_neg hnil] at h1
    rw [h1]; rfl
  unfold localTotalWeight?
  rw [if_neg hnil]
  cases hr : parallelSum? B32 (fun u => (g p).nodeWeights[u]?.map fun w => [w]) parts with
  | none => rfl
  | some r =>
    exfalso
    unfold parallelSum? at hr
    cases hm : parts.mapM (threadSum? B32 fun u => (g p).nodeWeights[u]?.map fun w => [w]) with
    | none => rw [hm] at hr; cases hr
    | some sums =>
      rw [hm, Option.bind_some] at hr
      obtain ⟨h1, h2⟩ := add_fold_sound _ _ _ hr
      have h2 := h2 (by decide)
      have hsums : ∀ (q : List (List Nat)) (s : List Int), (∀ us, us ∈ q → ∀ u, u ∈ us → u < localN dist p) →
          q.mapM (threadSum? B32 fun u => (g p).nodeWeights[u]?.map fun w => [w]) = some s →
          s.sum = (q.flatten.map fun u => (inp p).nodeWeight u).sum := by
        intro q
        induction q with
        | nil =>
          intro s _ h
          have : s = [] := by simpa using h.symm
          subst this; rfl
        | cons us q ih =>
          intro s hq h
          rw [List.mapM_cons] at h
          change Option.bind _ _ = _ at h
          cases ht : threadSum? B32 (fun u => (g p).nodeWeights[u]?.map fun w => [w]) us with
          | none => rw [ht] at h; cases h
          | some t =>
            rw [ht, Option.bind_some] at h
            change Option.bind _ _ = _ at h
            cases hq2 : q.mapM (threadSum? B32 fun u => (g p).nodeWeights[u]?.map fun w => [w]) with
            | none => rw [hq2] at h; cases h
            | some s' =>
              rw [hq2] at h
              have hs' : s = t :: s' := by
                injection h with h
                exact h.symm
              subst hs'
              have e1 := ih s' (fun us hus => hq us (List.mem_cons_of_mem _ hus)) hq2
              have e2 := threadSum_sound (terms := fun u => [(inp p).nodeWeight u]) us 0 t
                (fun u hu => hterm u (hq us List.mem_cons_self u hu)) ht
              rw [List.sum_cons, List.flatten_cons, List.map_append, sum_append_int, ← e1, e2]
              simp
      have e := hsums parts sums (fun us hus u hu =>
        List.mem_range.1 (hs.mem_iff.1 (List.mem_flatten.2 ⟨us, hus, hu⟩))) hm
      rw [(hs.map _).sum_eq] at e
      have hB : B32 = 2 ^ 31 := by decide
      omega

/-! ## Examples -/

/-- The example of C64 is undirected. -/
theorem undirected3 : Undirected dist3 inp3 := by
  unfold Undirected
  decide

/-- The partition of its five nodes into the blocks {0, 1} and {2, 3, 4}, and what the processes know of it. -/
def P3 : Nat → Nat := fun a => if a < 2 then 0 else 1
def part3 : Nat → List Nat := fun p => match p with | 0 => [0, 0, 1, 1, 1] | 1 => [] | _ => [1, 1, 1, 0]

example : edgeCut? 3 g3 part3 (fun p => if p = 0 then [[2], [0, 1]] else if p = 1 then [] else [[1, 0]]) = some 12 := by decide +kernel
example : cut dist3 inp3 P3 = 12 := by decide +kernel
example : blockWeights? 3 g3 part3 2 (fun p => if p = 0 then [[2], [0, 1]] else if p = 1 then [] else [[1, 0]]) = some [11, 24] := by
  decide +kernel
example : isFeasible [11, 24] [20, 24] = true ∧ isFeasible [11, 24] [24, 20] = false ∧ imbalanceL1 [11, 24] [24, 20] = 4 := by
  decide +kernel
example : globalTotalWeight? 3 g3 (fun p => if p = 0 then [[2], [0, 1]] else if p = 1 then [] else [[1, 0]]) = some 35 := by
  decide +kernel

theorem splits3 : Splits dist3 fun p => if p = 0 then [[2], [0, 1]] else if p = 1 then [] else [[1, 0]]
  | 0, _ => by decide
  | 1, _ => by decide
  | 2, _ => by decide

/-- In every world with this input, some arrays know the partition. -/
example {g : Nat → DGraph} : ∃ part, Knows dist3 g part P3 :=
  ⟨fun p => (List.range (g p).totalN).map fun l => P3 (((g p).localToGlobal? l).getD 0), fun p _ l v h => by
    have := lt_total h
    simp [this, h]⟩

/-- Two processes with one node each and two edges of weight 2^31 - 1 between them: the cut is returned as a smaller number. -/
def inpBig : Nat → Input := fun p =>
  ⟨[0, 2], if p = 0 then [1, 1] else [0, 0], [], [2147483647, 2147483647]⟩

example : cut [0, 1, 2] inpBig (fun a => a) = 4294967294 ∧ Undirected [0, 1, 2] inpBig ∧ narrow 4294967294 = -2 := by
  unfold Undirected
  decide +kernel

/-- Two nodes of weight 2^31 - 1 on one process. -/
example : localTotalWeight? ⟨0, [0, 2], [0, 0, 0], [], [2147483647, 2147483647, 0, 0], [], [], [], []⟩ [[0], [1]] = none := by decide +kernel

end Verif.Dist

import Verif.Dist.ColoredLPRefine
import Verif.Dist.ColoringProps

/-!
# The order of the nodes by colours
-/

namespace Verif.Dist
open Verif

variable {n C : Nat} {col : Nat → Nat}

/-- The number of nodes with a smaller colour. -/
def below (n : Nat) (col : Nat → Nat) (c : Nat) : Nat := ((List.range n).filter fun u => decide (col u < c)).length

/-- The number of nodes of the list with this colour. -/
def cnt (col : Nat → Nat) (D : List Nat) (c : Nat) : Nat := (D.filter fun u => decide (col u = c)).length

theorem colorSums_below (c : Nat) : colorSums n col c = below n col (c + 1) := by
  unfold colorSums below
  congr 1
  apply List.filter_congr
  intro u _
  exact decide_eq_decide.2 (by omega)

theorem filter_split (c : Nat) : ∀ D : List Nat, (D.filter fun u => decide (col u < c + 1)).length =
    (D.filter fun u => decide (col u < c)).length + cnt col D c
  | [] => rfl
  | u :: D => by
    have ih := filter_split c D
    unfold cnt at ih ⊢
    simp only [List.filter_cons, decide_eq_true_eq]
    by_cases h1 : col u < c
    · rw [if_pos h1, if_pos (show col u < c + 1 by omega), if_neg (show ¬ col u = c by omega)]
      simp only [List.length_cons]; omega
    · by_cases h2 : col u = c
      · rw [if_neg h1, if_pos (show col u < c + 1 by omega), if_pos h2]
        simp only [List.length_cons]; omega
      · rw [if_neg h1, if_neg (show ¬ col u < c + 1 by omega), if_neg h2]
        exact ih

theorem below_succ (c : Nat) : below n col (c + 1) = below n col c + cnt col (List.range n) c := filter_split c _

theorem below_mono {c d : Nat} (h : c ≤ d) : below n col c ≤ below n col d := by
  induction h with
  | refl => exact Nat.le_refl _
  | step _ ih => rw [below_succ]; omega

theorem below_le (c : Nat) : below n col c ≤ n := by
  have := List.length_filter_le (fun u => decide (col u < c)) (List.range n)
  rw [List.length_range] at this
  exact this

theorem below_all (h : ∀ u, u < n → col u < C) : below n col C = n := by
  unfold below
  rw [List.filter_eq_self.2 fun u hu => decide_eq_true (h u (List.mem_range.1 hu)), List.length_range]

theorem below_zero : below n col 0 = 0 := by
  unfold below
  rw [List.length_eq_zero_iff, List.filter_eq_nil_iff]
  intro u _
  simp

theorem in_class (m : Nat) : ∀ {i : Nat}, i < below n col m → ∃ c, c < m ∧ below n col c ≤ i ∧ i < below n col (c + 1) := by
  induction m with
  | zero => intro i h; rw [below_zero] at h; omega
  | succ m ih =>
    intro i h
    by_cases h' : i < below n col m
    · obtain ⟨c, h1, h2⟩ := ih h'
      exact ⟨c, by omega, h2⟩
    · exact ⟨m, by omega, by omega, h⟩

theorem class_unique {i c d : Nat} (h1 : below n col c ≤ i) (h2 : i < below n col (c + 1)) (h3 : below n col d ≤ i)
    (h4 : i < below n col (d + 1)) : c = d := by
  rcases Nat.lt_trichotomy c d with h | h | h
  · have := below_mono (n := n) (col := col) (show c + 1 ≤ d from h); omega
  · exact h
  · have := below_mono (n := n) (col := col) (show d + 1 ≤ c from h); omega

/-- The nodes `D` have been placed. -/
structure SortedSoFar (n C : Nat) (col : Nat → Nat) (D : List Nat) (s : (Nat → Nat) × (Nat → Nat)) : Prop where
  size : ∀ c, s.1 c + cnt col D c = below n col (c + 1)
  mem : ∀ c, c < C → ∀ i, s.1 c ≤ i → i < below n col (c + 1) → s.2 i ∈ D ∧ col (s.2 i) = c
  inj : ∀ c d i j, c < C → d < C → s.1 c ≤ i → i < below n col (c + 1) → s.1 d ≤ j → j < below n col (d + 1) → s.2 i = s.2 j → i = j

theorem cnt_perm {D E : List Nat} (h : D.Perm E) (c : Nat) : cnt col D c = cnt col E c := (h.filter _).length_eq

theorem cnt_append (D E : List Nat) (c : Nat) : cnt col (D ++ E) c = cnt col D c + cnt col E c := by
  unfold cnt; rw [List.filter_append, List.length_append]

theorem cnt_cons (u : Nat) (D : List Nat) (c : Nat) : cnt col (u :: D) c = (if col u = c then 1 else 0) + cnt col D c := by
  unfold cnt
  simp only [List.filter_cons, decide_eq_true_eq]
  split
  · simp only [List.length_cons]; omega
  · omega

theorem place_node {D R : List Nat} {u : Nat} (hp : (D ++ u :: R).Perm (List.range n)) (hcol : ∀ u, u < n → col u < C)
    {s : (Nat → Nat) × (Nat → Nat)} (I : SortedSoFar n C col D s) :
    ∃ s', placeNode? n C col s u = some s' ∧ SortedSoFar n C col (D ++ [u]) s' := by
  have hu : u < n := List.mem_range.1 (hp.subset (List.mem_append_right _ List.mem_cons_self))
  have hnd : (D ++ u :: R).Nodup := hp.nodup_iff.2 List.nodup_range
  have huD : u ∉ D := fun h => (List.disjoint_of_nodup_append hnd) h List.mem_cons_self
  have htot : ∀ c, cnt col D c + ((if col u = c then 1 else 0) + cnt col R c) = cnt col (List.range n) c := by
    intro c
    rw [← cnt_perm hp c, cnt_append, cnt_cons]
  have hlow : ∀ c, below n col c + (if col u = c then 1 else 0) ≤ s.1 c := by
    intro c
    have h1 := I.size c
    have h2 := htot c
    rw [below_succ] at h1
    omega
  have h0 := hlow (col u)
  rw [if_pos rfl] at h0
  have hsz := I.size (col u)
  have hbn := below_le (n := n) (col := col) (col u + 1)
  have hpos : s.1 (col u) - 1 < n := by omega
  refine ⟨_, if_pos ⟨hcol u hu, by omega, hpos⟩, ?_⟩
  have key : ∀ c i, (upd s.1 (col u) (s.1 (col u) - 1)) c ≤ i → i < below n col (c + 1) →
      (i = s.1 (col u) - 1 ∧ c = col u) ∨ (i ≠ s.1 (col u) - 1 ∧ s.1 c ≤ i) := by
    intro c i h1 h2
    by_cases hc : c = col u
    · subst hc
      rw [upd_same] at h1
      by_cases hi : i = s.1 (col u) - 1
      · exact Or.inl ⟨hi, rfl⟩
      · exact Or.inr ⟨hi, by omega⟩
    · rw [upd_ne _ _ hc] at h1
      refine Or.inr ⟨fun e => hc ?_, h1⟩
      have h3 := hlow c
      refine class_unique (n := n) (col := col) (i := i) (by omega) h2 (by omega) (by omega)
  refine ⟨fun c => ?_, fun c hc i h1 h2 => ?_, fun c d i j hc hd h1 h2 h3 h4 he => ?_⟩
  · dsimp only
    rw [cnt_append, cnt_cons]
    have h1 := I.size c
    have h2 : cnt col [] c = 0 := rfl
    by_cases hc : c = col u
    · subst hc; rw [upd_same, if_pos rfl]; omega
    · rw [upd_ne _ _ hc, if_neg fun h => hc h.symm]; omega
  · dsimp only at h1 ⊢
    rcases key c i h1 h2 with ⟨h5, h6⟩ | ⟨h5, h6⟩
    · rw [h5, upd_same, h6]
      exact ⟨List.mem_append_right _ List.mem_cons_self, rfl⟩
    · rw [upd_ne _ _ h5]
      obtain ⟨h7, h8⟩ := I.mem c hc i h6 h2
      exact ⟨List.mem_append_left _ h7, h8⟩
  · dsimp only at h1 h3 he
    rcases key c i h1 h2 with ⟨h5, h6⟩ | ⟨h5, h6⟩ <;> rcases key d j h3 h4 with ⟨h7, h8⟩ | ⟨h7, h8⟩
    · omega
    · rw [h5, upd_same, upd_ne _ _ h7] at he
      exact absurd (he ▸ (I.mem d hd j h8 h4).1) huD
    · rw [h7, upd_same, upd_ne _ _ h5] at he
      exact absurd (he ▸ (I.mem c hc i h6 h2).1) huD
    · rw [upd_ne _ _ h5, upd_ne _ _ h7] at he
      exact I.inj c d i j hc hd h6 h2 h8 h4 he

theorem place_fold (hcol : ∀ u, u < n → col u < C) : ∀ (R D : List Nat) (s : (Nat → Nat) × (Nat → Nat)),
    (D ++ R).Perm (List.range n) → SortedSoFar n C col D s → ∃ s', R.foldlM (placeNode? n C col) s = some s' ∧ SortedSoFar n C col (D ++ R) s'
  | [], D, s, _, I => ⟨s, rfl, by rw [List.append_nil]; exact I⟩
  | u :: R, D, s, hp, I => by
    obtain ⟨s1, h1, h2⟩ := place_node hp hcol I
    have e : D ++ u :: R = (D ++ [u]) ++ R := by rw [List.append_assoc]; rfl
    obtain ⟨s', h3, h4⟩ := place_fold hcol R (D ++ [u]) s1 (by rw [← e]; exact hp) h2
    rw [List.foldlM_cons, h1, e]
    exact ⟨s', h3, h4⟩

/-- The nodes are sorted by colours. -/
theorem sort_by_color (hcol : ∀ u, u < n → col u < C) {order : List Nat} (ho : order.Perm (List.range n)) :
    ∃ s, sortByColor? n C col order = some s ∧ (∀ c, c ≤ C → s.1 c = below n col c) ∧
      (∀ i, i < n → s.2 i < n) ∧ (∀ i j, i < n → j < n → s.2 i = s.2 j → i = j) ∧
      ∀ c i, c < C → below n col c ≤ i → i < below n col (c + 1) → col (s.2 i) = c := by
  obtain ⟨s, h1, h2⟩ := place_fold (C := C) hcol order [] (colorSums n col, fun _ => 0) (by rw [List.nil_append]; exact ho)
    ⟨fun c => by rw [← colorSums_below]; rfl, fun c _ i h1 h2 => by dsimp only at h1; rw [← colorSums_below] at h2; omega,
      fun c d i j _ _ h1 h2 => by dsimp only at h1; rw [← colorSums_below] at h2; omega⟩
  rw [List.nil_append] at h2
  have hs : ∀ c, s.1 c = below n col c := by
    intro c
    have h3 := h2.size c
    rw [below_succ, cnt_perm ho c] at h3
    omega
  have hin : ∀ i, i < n → ∃ c, c < C ∧ s.1 c ≤ i ∧ i < below n col (c + 1) := by
    intro i hi
    obtain ⟨c, h3, h4, h5⟩ := in_class (n := n) (col := col) C (i := i) (by rw [below_all hcol]; exact hi)
    exact ⟨c, h3, by rw [hs]; exact h4, h5⟩
  refine ⟨s, h1, fun c _ => hs c, fun i hi => ?_, fun i j hi hj he => ?_, fun c i hc h3 h4 => ?_⟩
  · obtain ⟨c, h3, h4, h5⟩ := hin i hi
    exact List.mem_range.1 (ho.subset (h2.mem c h3 i h4 h5).1)
  · obtain ⟨c, h3, h4, h5⟩ := hin i hi
    obtain ⟨d, h6, h7, h8⟩ := hin j hj
    exact h2.inj c d i j h3 h6 h4 h5 h7 h8 he
  · exact (h2.mem c hc i (by rw [hs]; exact h3) h4).2

theorem le_foldl_max' : ∀ (l : List Nat) (a : Nat), a ≤ l.foldl max a ∧ ∀ x, x ∈ l → x ≤ l.foldl max a
  | [], a => ⟨Nat.le_refl _, fun _ h => absurd h List.not_mem_nil⟩
  | y :: l, a => by
    obtain ⟨h1, h2⟩ := le_foldl_max' l (max a y)
    rw [List.foldl_cons]
    refine ⟨by omega, fun x hx => ?_⟩
    rcases List.mem_cons.1 hx with rfl | hx
    · omega
    · exact h2 x hx

variable {dist : List Nat} {inp : Nat → Input} {g : Nat → DGraph}

/-- `initialize` sorts the nodes of each process by colours. -/
theorem World.color_order_sorts (W : World dist inp g) {color : Nat → Nat} (hproper : ∀ a b, IsEdge dist inp a b → color a ≠ color b)
    (hne : ∀ p, p < procs dist → 0 < localN dist p) {arr : Nat → Nat → Nat}
    (harr : ∀ p l v, p < procs dist → (g p).localToGlobal? l = some v → arr p l = color v) {order : Nat → List Nat}
    (ho : ∀ p, p < procs dist → (order p).Perm (List.range (localN dist p))) :
    ∃ ord, colorOrder? (procs dist) g arr order = some ord ∧ ord.Ok dist inp ∧
      (∀ p, p < procs dist → ∀ c, c < ord.colors → ∀ i, ord.start p c ≤ i → i < ord.start p (c + 1) → color (first dist p + ord.node p i) = c) ∧
      ∀ p, p < procs dist → ∀ i, i < localN dist p → ∃ c, c < ord.colors ∧ ord.start p c ≤ i ∧ i < ord.start p (c + 1) ∧
        color (first dist p + ord.node p i) = c := by
  let mx : Nat → Nat := fun p => ((List.range (g p).totalN).map (arr p)).foldl max 0 + 1
  have hl : ((List.range (procs dist)).mapM fun p => localColors? (g p).totalN (arr p)) = some ((List.range (procs dist)).map mx) := by
    refine Verif.Grid.mapM_some fun p hp => ?_
    have hp := List.mem_range.1 hp
    refine if_neg ?_
    have := (W.represents p hp).total
    have := hne p hp
    omega
  generalize hC : ((List.range (procs dist)).map mx).foldl max 0 = C at *
  have hcol : ∀ p, p < procs dist → ∀ u, u < localN dist p → arr p u < C := by
    intro p hp u hu
    have h1 := (le_foldl_max' ((List.range (procs dist)).map mx) 0).2 (mx p) (List.mem_map.2 ⟨p, List.mem_range.2 hp, rfl⟩)
    have h2 := (le_foldl_max' ((List.range (g p).totalN).map (arr p)) 0).2 (arr p u)
      (List.mem_map.2 ⟨u, List.mem_range.2 (by have := (W.represents p hp).total; omega), rfl⟩)
    rw [hC] at h1
    show _ < _
    have : mx p = ((List.range (g p).totalN).map (arr p)).foldl max 0 + 1 := rfl
    omega
  obtain ⟨r, h1, h2⟩ := forAll_ok (fun _ => 0, fun _ => 0) (N := procs dist) (f := fun p => sortByColor? (g p).n C (arr p) (order p))
    (Q := fun p s => (∀ c, c ≤ C → s.1 c = below (localN dist p) (arr p) c) ∧
      (∀ i, i < localN dist p → s.2 i < localN dist p) ∧ (∀ i j, i < localN dist p → j < localN dist p → s.2 i = s.2 j → i = j) ∧
      ∀ c i, c < C → below (localN dist p) (arr p) c ≤ i → i < below (localN dist p) (arr p) (c + 1) → arr p (s.2 i) = c) (by
      intro p hp
      rw [(W.represents p hp).n_eq]
      exact sort_by_color (hcol p hp) (ho p hp))
  have hcolor : ∀ p, p < procs dist → ∀ c i, c < C → (r p).1 c ≤ i → i < (r p).1 (c + 1) → color (first dist p + (r p).2 i) = c := by
    intro p hp c i hc h3 h4
    obtain ⟨a1, a2, a3, a4⟩ := h2 p hp
    rw [a1 c (by omega)] at h3
    rw [a1 (c + 1) hc] at h4
    have hi := below_le (n := localN dist p) (col := arr p) (c + 1)
    rw [← harr p _ _ hp ((W.represents p hp).own _ (a2 i (by omega)))]
    exact a4 c i hc h3 h4
  refine ⟨⟨C, fun p => (r p).1, fun p => (r p).2⟩, ?_, ⟨fun p hp c hc => ?_, fun p hp i hi => (h2 p hp).2.1 i hi,
    fun p hp i j => (h2 p hp).2.2.1 i j, fun c hc p q hp hq i j h3 h4 h5 h6 w hw => ?_⟩, fun p hp c hc i h3 h4 => hcolor p hp c i hc h3 h4,
    fun p hp i hi => ?_⟩
  · unfold colorOrder?
    rw [hl, Option.bind_some, hC, h1]
    rfl
  · dsimp only at hc ⊢
    rw [(h2 p hp).1 (c + 1) hc]
    exact below_le _
  · refine hproper _ _ ((isEdge_edges W.valid).2 ⟨w, hw⟩) ?_
    rw [hcolor p hp c i hc h3 h4, hcolor q hq c j hc h5 h6]
  · obtain ⟨c, h3, h4, h5⟩ := in_class (n := localN dist p) (col := arr p) C (i := i) (by rw [below_all (hcol p hp)]; exact hi)
    have h6 : (r p).1 c ≤ i := by rw [(h2 p hp).1 c (by omega)]; exact h4
    have h7 : i < (r p).1 (c + 1) := by rw [(h2 p hp).1 (c + 1) h3]; exact h5
    exact ⟨c, h3, h6, h7, hcolor p hp c i h3 h6 h7⟩

theorem World.color_order (W : World dist inp g) {color : Nat → Nat} (hproper : ∀ a b, IsEdge dist inp a b → color a ≠ color b)
    (hne : ∀ p, p < procs dist → 0 < localN dist p) {arr : Nat → Nat → Nat}
    (harr : ∀ p l v, p < procs dist → (g p).localToGlobal? l = some v → arr p l = color v) {order : Nat → List Nat}
    (ho : ∀ p, p < procs dist → (order p).Perm (List.range (localN dist p))) :
    ∃ ord, colorOrder? (procs dist) g arr order = some ord ∧ ord.Ok dist inp ∧
      ∀ p, p < procs dist → ∀ i, i < localN dist p → ∃ c, c < ord.colors ∧ ord.start p c ≤ i ∧ i < ord.start p (c + 1) ∧
        color (first dist p + ord.node p i) = c := by
  obtain ⟨ord, h1, h2, _, h3⟩ := W.color_order_sorts hproper hne harr ho
  exact ⟨ord, h1, h2, h3⟩

end Verif.Dist

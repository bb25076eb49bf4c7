import Verif.Reorder.Apply
import Mathlib.Data.List.GetD

/-! # A whole neighbourhood, and all neighbourhoods -/

namespace Verif.Reorder
open Verif.Compression

/-- What `std::sort` guarantees: a permutation of the indices in an order of non-decreasing keys. -/
def SortIdx (sortIdx : (Nat → Nat) → Nat → List Nat) : Prop :=
  ∀ key d, (sortIdx key d).Perm (List.range d) ∧ (sortIdx key d).Pairwise fun i j => key i ≤ key j

/-- Ordered by target. -/
def ByTarget (nb : List Nbr) : Prop := nb.Pairwise fun x y => x.1 ≤ y.1

theorem sl_shift {α : Type} (p : Nat → α) (b d : Nat) : sl p b d = (List.range d).map fun j => p (b + j) := by
  unfold sl
  rw [List.range'_eq_map_range, List.map_map]
  rfl

theorem isPerm_of {l : List Nat} {d : Nat} (h : l.Perm (List.range d)) : IsPerm d fun i => l.getD i 0 := by
  have hl : l.length = d := by simpa using h.length_eq
  refine ⟨fun i hi => ?_, fun i j hi hj e => ?_⟩
  · rw [List.getD_eq_getElem _ _ (by omega)]
    exact List.mem_range.1 (h.subset (List.getElem_mem _))
  · rw [List.getD_eq_getElem _ _ (by omega), List.getD_eq_getElem _ _ (by omega)] at e
    exact (List.Nodup.getElem_inj_iff (h.nodup_iff.2 List.nodup_range)).1 e

theorem map_getD {α : Type} (l : List Nat) (f : Nat → α) {d : Nat} (h : l.length = d) :
    ((List.range d).map fun j => f (l.getD j 0)) = l.map f := by
  subst h
  apply List.ext_getElem?
  intro i
  by_cases hi : i < l.length
  · simp [hi]
  · simp [Nat.le_of_not_lt hi]

theorem sl_write {α : Type} (a : Nat → α) (b : Nat) (l : List α) : sl (write a b l) b l.length = l := by
  rw [sl_shift]
  apply List.ext_getElem?
  intro i
  by_cases hi : i < l.length
  · simp [hi, write]
  · simp [Nat.le_of_not_lt hi]

theorem write_out {α : Type} (a : Nat → α) (b : Nat) (l : List α) (p : Nat) (h : p < b ∨ b + l.length ≤ p) : write a b l p = a p := by
  unfold write
  rcases h with h | h
  · rw [if_neg (by omega)]
  · rw [if_pos (by omega), List.getElem?_eq_none (by omega)]
    rfl

/-- The first step of `sort_by_compression`. -/
theorem sort_first {sortIdx : (Nat → Nat) → Nat → List Nat} (hs : SortIdx sortIdx) (hasW : Bool) (b d : Nat) (A : Arrs) :
    ∃ A', (if hasW then
        (applyPermutation? b b d A fun i => (sortIdx (fun i => A.edges (b + i)) d).getD i 0).map Prod.fst
      else some { A with edges := sortEdges A.edges b d }) = some A' ∧
      (sl (view hasW A') b d).Perm (sl (view hasW A) b d) ∧ ByTarget (sl (view hasW A') b d) ∧ Frame hasW b d A A' := by
  cases hasW with
  | true =>
    obtain ⟨h1, h2⟩ := hs (fun i => A.edges (b + i)) d
    generalize sortIdx (fun i => A.edges (b + i)) d = l at h1 h2
    have hl : l.length = d := by simpa using h1.length_eq
    obtain ⟨A', ind', g1, g2, g3⟩ := apply_ok (b := b) (isPerm_of h1) A
    have hsl : sl (view true A') b d = l.map fun j => view true A (b + j) := by
      rw [sl_shift, ← map_getD l _ hl]
      apply List.map_congr_left
      intro j hj
      exact g2 j (List.mem_range.1 hj)
    refine ⟨A', by rw [if_pos rfl, g1]; rfl, ?_, ?_, ?_⟩
    · rw [hsl, sl_shift]
      exact h1.map _
    · rw [hsl]
      unfold ByTarget
      rw [List.pairwise_map]
      exact h2
    · refine ⟨fun p hp => congrArg Prod.fst (g3 p hp), fun p hp => ?_, fun h => (nomatch h)⟩
      have := congrArg Prod.snd (g3 p hp)
      simpa [view] using this
  | false =>
    have hperm := List.perm_insertionSort (· ≤ ·) ((List.range' b d).map A.edges)
    have hsorted := List.pairwise_insertionSort (· ≤ ·) ((List.range' b d).map A.edges)
    have hl : (((List.range' b d).map A.edges).insertionSort (· ≤ ·)).length = d := by simp
    have hE : sl (sortEdges A.edges b d) b d = ((List.range' b d).map A.edges).insertionSort (· ≤ ·) := by
      unfold sortEdges
      generalize ((List.range' b d).map A.edges).insertionSort (· ≤ ·) = l at hl
      subst hl
      exact sl_write _ _ _
    have hview : ∀ B : Arrs, sl (view false B) b d = (sl B.edges b d).map fun x => (x, (1 : Int)) := by
      intro B
      unfold sl
      rw [List.map_map]
      rfl
    refine ⟨{ A with edges := sortEdges A.edges b d }, by simp, ?_, ?_, ?_⟩
    · rw [hview, hview, hE]
      exact hperm.map _
    · rw [hview, hE]
      unfold ByTarget
      rw [List.pairwise_map]
      exact hsorted
    · refine ⟨fun p hp => ?_, fun _ _ => rfl, fun _ => rfl⟩
      show sortEdges A.edges b d p = _
      exact write_out _ _ _ _ (by rw [hl]; exact hp)

/-- The length of part `i` of a neighbourhood with `d` edges. -/
def partLen (d i : Nat) : Nat := if i + 1 = numParts d then lastPartLength d else partLength

theorem partLen_le {d : Nat} (hd : d ≠ 0) : ∀ i, i < numParts d → i * partLength + partLen d i ≤ d ∧ partLen d i ≤ partLength := by
  have hdc := divCeil_cases d hd
  intro i hi
  unfold partLen
  obtain ⟨h1, h2, h3, h4⟩ := hdc
  by_cases e : i + 1 = numParts d
  · rw [if_pos e]
    rw [← e] at h2
    refine ⟨by simpa using Nat.le_of_eq h2, h4⟩
  · rw [if_neg e]
    have : (i + 1) * partLength ≤ (numParts d - 1) * partLength := Nat.mul_le_mul_right _ (by omega)
    rw [Nat.add_mul] at this
    omega

theorem parts_eq {p : Nat → Nbr} {b d : Nat} (hd : d ≠ 0) :
    partsOf (sl p b d) = (List.range (numParts d)).map fun i => sl p (b + i * partLength) (partLen d i) := by
  unfold partsOf
  rw [sl_length]
  apply List.map_congr_left
  intro i hi
  have hi := List.mem_range.1 hi
  have hlen := (partLen_le hd i hi).1
  have e1 : d = i * partLength + (partLen d i + (d - i * partLength - partLen d i)) := by omega
  have e2 : sl p b d = sl p b (i * partLength) ++ (sl p (b + i * partLength) (partLen d i) ++
      sl p (b + i * partLength + partLen d i) (d - i * partLength - partLen d i)) := by
    rw [← sl_append, ← sl_append, ← e1]
  rw [e2, List.drop_left' (sl_length _ _ _)]
  show List.take (partLen d i) _ = _
  rw [List.take_left' (sl_length _ _ _)]

/-- The loop over the parts, from part `k` on. -/
theorem parts_loop (c : Cfg) (hasW : Bool) (b d : Nat) (hd : d ≠ 0) : ∀ (m k : Nat) (A : Arrs), k + m = numParts d →
    ∃ A', (List.range' k m).foldlM (fun A i => permutate? c hasW (b + i * partLength)
        (b + i * partLength + if i + 1 = numParts d then lastPartLength d else partLength) (b + i * partLength) A) A = some A' ∧
      (∀ i, k ≤ i → i < numParts d → sl (view hasW A') (b + i * partLength) (partLen d i) =
        partOrder c (sl (view hasW A) (b + i * partLength) (partLen d i)) ∧
        (sl (view hasW A') (b + i * partLength) (partLen d i)).Perm (sl (view hasW A) (b + i * partLength) (partLen d i))) ∧
      (∀ p, p < b + k * partLength → view hasW A' p = view hasW A p) ∧ Frame hasW b d A A' := by
  have hlen := partLen_le hd
  intro m
  induction m with
  | zero =>
    intro k A hk
    exact ⟨A, rfl, fun i h1 h2 => by omega, fun _ _ => rfl, Frame.refl _ _ _ _⟩
  | succ m ih =>
    intro k A hk
    have hlk := hlen k (by omega)
    obtain ⟨A1, h1, h2, h3, h4⟩ := permutate_spec c hasW (b + k * partLength) (partLen d k) A
    obtain ⟨A', g1, g2, g3, g4⟩ := ih (k + 1) A1 (by omega)
    have hk1 : (k + 1) * partLength = k * partLength + partLength := Nat.succ_mul ..
    refine ⟨A', ?_, ?_, ?_, ?_⟩
    · rw [List.range'_succ, List.foldlM_cons]
      show (permutate? c hasW (b + k * partLength) (b + k * partLength + partLen d k) (b + k * partLength) A).bind _ = _
      rw [h1, Option.bind_some]
      exact g1
    · intro i hi hi'
      by_cases e : i = k
      · subst e
        have : sl (view hasW A') (b + i * partLength) (partLen d i) = sl (view hasW A1) (b + i * partLength) (partLen d i) :=
          sl_congr fun p _ hp => g3 p (by omega)
        rw [this]
        exact ⟨h2, h3⟩
      · have hik : (k + 1) * partLength ≤ i * partLength := Nat.mul_le_mul_right _ (by omega)
        have : sl (view hasW A1) (b + i * partLength) (partLen d i) = sl (view hasW A) (b + i * partLength) (partLen d i) :=
          sl_congr fun p hp _ => h4.view p (by omega)
        rw [← this]
        exact g2 i (by omega) hi'
    · intro p hp
      rw [g3 p (by omega), h4.view p (by omega)]
    · exact (h4.mono (by omega) (by omega)).trans g4

theorem sl_parts {p : Nat → Nbr} {b d : Nat} (hd : d ≠ 0) :
    sl p b d = ((List.range (numParts d)).map fun i => sl p (b + i * partLength) (partLen d i)).flatten := by
  have h := partsOf_flatten (sl p b d) (by
    intro e
    have := congrArg List.length e
    rw [sl_length] at this
    exact hd this)
  rw [parts_eq hd] at h
  exact h.symm

/-- `sort_by_compression`: the edges are sorted by target, and then put in the order of the compressed graph. -/
theorem sort_spec (c : Cfg) {sortIdx : (Nat → Nat) → Nat → List Nat} (hs : SortIdx sortIdx) (hasW : Bool) (b d : Nat) (A : Arrs) :
    ∃ A' srt, sortByCompression? c sortIdx hasW b (b + d) b A = some A' ∧ srt.Perm (sl (view hasW A) b d) ∧ ByTarget srt ∧
      sl (view hasW A') b d = nodeOrder { c with highDegree := true } srt ∧
      (sl (view hasW A') b d).Perm (sl (view hasW A) b d) ∧ Frame hasW b d A A' := by
  obtain ⟨A1, h1, h2, h3, h4⟩ := sort_first hs hasW b d A
  unfold sortByCompression?
  simp only [Nat.add_sub_cancel_left]
  have hstart : ∀ (f : Arrs → Option Arrs),
      (if hasW = true then
        (Option.map Prod.fst (applyPermutation? b b d A fun i => (sortIdx (fun i => A.edges (b + i)) d).getD i 0)).bind f
      else (some { A with edges := sortEdges A.edges b d }).bind f) = f A1 := by
    intro f
    cases hasW with
    | true => rw [if_pos rfl] at h1 ⊢; rw [h1, Option.bind_some]
    | false => rw [if_neg (by decide)] at h1 ⊢; rw [h1, Option.bind_some]
  have hpo : partOrder { c with highDegree := true } = partOrder c := rfl
  by_cases hd : d ≥ highDegreeThreshold
  · have hd0 : d ≠ 0 := by rintro rfl; exact absurd hd (by decide)
    obtain ⟨A', g1, g2, g3, g4⟩ := parts_loop c hasW b d hd0 (numParts d) 0 A1 (by omega)
    refine ⟨A', sl (view hasW A1) b d, ?_, h2, h3, ?_, ?_, h4.trans g4⟩
    · refine (hstart _).trans ?_
      rw [if_pos hd]
      have e1 : (if d % partLength = 0 then d / partLength else d / partLength + 1) = numParts d := by
        unfold numParts; split <;> rfl
      rw [e1, List.range_eq_range']
      exact g1
    · unfold nodeOrder
      rw [if_pos ⟨rfl, by rw [sl_length]; exact hd⟩, parts_eq hd0, sl_parts hd0, hpo, List.flatMap_def, List.map_map]
      congr 1
      apply List.map_congr_left
      intro i hi
      exact (g2 i (by omega) (List.mem_range.1 hi)).1
    · refine List.Perm.trans ?_ h2
      rw [sl_parts hd0, sl_parts (p := view hasW A1) hd0]
      have : ∀ l : List Nat, (∀ i ∈ l, i < numParts d) →
          ((l.map fun i => sl (view hasW A') (b + i * partLength) (partLen d i)).flatten).Perm
            ((l.map fun i => sl (view hasW A1) (b + i * partLength) (partLen d i)).flatten) := by
        intro l
        induction l with
        | nil => intro _; exact List.Perm.refl _
        | cons i l ih =>
          intro h
          simp only [List.map_cons, List.flatten_cons]
          exact (g2 i (by omega) (h i (by simp))).2.append (ih fun j hj => h j (by simp [hj]))
      exact this _ fun i hi => List.mem_range.1 hi
  · obtain ⟨A', g1, g2, g3, g4⟩ := permutate_spec c hasW b d A1
    refine ⟨A', sl (view hasW A1) b d, ?_, h2, h3, ?_, g3.trans h2, h4.trans g4⟩
    · refine (hstart _).trans ?_
      rw [if_neg hd]
      exact g1
    · unfold nodeOrder
      rw [if_neg (by rw [sl_length]; exact fun h => hd h.2), g2, hpo]

/-! ## All neighbourhoods -/

theorem mono_le {nodes : Nat → Nat} {n : Nat} (hm : ∀ u, u < n → nodes u ≤ nodes (u + 1)) {u v : Nat} (h : u ≤ v) (hv : v ≤ n) :
    nodes u ≤ nodes v := by
  induction v with
  | zero => rw [Nat.le_zero.1 h]
  | succ v ih =>
    by_cases e : u = v + 1
    · rw [e]
    · exact (ih (by omega) (by omega)).trans (hm v (by omega))

/-- The edges of a node. -/
def nbs (hasW : Bool) (nodes : Nat → Nat) (A : Arrs) (u : Nat) : List Nbr := sl (view hasW A) (nodes u) (nodes (u + 1) - nodes u)

theorem reorder_spec (c : Cfg) {sortIdx : (Nat → Nat) → Nat → List Nat} (hs : SortIdx sortIdx) (hasW : Bool) {nodes : Nat → Nat} {n : Nat}
    (hm : ∀ u, u < n → nodes u ≤ nodes (u + 1)) : ∀ (us : List Nat) (A : Arrs), us.Nodup → (∀ u ∈ us, u < n) →
    ∃ A', reorder? c sortIdx hasW nodes us A = some A' ∧
      (∀ u ∈ us, (∃ srt, srt.Perm (nbs hasW nodes A u) ∧ ByTarget srt ∧
          nbs hasW nodes A' u = nodeOrder { c with highDegree := true } srt) ∧
        (nbs hasW nodes A' u).Perm (nbs hasW nodes A u)) ∧
      (∀ u, u < n → u ∉ us → nbs hasW nodes A' u = nbs hasW nodes A u) ∧
      Frame hasW (nodes 0) (nodes n - nodes 0) A A' := by
  intro us
  induction us with
  | nil => intro A _ _; exact ⟨A, rfl, fun u h => (nomatch h), fun _ _ _ => rfl, Frame.refl _ _ _ _⟩
  | cons u us ih =>
    intro A hnd hlt
    obtain ⟨hu, hnd⟩ := List.nodup_cons.1 hnd
    have hun : u < n := hlt u (by simp)
    have hmu := hm u hun
    obtain ⟨A1, srt, h1, h2, h3, h4, h5, h6⟩ := sort_spec c hs hasW (nodes u) (nodes (u + 1) - nodes u) A
    rw [Nat.add_sub_cancel' hmu] at h1
    obtain ⟨A', g1, g2, g3, g4⟩ := ih A1 hnd fun v hv => hlt v (by simp [hv])
    have hsame : ∀ v, v < n → v ≠ u → nbs hasW nodes A1 v = nbs hasW nodes A v := by
      intro v hv hne
      apply sl_congr
      intro p hp1 hp2
      apply h6.view
      have hmv := hm v hv
      rcases Nat.lt_or_gt_of_ne hne with h | h
      · have := mono_le hm (u := v + 1) (v := u) h (by omega); omega
      · have := mono_le hm (u := u + 1) (v := v) h (by omega); omega
    refine ⟨A', ?_, ?_, ?_, ?_⟩
    · unfold reorder? at g1 ⊢
      rw [List.foldlM_cons, h1]
      exact g1
    · intro v hv
      by_cases e : v = u
      · subst e
        rw [g3 v hun hu]
        exact ⟨⟨srt, h2, h3, h4⟩, h5⟩
      · have hv' : v ∈ us := (List.mem_cons.1 hv).resolve_left e
        have := g2 v hv'
        rwa [hsame v (hlt v hv) e] at this
    · intro v hv hvn
      have e : v ≠ u := fun e => hvn (by simp [e])
      rw [g3 v hv fun h => hvn (by simp [h]), hsame v hv e]
    · refine (h6.mono (mono_le hm (Nat.zero_le u) (by omega)) ?_).trans g4
      have h7 := mono_le hm (u := u + 1) (v := n) hun (Nat.le_refl _)
      have h8 := mono_le hm (Nat.zero_le u) (Nat.le_of_lt hun)
      omega

end Verif.Reorder

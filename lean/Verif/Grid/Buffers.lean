import Verif.Grid.Model
import Mathlib.Data.List.GetD

/-! # Buffers, displacements and `MPI_Alltoallv` -/

namespace Verif.Grid
variable {α : Type}

theorem mapM_some {β : Type} {f : α → Option β} {g : α → β} : ∀ {l : List α}, (∀ x ∈ l, f x = some (g x)) → l.mapM f = some (l.map g)
  | [], _ => rfl
  | a :: l, h => by
    rw [List.mapM_cons, h a List.mem_cons_self, mapM_some fun x hx => h x (List.mem_cons_of_mem _ hx)]
    rfl

/-- Writing behind a prefix. -/
theorem write_append (a x b y : List α) (h : x.length = y.length) : write? (a ++ x ++ b) a.length y = some (a ++ y ++ b) := by
  unfold write?
  rw [if_pos (by simp only [List.length_append]; omega)]
  simp [h.symm]

theorem slice_append (a x b : List α) : slice? (a ++ x ++ b) a.length x.length = some x := by
  unfold slice?
  rw [if_pos (by simp only [List.length_append]; omega)]
  simp

theorem write_pos (l : List α) (d : Nat) (x : List α) (h : d + x.length ≤ l.length) :
    write? l d x = some (l.take d ++ x ++ l.drop (d + x.length)) := if_pos h

/-! ## Prefix sums -/

theorem displs_scan : ∀ (l : List Nat) (a : Nat) (i : Nat), i ≤ l.length → (l.scanl (· + ·) a)[i]? = some (a + (l.take i).sum)
  | l, a, 0, _ => by cases l <;> simp [List.scanl]
  | x :: l, a, i + 1, h => by
    rw [List.scanl_cons]
    have := displs_scan l (a + x) i (by simpa using h)
    rw [List.getElem?_cons_succ, this]
    simp [Nat.add_assoc]

theorem displs_get {l : List Nat} {i : Nat} (h : i ≤ l.length) : (displs l)[i]? = some (l.take i).sum := by
  unfold displs
  rw [displs_scan l 0 i h, Nat.zero_add]

theorem displs_length (l : List Nat) : (displs l).length = l.length + 1 := by unfold displs; simp

theorem displs_last (l : List Nat) : (displs l).getLastD 0 = l.sum := by
  rw [List.getLastD_eq_getLast?, List.getLast?_eq_getElem?, displs_length, Nat.add_sub_cancel, displs_get (le_refl _), List.take_length]
  rfl

/-! ## Loops that write one part after the other -/

/-- A loop that writes the parts of a buffer from left to right. -/
theorem fold_write {X : Type} {β : Type} (step : List β → X → Option (List β)) (pos : X → Nat) (val : X → List β) :
    ∀ (xs : List X) (a b : List β), (∀ pre x post, xs = pre ++ x :: post → ∀ l : List β, l.length = a.length + b.length →
        step l x = write? l (a.length + (pre.flatMap val).length) (val x)) →
      (xs.flatMap val).length ≤ b.length → xs.foldlM step (a ++ b) = some (a ++ xs.flatMap val ++ b.drop (xs.flatMap val).length)
  | [], a, b, _, _ => by simp
  | x :: xs, a, b, h, hl => by
    rw [List.foldlM_cons, h [] x xs rfl _ (by simp), write_pos]
    · rw [List.flatMap_cons, List.length_append] at hl
      simp only [List.flatMap_nil, List.length_nil, Nat.add_zero, Option.bind_eq_bind, Option.bind_some]
      have e1 : (a ++ b).take a.length = a := by simp
      have e2 : (a ++ b).drop (a.length + (val x).length) = b.drop (val x).length := by simp [List.drop_append]
      rw [e1, e2, fold_write step pos val xs (a ++ val x) (b.drop (val x).length)]
      · simp [List.append_assoc]
      · intro pre y post he l hlen
        rw [h (x :: pre) y post (by rw [he]; rfl) l]
        · congr 1
          simp only [List.length_append, List.flatMap_cons]
          omega
        · rw [hlen, List.length_append, List.length_drop]; omega
      · rw [List.length_drop]; omega
    · rw [List.flatMap_cons, List.length_append] at hl
      simp only [List.flatMap_nil, List.length_nil, List.length_append]
      omega

/-! ## Buffers that consist of parts -/

theorem take_map_length (Y : List (List α)) (j : Nat) : ((Y.map List.length).take j).sum = (Y.take j).flatten.length := by
  rw [List.length_flatten, List.map_take]

/-- The part of a buffer at a displacement. -/
theorem slice_part {Y : List (List α)} {j : Nat} {y : List α} (h : Y[j]? = some y) (rest : List α) :
    slice? (Y.flatten ++ rest) ((Y.map List.length).take j).sum y.length = some y := by
  obtain ⟨hj, rfl⟩ := List.getElem?_eq_some_iff.1 h
  rw [take_map_length]
  have : Y.flatten ++ rest = (Y.take j).flatten ++ Y[j] ++ ((Y.drop (j + 1)).flatten ++ rest) := by
    have : Y = Y.take j ++ Y[j] :: Y.drop (j + 1) := by rw [← List.drop_eq_getElem_cons hj, List.take_append_drop]
    conv_lhs => rw [this]
    simp only [List.flatten_append, List.flatten_cons, List.append_assoc]
  rw [this]
  exact slice_append _ _ _

/-- `MPI_Alltoallv` when all send buffers consist of parts, one for each member, and the parts for rank `me` have the expected sizes. -/
theorem alltoallv_parts {comm : Nat → List Nat} {call : Nat → Option (Call α)} {me : Nat} {rbuf : List α} {c : Call α}
    (hc : call me = some c) (hrbuf : c.rbuf = rbuf) (part : Nat → List α)
    (hcnt : c.rcnt = (comm me).map fun src => (part src).length) (hdis : c.rdis = displs c.rcnt)
    (hsrc : ∀ src ∈ comm me, ∃ (c' : Call α) (Y : List (List α)) (rest : List α), call src = some c' ∧ c'.sbuf = Y.flatten ++ rest ∧ c'.scnt = Y.map List.length ∧ c'.sdis = displs c'.scnt ∧
      Y[(comm me).idxOf me]? = some (part src))
    (hlen : ((comm me).flatMap part).length ≤ rbuf.length) :
    alltoallv? comm call me = some ((comm me).flatMap part ++ rbuf.drop ((comm me).flatMap part).length) := by
  unfold alltoallv?
  rw [hc]
  simp only [Option.bind_eq_bind, Option.bind_some]
  rw [hrbuf]
  generalize hm : comm me = m at *
  have hflat : (List.range m.length).flatMap (fun i => part (m.getD i 0)) = m.flatMap part := by
    rw [← List.flatMap_map (f := fun i => m.getD i 0)]
    congr 1
    refine List.ext_getElem (by simp) fun i h1 h2 => ?_
    simp at h1
    simp [h1]
  have key := fold_write (β := α) (fun buf i => (m[i]?).bind fun src => (call src).bind fun c' => (c'.scnt[m.idxOf me]?).bind fun n =>
      (c'.sdis[m.idxOf me]?).bind fun d => (c.rcnt[i]?).bind fun rn => (c.rdis[i]?).bind fun rd =>
        if n = rn then (slice? c'.sbuf d n).bind fun x => write? buf rd x else none) (fun _ => 0) (fun i => part (m.getD i 0)) (List.range m.length) [] rbuf ?_ ?_
  · rw [List.nil_append, List.nil_append, hflat] at key
    exact key
  · intro pre i post he l hl
    have hi : i < m.length := by
      have : i ∈ List.range m.length := by rw [he]; simp
      exact List.mem_range.1 this
    have hpre : pre = List.range i := by
      have h1 : (List.range m.length).take pre.length = pre := by rw [he]; simp
      have h2 : (List.range m.length)[pre.length]? = some i := by rw [he]; simp
      have h3 := List.getElem?_eq_some_iff.1 h2
      obtain ⟨h3, h4⟩ := h3
      rw [List.getElem_range] at h4
      rw [← h1, h4, List.take_range]
      congr 1
      omega
    have hg : m.getD i 0 = m[i] := by simp [hi]
    obtain ⟨c', Y, rest, e1, e2, e3, e4, e5⟩ := hsrc m[i] (List.getElem_mem hi)
    have hj : m.idxOf me < Y.length := (List.getElem?_eq_some_iff.1 e5).1
    have e6 : c'.scnt[m.idxOf me]? = some (part m[i]).length := by rw [e3, List.getElem?_map, e5]; rfl
    have e7 : c'.sdis[m.idxOf me]? = some ((Y.map List.length).take (m.idxOf me)).sum := by
      rw [e4, e3, displs_get (by rw [List.length_map]; omega)]
    have e8 : c.rcnt[i]? = some (part m[i]).length := by rw [hcnt, List.getElem?_map, List.getElem?_eq_getElem hi]; rfl
    have e9 : c.rdis[i]? = some ((pre.flatMap fun i => part (m.getD i 0)).length) := by
      rw [hdis, displs_get (by rw [hcnt, List.length_map]; omega), hcnt, hpre, ← List.map_take]
      congr 1
      rw [List.length_flatMap]
      congr 1
      refine List.ext_getElem (by simp; omega) fun x h1 h2 => ?_
      simp at h1
      have : x < m.length := by omega
      simp [this]
    rw [List.getElem?_eq_getElem hi, Option.bind_some, e1, Option.bind_some, e6, Option.bind_some, e7, Option.bind_some, e8, Option.bind_some, e9,
      Option.bind_some, if_pos rfl, e2, slice_part e5, Option.bind_some, hg]
    simp
  · rw [hflat]; exact hlen

end Verif.Grid

import Verif.Dist.Contract
import Verif.Dist.CutProps
import Verif.Dist.ReplicateProps

/-!
# Lists, maps and exchanges for the proof of C73
-/

namespace Verif.Dist
open Verif.Math

variable {α β : Type}

/-! ## Maps with sums -/

/-- The sum of the weights of the entries with the key `k`. -/
def total (k : Nat) (l : List (Nat × Int)) : Int := ((l.filter fun x => decide (x.1 = k)).map (·.2)).sum

theorem total_nil (k : Nat) : total k [] = 0 := rfl

theorem total_cons (k : Nat) (x : Nat × Int) (l : List (Nat × Int)) : total k (x :: l) = (if x.1 = k then x.2 else 0) + total k l := by
  unfold total
  by_cases h : x.1 = k
  · rw [List.filter_cons_of_pos (by simpa using h), if_pos h, List.map_cons, List.sum_cons]
  · rw [List.filter_cons_of_neg (by simpa using h), if_neg h, Int.zero_add]

theorem total_append (k : Nat) (l l' : List (Nat × Int)) : total k (l ++ l') = total k l + total k l' := by
  unfold total
  rw [List.filter_append, List.map_append, sum_append_int]

theorem total_flatMap (k : Nat) (f : α → List (Nat × Int)) : ∀ l : List α, total k (l.flatMap f) = (l.map fun a => total k (f a)).sum
  | [] => rfl
  | a :: l => by rw [List.flatMap_cons, total_append, total_flatMap k f l, List.map_cons, List.sum_cons]

theorem total_perm (k : Nat) {l l' : List (Nat × Int)} (h : l.Perm l') : total k l = total k l' :=
  ((h.filter _).map _).sum_eq

theorem total_of_not_mem {k : Nat} : ∀ {l : List (Nat × Int)}, k ∉ l.map (·.1) → total k l = 0
  | [], _ => rfl
  | x :: l, h => by
    rw [List.map_cons, List.mem_cons, not_or] at h
    rw [total_cons, if_neg (fun e => h.1 e.symm), total_of_not_mem h.2, Int.zero_add]

theorem total_of_mem {k : Nat} {w : Int} : ∀ {l : List (Nat × Int)}, (l.map (·.1)).Nodup → (k, w) ∈ l → total k l = w
  | x :: l, hn, h => by
    rw [List.map_cons, List.nodup_cons] at hn
    rw [total_cons]
    rcases List.mem_cons.1 h with rfl | h
    · rw [if_pos rfl, total_of_not_mem hn.1, Int.add_zero]
    · have hne : x.1 ≠ k := by
        rintro rfl
        exact hn.1 (List.mem_map_of_mem (f := (·.1)) h)
      rw [if_neg hne, total_of_mem hn.2 h, Int.zero_add]

theorem addTo_keys (k : Nat) (w : Int) : ∀ t : List (Nat × Int),
    (addTo k w t).map (·.1) = if k ∈ t.map (·.1) then t.map (·.1) else t.map (·.1) ++ [k]
  | [] => rfl
  | x :: t => by
    unfold addTo
    by_cases h : x.1 = k
    · rw [if_pos h, if_pos (by rw [List.map_cons, h]; exact List.mem_cons_self), List.map_cons, List.map_cons, h]
    · have hne : ¬ k = x.1 := fun e => h e.symm
      rw [if_neg h, List.map_cons, addTo_keys k w t, List.map_cons]
      by_cases hm : k ∈ t.map (·.1)
      · rw [if_pos hm, if_pos (List.mem_cons_of_mem _ hm)]
      · rw [if_neg hm, if_neg (by rw [List.mem_cons, not_or]; exact ⟨hne, hm⟩)]
        rfl

theorem addTo_total (k : Nat) (w : Int) (j : Nat) : ∀ t : List (Nat × Int), total j (addTo k w t) = total j t + if k = j then w else 0
  | [] => by
    unfold addTo
    rw [total_cons, total_nil, Int.add_zero, Int.zero_add]
  | x :: t => by
    unfold addTo
    by_cases h : x.1 = k
    · rw [if_pos h, total_cons, total_cons, h]
      by_cases hj : k = j
      · rw [if_pos hj, if_pos hj, if_pos hj]
        show x.2 + w + _ = _
        omega
      · rw [if_neg hj, if_neg hj, if_neg hj, Int.add_zero]
    · rw [if_neg h, total_cons, total_cons, addTo_total k w j t]
      omega

/-- All entries of a list are added. -/
def addAll (l t : List (Nat × Int)) : List (Nat × Int) := l.foldl (fun t x => addTo x.1 x.2 t) t

theorem addAll_total (j : Nat) : ∀ l t : List (Nat × Int), total j (addAll l t) = total j t + total j l
  | [], t => by rw [total_nil, Int.add_zero]; rfl
  | x :: l, t => by
    show total j (addAll l (addTo x.1 x.2 t)) = _
    rw [addAll_total j l, addTo_total, total_cons]
    omega

theorem addAll_mem (j : Nat) : ∀ l t : List (Nat × Int), j ∈ (addAll l t).map (·.1) ↔ j ∈ t.map (·.1) ∨ j ∈ l.map (·.1)
  | [], t => by
    show j ∈ t.map (·.1) ↔ _
    simp
  | x :: l, t => by
    show j ∈ (addAll l (addTo x.1 x.2 t)).map (·.1) ↔ _
    rw [addAll_mem j l, addTo_keys, List.map_cons, List.mem_cons]
    by_cases h : x.1 ∈ t.map (·.1)
    · rw [if_pos h]
      constructor
      · rintro (h' | h')
        · exact .inl h'
        · exact .inr (.inr h')
      · rintro (h' | rfl | h')
        · exact .inl h'
        · exact .inl h
        · exact .inr h'
    · rw [if_neg h, List.mem_append, List.mem_singleton, or_assoc]

theorem addAll_nodup : ∀ l t : List (Nat × Int), (t.map (·.1)).Nodup → ((addAll l t).map (·.1)).Nodup
  | [], _, h => h
  | x :: l, t, h => by
    show ((addAll l (addTo x.1 x.2 t)).map (·.1)).Nodup
    apply addAll_nodup l
    rw [addTo_keys]
    by_cases hm : x.1 ∈ t.map (·.1)
    · rw [if_pos hm]; exact h
    · rw [if_neg hm]
      refine List.nodup_append.2 ⟨h, List.nodup_singleton _, ?_⟩
      intro a ha b hb hab
      rw [List.mem_singleton] at hb
      exact hm (hb ▸ hab ▸ ha)

theorem lookup_of_values {γ : Type} {F : Nat → γ} {k : Nat} : ∀ {l : List (Nat × γ)}, (∀ x, x ∈ l → x.2 = F x.1) → k ∈ l.map (·.1) →
    l.lookup k = some (F k)
  | x :: l, hv, hk => by
    rw [List.lookup_cons]
    by_cases h : k = x.1
    · subst h
      rw [beq_self_eq_true]
      exact congrArg some (hv x List.mem_cons_self)
    · rw [beq_false_of_ne h]
      refine lookup_of_values (fun y hy => hv y (List.mem_cons_of_mem _ hy)) ?_
      rw [List.map_cons, List.mem_cons] at hk
      exact hk.resolve_left h

/-! ## Counting and cutting into segments -/

theorem natSum_le {f h : α → Nat} : ∀ {l : List α}, (∀ x, x ∈ l → f x ≤ h x) → (l.map f).sum ≤ (l.map h).sum
  | [], _ => Nat.le_refl _
  | a :: l, hl => by
    rw [List.map_cons, List.map_cons, List.sum_cons, List.sum_cons]
    exact Nat.add_le_add (hl a List.mem_cons_self) (natSum_le fun x hx => hl x (List.mem_cons_of_mem _ hx))

theorem le_natSum {f : α → Nat} {a : α} : ∀ {l : List α}, a ∈ l → f a ≤ (l.map f).sum
  | b :: l, h => by
    rw [List.map_cons, List.sum_cons]
    rcases List.mem_cons.1 h with rfl | h
    · exact Nat.le_add_right _ _
    · exact Nat.le_trans (le_natSum h) (Nat.le_add_left _ _)

theorem countFor_fold {N : Nat} {o : α → Nat} : ∀ (l : List α) (num : Nat → Nat), (∀ x, x ∈ l → o x < N) →
    l.foldlM (fun num x => countFor? N num (o x)) num = some fun q => num q + l.countP fun x => decide (o x = q)
  | [], num, _ => by simp
  | x :: l, num, h => by
    rw [List.foldlM_cons]
    unfold countFor?
    rw [if_pos (h x List.mem_cons_self)]
    show l.foldlM (fun num x => countFor? N num (o x)) _ = _
    rw [countFor_fold l _ fun y hy => h y (List.mem_cons_of_mem _ hy)]
    congr 1
    funext q
    rw [List.countP_cons]
    by_cases hq : o x = q
    · subst hq
      rw [upd_same]
      simp
      omega
    · rw [upd_ne _ _ (fun e => hq e.symm)]
      simp [hq]

theorem sorted_split {r : α → Nat} (q : Nat) : ∀ {l : List α}, l.Pairwise (fun a b => r a ≤ r b) →
    l = (l.filter fun a => decide (r a < q)) ++ l.filter fun a => decide (¬ r a < q)
  | [], _ => rfl
  | a :: l, h => by
    obtain ⟨h1, h2⟩ := List.pairwise_cons.1 h
    by_cases ha : r a < q
    · rw [List.filter_cons_of_pos (by simpa using ha), List.filter_cons_of_neg (by simpa using ha), List.cons_append,
        ← sorted_split q h2]
    · have hrest : ∀ b, b ∈ l → ¬ r b < q := fun b hb => by have := h1 b hb; omega
      rw [List.filter_cons_of_neg (by simpa using ha), List.filter_cons_of_pos (by simpa using ha),
        List.filter_eq_nil_iff.2 fun b hb => by simpa using hrest b hb, List.nil_append,
        List.filter_eq_self.2 fun b hb => by simpa using hrest b hb]

theorem countP_lt_sum {o : α → Nat} (l : List α) : ∀ q, ((List.range q).map fun q => l.countP fun x => decide (o x = q)).sum =
    l.countP fun x => decide (o x < q)
  | 0 => by simp
  | q + 1 => by
    rw [List.range_succ, List.map_append, List.sum_append, countP_lt_sum l q, List.map_singleton, List.sum_singleton]
    induction l with
    | nil => rfl
    | cons a l ih =>
      rw [List.countP_cons, List.countP_cons, List.countP_cons, ← ih]
      by_cases h1 : o a < q
      · simp [h1, show o a ≠ q by omega, show o a < q + 1 by omega]; omega
      · by_cases h2 : o a = q
        · simp [h2]; omega
        · simp [h1, h2, show ¬ o a < q + 1 by omega]

theorem segment_ok {N q : Nat} {o : α → Nat} {l : List α} (hs : l.Pairwise fun a b => o a ≤ o b) (hlen : l.length < 2 ^ 31) (hq : q < N) :
    segment? l ((List.range N).map fun q => l.countP fun x => decide (o x = q)) q = some (l.filter fun x => decide (o x = q)) := by
  unfold segment?
  have ht : (((List.range N).map fun q => l.countP fun x => decide (o x = q)).take q).sum = l.countP fun x => decide (o x < q) := by
    rw [← List.map_take, List.take_range, Nat.min_eq_left (by omega), countP_lt_sum]
  have hge : (l.filter fun a => decide (¬ o a < q)).Pairwise fun a b => o a ≤ o b := hs.filter _
  have h1 := sorted_split q hs
  have h2 := sorted_split (q + 1) hge
  have h3 : ((l.filter fun a => decide (¬ o a < q)).filter fun a => decide (o a < q + 1)) = l.filter fun x => decide (o x = q) := by
    rw [List.filter_filter]
    apply List.filter_congr
    intro x _
    rw [← Bool.decide_and]
    apply decide_eq_decide.2
    omega
  rw [h3] at h2
  rw [List.getElem?_map, List.getElem?_range hq, Option.map_some, Option.bind_some, ht, List.countP_eq_length_filter,
    List.countP_eq_length_filter]
  have hlen' := congrArg List.length h1
  have hlen2 := congrArg List.length h2
  rw [List.length_append] at hlen' hlen2
  rw [if_pos ⟨by omega, by omega⟩]
  congr 1
  have h4 : l.drop (l.filter fun a => decide (o a < q)).length = l.filter fun a => decide (¬ o a < q) := by
    conv_lhs => rhs; rw [h1]
    exact List.drop_left
  rw [h4, h2, List.take_left]

theorem segment_flatten {N p : Nat} (F : Nat → List α) (hp : p < N) (hlen : ((List.range N).flatMap F).length < 2 ^ 31) :
    segment? ((List.range N).flatMap F) ((List.range N).map fun q => (F q).length) p = some (F p) := by
  have hsplit : List.range N = List.range p ++ p :: List.range' (p + 1) (N - p - 1) := by
    rw [List.range_eq_range', List.range_eq_range', show N = p + (1 + (N - p - 1)) by omega, ← List.range'_append_1, ← List.range'_append_1]
    simp
  have hflat : (List.range N).flatMap F = (List.range p).flatMap F ++ (F p ++ (List.range' (p + 1) (N - p - 1)).flatMap F) := by
    rw [hsplit, List.flatMap_append, List.flatMap_cons]
  have ht : (((List.range N).map fun q => (F q).length).take p).sum = ((List.range p).flatMap F).length := by
    rw [← List.map_take, List.take_range, Nat.min_eq_left (by omega), List.length_flatMap]
  unfold segment?
  rw [List.getElem?_map, List.getElem?_range hp, Option.map_some, Option.bind_some, ht]
  have := congrArg List.length hflat
  rw [List.length_append, List.length_append] at this
  rw [if_pos ⟨by omega, by omega⟩, hflat, List.drop_left, List.take_left]

theorem alltoallv_ok {N me : Nat} {o : Nat → α → Nat} {buf? : Nat → Option (List α)} {counts? : Nat → Option (List Nat)} {B : Nat → List α}
    (hb : ∀ p, p < N → buf? p = some (B p)) (hc : ∀ p, p < N → counts? p = some ((List.range N).map fun q => (B p).countP fun x => decide (o p x = q)))
    (hs : ∀ p, p < N → (B p).Pairwise fun a b => o p a ≤ o p b) (hlen : ((List.range N).map fun p => (B p).length).sum < 2 ^ 31) (hme : me < N) :
    alltoallv? N buf? counts? me = some ((List.range N).flatMap fun p => (B p).filter fun x => decide (o p x = me)) := by
  have hle : ∀ p, p < N → (B p).length < 2 ^ 31 := by
    intro p hp
    refine Nat.lt_of_le_of_lt ?_ hlen
    exact le_natSum (f := fun p => (B p).length) (List.mem_range.2 hp)
  unfold alltoallv?
  rw [mapM_some (g := fun p => (B p).filter fun x => decide (o p x = me)), Option.bind_some, ← List.flatMap_def, if_pos]
  · refine Nat.lt_of_le_of_lt ?_ hlen
    rw [List.length_flatMap]
    refine natSum_le fun p _ => ?_
    exact List.length_filter_le _ _
  · intro p hp
    have hp := List.mem_range.1 hp
    rw [hb p hp, Option.bind_some, hc p hp, Option.bind_some, segment_ok (hs p hp) (hle p hp) hme]

theorem recvCounts_ok {N q : Nat} {o : Nat → α → Nat} {counts? : Nat → Option (List Nat)} {B : Nat → List α}
    (hc : ∀ p, p < N → counts? p = some ((List.range N).map fun q => (B p).countP fun x => decide (o p x = q))) (hq : q < N) :
    recvCounts? N counts? q = some ((List.range N).map fun p => ((B p).filter fun x => decide (o p x = q)).length) := by
  unfold recvCounts?
  rw [mapM_some]
  intro p hp
  rw [hc p (List.mem_range.1 hp), Option.bind_some, List.getElem?_map, List.getElem?_range hq, Option.map_some, List.countP_eq_length_filter]

theorem reply_ok {N me : Nat} {o : Nat → α → Nat} {buf? : Nat → Option (List β)} {counts? : Nat → Option (List Nat)} {B : Nat → List α}
    {r : Nat → α → β} (hb : ∀ q, q < N → buf? q = some (((List.range N).flatMap fun p => (B p).filter fun x => decide (o p x = q)).map (r q)))
    (hc : ∀ p, p < N → counts? p = some ((List.range N).map fun q => (B p).countP fun x => decide (o p x = q)))
    (ho : ∀ p, p < N → ∀ x, x ∈ B p → o p x < N) (hlen : ((List.range N).map fun p => (B p).length).sum < 2 ^ 31) (hme : me < N) :
    reply? N buf? counts? me = some ((List.range N).flatMap fun q => ((B me).filter fun x => decide (o me x = q)).map (r q)) := by
  unfold reply? alltoallv?
  have hle : ∀ q, ((List.range N).flatMap fun p => ((B p).filter fun x => decide (o p x = q)).map (r q)).length < 2 ^ 31 := by
    intro q
    refine Nat.lt_of_le_of_lt ?_ hlen
    rw [List.length_flatMap]
    refine natSum_le fun p _ => ?_
    rw [List.length_map]
    exact List.length_filter_le _ _
  rw [mapM_some (g := fun q => ((B me).filter fun x => decide (o me x = q)).map (r q)), Option.bind_some, ← List.flatMap_def, if_pos]
  · have h1 : ((List.range N).flatMap fun q => ((B me).filter fun x => decide (o me x = q)).map (r q)).length = (B me).length := by
      rw [List.length_flatMap]
      have : (fun q => (((B me).filter fun x => decide (o me x = q)).map (r q)).length) = fun q => (B me).countP fun x => decide (o me x = q) := by
        funext q
        rw [List.length_map, List.countP_eq_length_filter]
      rw [this, countP_lt_sum]
      exact List.countP_eq_length.2 fun x hx => by simpa using ho me hme x hx
    rw [h1]
    refine Nat.lt_of_le_of_lt ?_ hlen
    exact le_natSum (f := fun p => (B p).length) (List.mem_range.2 hme)
  · intro q hq
    have hq := List.mem_range.1 hq
    rw [hb q hq, Option.bind_some, recvCounts_ok hc hq, Option.bind_some, List.map_flatMap]
    have := segment_flatten (fun p => ((B p).filter fun x => decide (o p x = q)).map (r q)) hme (hle q)
    simpa only [List.length_map] using this

end Verif.Dist

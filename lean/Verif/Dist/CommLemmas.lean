import Verif.Dist.Comm
import Verif.Math.Props
import Verif.Net.Props

/-!
# Lemmas about the construction of the messages
-/

namespace Verif.Dist
open Verif.Math

variable {μ ν : Type}

/-- The messages of thread `t` for process `pe`. -/
def sel (F : List (Nat × Nat × μ)) (t pe : Nat) : List μ :=
  F.filterMap fun x => if x.1 = t ∧ x.2.1 = pe then some x.2.2 else none

theorem sel_cons (x : Nat × Nat × μ) (F : List (Nat × Nat × μ)) (t pe : Nat) :
    sel (x :: F) t pe = if x.1 = t ∧ x.2.1 = pe then x.2.2 :: sel F t pe else sel F t pe := by
  unfold sel
  rw [List.filterMap_cons]
  by_cases h : x.1 = t ∧ x.2.1 = pe
  · rw [if_pos h, if_pos h]
  · rw [if_neg h, if_neg h]

/-- The sum of `f 0, …, f (k - 1)`. -/
def csum (f : Nat → Nat) : Nat → Nat
  | 0 => 0
  | k + 1 => csum f k + f k

theorem csum_mono (f : Nat → Nat) {i j : Nat} (h : i ≤ j) : csum f i ≤ csum f j := by
  induction j with
  | zero => have : i = 0 := by omega
            subst this; exact Nat.le_refl _
  | succ j ih =>
    rcases Nat.lt_or_ge i (j + 1) with h1 | h1
    · exact Nat.le_trans (ih (by omega)) (Nat.le_add_right _ _)
    · have : i = j + 1 := by omega
      subst this; exact Nat.le_refl _

theorem csum_congr {f f' : Nat → Nat} : ∀ {k : Nat}, (∀ i, i < k → f i = f' i) → csum f k = csum f' k
  | 0, _ => rfl
  | k + 1, h => by
    show csum f k + f k = csum f' k + f' k
    rw [csum_congr fun i hi => h i (by omega), h k (by omega)]

theorem count_ok {T N : Nat} : ∀ (F : List (Nat × Nat × μ)) (num : Nat × Nat → Nat), (∀ x, x ∈ F → x.1 < T ∧ x.2.1 < N) →
    ∃ num', F.foldlM (countItem? T N) num = some num' ∧ ∀ t pe, num' (t, pe) = num (t, pe) + (sel F t pe).length
  | [], num, _ => ⟨num, rfl, fun _ _ => rfl⟩
  | x :: F, num, h => by
    have hx := h x List.mem_cons_self
    obtain ⟨num', h1, h2⟩ := count_ok F (upd num (x.1, x.2.1) (num (x.1, x.2.1) + 1)) fun y hy => h y (List.mem_cons_of_mem _ hy)
    refine ⟨num', ?_, fun t pe => ?_⟩
    · rw [List.foldlM_cons]
      show (countItem? T N num x).bind _ = _
      unfold countItem?
      rw [if_pos hx, Option.bind_some]
      exact h1
    · rw [h2 t pe, sel_cons]
      by_cases hk : x.1 = t ∧ x.2.1 = pe
      · obtain ⟨rfl, rfl⟩ := hk
        rw [if_pos ⟨rfl, rfl⟩, upd_same, List.length_cons]
        omega
      · rw [if_neg hk, upd_ne]
        intro h
        injection h with h3 h4
        exact hk ⟨h3.symm, h4.symm⟩

theorem prefixRow_fold (i : Nat) (hi : 0 < i) : ∀ (k : Nat) (num : Nat × Nat → Nat) (a j : Nat),
    ((List.range k).foldl (fun num j => upd num (i, j) (num (i, j) + num (i - 1, j))) num) (a, j) =
      if a = i ∧ j < k then num (i, j) + num (i - 1, j) else num (a, j)
  | 0, num, a, j => by rw [if_neg (by omega)]; rfl
  | k + 1, num, a, j => by
    rw [List.range_succ, List.foldl_append]
    show (upd _ (i, k) _) (a, j) = _
    by_cases h : a = i ∧ j = k
    · obtain ⟨rfl, rfl⟩ := h
      rw [upd_same, if_pos ⟨rfl, by omega⟩, prefixRow_fold a hi j num, prefixRow_fold a hi j num, if_neg (by omega),
        if_neg (by omega)]
    · rw [upd_ne, prefixRow_fold i hi k num]
      · by_cases h2 : a = i ∧ j < k
        · rw [if_pos h2, if_pos ⟨h2.1, by omega⟩]
        · rw [if_neg h2, if_neg (by omega)]
      · intro h3
        injection h3 with h4 h5
        exact h ⟨h4, h5⟩

theorem prefix_fold {N : Nat} (num : Nat × Nat → Nat) : ∀ (k : Nat) (a j : Nat), j < N →
    ((List.range' 1 k).foldl (prefixRow N) num) (a, j) =
      if a ≤ k then csum (fun s => num (s, j)) (a + 1) else num (a, j)
  | 0, a, j, hj => by
    by_cases h : a ≤ 0
    · have : a = 0 := by omega
      subst this
      rw [if_pos h]
      show num (0, j) = 0 + num (0, j)
      omega
    · rw [if_neg h]; rfl
  | k + 1, a, j, hj => by
    rw [List.range'_concat, List.foldl_append]
    show (prefixRow N ((List.range' 1 k).foldl (prefixRow N) num) (1 + 1 * k)) (a, j) = _
    rw [show ∀ num' : Nat × Nat → Nat, prefixRow N num' (1 + 1 * k) (a, j) = _ from
      fun num' => prefixRow_fold (1 + 1 * k) (by omega) N num' a j]
    by_cases h : a = 1 + 1 * k ∧ j < N
    · rw [if_pos h, prefix_fold num k _ j hj, prefix_fold num k _ j hj, if_neg (by omega), if_pos (by omega), if_pos (by omega), h.1]
      have h1 : 1 + 1 * k - 1 + 1 = 1 + 1 * k := by omega
      rw [h1]
      show _ = csum (fun s => num (s, j)) (1 + 1 * k) + num (1 + 1 * k, j)
      omega
    · rw [if_neg h, prefix_fold num k a j hj]
      by_cases h2 : a ≤ k
      · rw [if_pos h2, if_pos (by omega)]
      · rw [if_neg h2, if_neg (by omega)]

theorem colPrefixSums_eq {T N : Nat} (num : Nat × Nat → Nat) {t pe : Nat} (ht : t < T) (hpe : pe < N) :
    colPrefixSums T N num (t, pe) = csum (fun s => num (s, pe)) (t + 1) := by
  unfold colPrefixSums
  rw [prefix_fold num _ t pe hpe, if_pos (by omega)]

theorem fill_ok {T N : Nat} (size : Nat → Nat) (lo : Nat → Nat → Nat) : ∀ (F : List (Nat × Nat × μ)) (s : Fill μ),
    (∀ x, x ∈ F → x.1 < T ∧ x.2.1 < N) →
    (∀ t pe, t < T → pe < N → s.num (t, pe) = lo t pe + (sel F t pe).length) →
    (∀ t pe, t < T → pe < N → s.num (t, pe) ≤ size pe) →
    (∀ t t' pe, t < t' → t' < T → pe < N → s.num (t, pe) ≤ lo t' pe) →
    ∃ s', F.foldlM (fillItem? T N size) s = some s' ∧
      (∀ t pe j, t < T → pe < N → j < (sel F t pe).length →
        s'.buf (pe, lo t pe + j) = (sel F t pe).reverse[j]?) ∧
      (∀ pe i, (∀ t, t < T → ¬ (lo t pe ≤ i ∧ i < s.num (t, pe))) → s'.buf (pe, i) = s.buf (pe, i))
  | [], s, _, _, _, _ => ⟨s, rfl, fun _ _ _ _ _ h => absurd h (Nat.not_lt_zero _), fun _ _ _ => rfl⟩
  | x :: F, s, hb, hn, hs, hd => by
    obtain ⟨t0, pe0, m⟩ := x
    obtain ⟨ht0, hpe0⟩ := hb _ List.mem_cons_self
    simp only at ht0 hpe0
    have hn0 := hn t0 pe0 ht0 hpe0
    have hs0 := hs t0 pe0 ht0 hpe0
    rw [sel_cons, if_pos ⟨rfl, rfl⟩, List.length_cons] at hn0
    have hnum : ∀ t pe, (t, pe) ≠ (t0, pe0) → upd s.num (t0, pe0) (s.num (t0, pe0) - 1) (t, pe) = s.num (t, pe) :=
      fun t pe h => upd_ne _ _ h
    have hsel : ∀ t pe, (t, pe) ≠ (t0, pe0) → sel ((t0, pe0, m) :: F) t pe = sel F t pe := by
      intro t pe h
      rw [sel_cons, if_neg]
      rintro ⟨h1, h2⟩
      exact h (Prod.ext h1.symm h2.symm)
    have hle : ∀ t pe, upd s.num (t0, pe0) (s.num (t0, pe0) - 1) (t, pe) ≤ s.num (t, pe) := by
      intro t pe
      by_cases h : (t, pe) = (t0, pe0)
      · rw [h, upd_same]; exact Nat.sub_le _ _
      · rw [hnum t pe h]
    obtain ⟨s', h1, h2, h3⟩ := fill_ok size lo F
      { num := upd s.num (t0, pe0) (s.num (t0, pe0) - 1), buf := upd s.buf (pe0, s.num (t0, pe0) - 1) (some m) }
      (fun y hy => hb y (List.mem_cons_of_mem _ hy))
      (by
        intro t pe ht hpe
        show upd s.num _ _ (t, pe) = _
        by_cases h : (t, pe) = (t0, pe0)
        · injection h with h4 h5
          subst h4 h5
          rw [upd_same]; omega
        · rw [hnum t pe h, hn t pe ht hpe, hsel t pe h])
      (fun t pe ht hpe => Nat.le_trans (hle t pe) (hs t pe ht hpe))
      (fun t t' pe h ht' hpe => Nat.le_trans (hle t pe) (hd t t' pe h ht' hpe))
    refine ⟨s', ?_, ?_, ?_⟩
    · rw [List.foldlM_cons]
      show (fillItem? T N size s (t0, pe0, m)).bind _ = _
      unfold fillItem?
      rw [if_pos ⟨ht0, hpe0, by show 0 < s.num (t0, pe0); omega, by show s.num (t0, pe0) - 1 < size pe0; omega⟩, Option.bind_some]
      exact h1
    · intro t pe j ht hpe hj
      by_cases h : (t, pe) = (t0, pe0)
      · injection h with h4 h5
        subst h4 h5
        rw [sel_cons, if_pos ⟨rfl, rfl⟩] at hj ⊢
        rw [List.length_cons] at hj
        rw [List.reverse_cons]
        rcases Nat.lt_or_ge j (sel F t pe).length with hj2 | hj2
        · rw [h2 t pe j ht hpe hj2, List.getElem?_append_left (by rw [List.length_reverse]; exact hj2)]
        · have hj3 : j = (sel F t pe).length := by omega
          rw [h3 pe (lo t pe + j)]
          · show upd s.buf _ _ (pe, lo t pe + j) = _
            have h6 : (pe, lo t pe + j) = (pe, s.num (t, pe) - 1) := by rw [hn0, hj3]; rfl
            rw [h6, upd_same, List.getElem?_append_right (by rw [List.length_reverse]; omega), List.length_reverse, hj3,
              Nat.sub_self]
            rfl
          · intro t' ht' hc
            obtain ⟨hc1, hc2⟩ := hc
            rcases Nat.lt_trichotomy t' t with h6 | h6 | h6
            · have h7 := hd t' t pe h6 ht hpe
              have h8 := hle t' pe
              exact absurd (Nat.lt_of_lt_of_le hc2 (Nat.le_trans h8 h7)) (by omega)
            · subst h6
              have h9 : (upd s.num (t', pe) (s.num (t', pe) - 1)) (t', pe) = s.num (t', pe) - 1 := upd_same ..
              change lo t' pe + j < (upd s.num (t', pe) (s.num (t', pe) - 1)) (t', pe) at hc2
              omega
            · have h7 := hd t t' pe h6 ht' hpe
              omega
      · rw [hsel t pe h] at hj ⊢
        exact h2 t pe j ht hpe hj
    · intro pe i hi
      rw [h3 pe i]
      · show upd s.buf _ _ (pe, i) = _
        rw [upd_ne]
        intro h
        injection h with h4 h5
        subst h4
        exact hi t0 ht0 ⟨by omega, by omega⟩
      · intro t ht hc
        exact hi t ht ⟨hc.1, Nat.lt_of_lt_of_le hc.2 (hle t pe)⟩

theorem mapM_range' {f : Nat → Option μ} : ∀ (l : List μ) (a : Nat), (∀ j, j < l.length → f (a + j) = l[j]?) →
    (List.range' a l.length).mapM f = some l
  | [], _, _ => rfl
  | x :: l, a, h => by
    have h0 := h 0 (by simp)
    have h1 := mapM_range' (f := f) l (a + 1) fun j hj => by
      have := h (j + 1) (by simpa using hj)
      rw [show a + (j + 1) = a + 1 + j by omega] at this
      rw [this]; rfl
    rw [List.length_cons, List.range'_succ, List.mapM_cons]
    rw [Nat.add_zero] at h0
    rw [h0]
    show ((List.range' (a + 1) l.length).mapM f).bind _ = _
    rw [h1]
    rfl

theorem read_ok {f : Nat → Option μ} (M : Nat → List μ) (T : Nat)
    (h : ∀ t j, t < T → j < (M t).length → f (csum (fun s => (M s).length) t + j) = (M t)[j]?) : ∀ k, k ≤ T →
    (List.range' 0 (csum (fun s => (M s).length) k)).mapM f = some ((List.range k).flatMap M)
  | 0, _ => rfl
  | k + 1, hk => by
    have h1 := read_ok M T h k (by omega)
    have h2 := mapM_range' (f := f) (M k) (csum (fun s => (M s).length) k) fun j hj => h k j (by omega) hj
    show (List.range' 0 (csum (fun s => (M s).length) k + (M k).length)).mapM f = _
    rw [← List.range'_append_1, List.mapM_append, List.range_succ, List.flatMap_append, Nat.zero_add]
    rw [h1]
    show ((List.range' (csum (fun s => (M s).length) k) (M k).length).mapM f).bind _ = _
    rw [h2]
    simp

/-- The messages for process `pe` that the iterations `us` create. -/
def msgsTo (items : Nat → List (Nat × μ)) (pe : Nat) (us : List Nat) : List μ :=
  us.flatMap fun u => (items u).filterMap fun it => if it.1 = pe then some it.2 else none

/-- All messages in the order of an execution. -/
def flat (items : Nat → List (Nat × μ)) (ev : List (Nat × Nat)) : List (Nat × Nat × μ) :=
  ev.flatMap fun e => (items e.2).map fun it => (e.1, it)

theorem sel_map_items (l : List (Nat × μ)) (t0 t pe : Nat) :
    sel (l.map fun it => (t0, it)) t pe = if t0 = t then l.filterMap (fun it => if it.1 = pe then some it.2 else none) else [] := by
  unfold sel
  rw [List.filterMap_map]
  by_cases h : t0 = t
  · subst h
    rw [if_pos rfl]
    congr 1
    funext it
    simp
  · rw [if_neg h, List.filterMap_eq_nil_iff]
    intro it _
    show (if t0 = t ∧ it.1 = pe then some it.2 else none) = none
    rw [if_neg fun h2 => h h2.1]

theorem sel_flat (items : Nat → List (Nat × μ)) (t pe : Nat) : ∀ ev : List (Nat × Nat),
    sel (flat items ev) t pe = msgsTo items pe ((ev.filter fun e => e.1 == t).map (·.2))
  | [] => rfl
  | e :: ev => by
    have h1 : sel (flat items (e :: ev)) t pe =
        sel ((items e.2).map fun it => (e.1, it)) t pe ++ sel (flat items ev) t pe := by
      unfold sel flat
      rw [List.flatMap_cons, List.filterMap_append]
    rw [h1, sel_map_items, sel_flat items t pe ev, List.filter_cons]
    by_cases h : e.1 = t
    · rw [if_pos h, if_pos (by simpa using h), List.map_cons]
      unfold msgsTo
      rw [List.flatMap_cons]
    · rw [if_neg h, if_neg (by simpa using h), List.nil_append]

theorem foldlM_flat {σ : Type} {items? : Nat → Option (List (Nat × μ))} {items : Nat → List (Nat × μ)}
    (f : σ → Nat × Nat × μ → Option σ) : ∀ (ev : List (Nat × Nat)) (s : σ), (∀ e, e ∈ ev → items? e.2 = some (items e.2)) →
    ev.foldlM (fun s e => (items? e.2).bind fun its => (its.map fun it => (e.1, it)).foldlM f s) s = (flat items ev).foldlM f s
  | [], _, _ => rfl
  | e :: ev, s, h => by
    have he := h e List.mem_cons_self
    unfold flat
    rw [List.foldlM_cons, List.flatMap_cons, List.foldlM_append, he, Option.bind_some]
    congr 1
    funext s'
    exact foldlM_flat f ev s' fun y hy => h y (List.mem_cons_of_mem _ hy)

theorem filter_tag {f : Nat → Option (Nat × Nat × Nat)} (hf : ∀ x y, f x = some y → y.2.2 = x) (t : Nat) : ∀ p : Nat,
    ((List.range p).filterMap f).filter (fun c => c.2.2 == t) = if t < p then (f t).toList else []
  | 0 => by rw [if_neg (Nat.not_lt_zero _)]; rfl
  | p + 1 => by
    rw [List.range_succ, List.filterMap_append, List.filter_append, filter_tag hf t p]
    have h1 : ([p].filterMap f).filter (fun c => c.2.2 == t) = if p = t then (f t).toList else [] := by
      cases hp : f p with
      | none => by_cases h : p = t
                · subst h; simp [hp]
                · simp [hp, h]
      | some y =>
        have := hf p y hp
        by_cases h : p = t
        · subst h; simp [hp, this]
        · simp [hp, this, h]
    rw [h1]
    by_cases h2 : t < p
    · rw [if_pos h2, if_neg (by omega : ¬ p = t), if_pos (by omega), List.append_nil]
    · by_cases h3 : p = t
      · rw [if_neg h2, if_pos h3, if_pos (by omega : t < p + 1), List.nil_append]
      · rw [if_neg h2, if_neg h3, if_neg (by omega), List.nil_append]

theorem iterations_perm (T fr ub : Nat) (hT : 0 < T) :
    ((List.range T).flatMap (threadIterations T fr ub)).Perm (List.range' fr (ub - fr)) := by
  have h := Verif.Math.Props.C01_deterministic_for_visits_each_once T fr ub hT _ (List.Perm.refl _)
  refine List.Perm.trans (List.Perm.of_eq ?_) h
  let f := fun cpu => (localRange? (ub - fr) (min T (ub - fr)) cpu).map fun r => (fr + r.1, fr + r.2, cpu)
  have hf : ∀ x y, f x = some y → y.2.2 = x := by
    intro x y hxy
    obtain ⟨r, _, rfl⟩ := Option.map_eq_some_iff.1 hxy
    rfl
  have hcalls : deterministicForCalls T fr ub = (List.range (min T (ub - fr))).filterMap f := rfl
  have hit : ∀ t, threadIterations T fr ub t =
      if t < min T (ub - fr) then (f t).toList.flatMap (fun c => List.range' c.1 (c.2.1 - c.1)) else [] := by
    intro t
    unfold threadIterations
    rw [hcalls, filter_tag hf]
    by_cases h : t < min T (ub - fr)
    · rw [if_pos h, if_pos h]
    · rw [if_neg h, if_neg h]; rfl
  have main : ∀ k p : Nat, p ≤ k → (List.range k).flatMap (fun t =>
      if t < p then (f t).toList.flatMap (fun c => List.range' c.1 (c.2.1 - c.1)) else []) =
      ((List.range p).filterMap f).flatMap (fun c => List.range' c.1 (c.2.1 - c.1)) := by
    intro k
    induction k with
    | zero => intro p hp; have : p = 0 := by omega
              subst this; rfl
    | succ k ih =>
      intro p hp
      rw [List.range_succ, List.flatMap_append]
      rcases Nat.lt_or_ge k p with h1 | h1
      · have h2 : p = k + 1 := by omega
        subst h2
        rw [List.range_succ, List.filterMap_append, List.flatMap_append, ← ih k (Nat.le_refl _)]
        congr 1
        · unfold List.flatMap
          congr 1
          apply List.map_congr_left
          intro t ht
          have := List.mem_range.1 ht
          rw [if_pos this, if_pos (by omega)]
        · rw [List.flatMap_singleton, if_pos (by omega)]
          cases hk : f k <;> simp [hk]
      · rw [ih p h1, List.flatMap_singleton, if_neg (by omega), List.append_nil]
  have h3 : (List.range T).flatMap (threadIterations T fr ub) = (List.range T).flatMap (fun t =>
      if t < min T (ub - fr) then (f t).toList.flatMap (fun c => List.range' c.1 (c.2.1 - c.1)) else []) := by
    congr 1
    funext t
    exact hit t
  rw [h3, main T _ (Nat.min_le_left _ _), hcalls]
  rfl

theorem threadIterations_lt {T fr ub t i : Nat} (hT : 0 < T) (h : i ∈ threadIterations T fr ub t) : t < T ∧ fr ≤ i ∧ i < ub := by
  have ht : t < T := by
    unfold threadIterations at h
    obtain ⟨c, hc, _⟩ := List.mem_flatMap.1 h
    rw [List.mem_filter] at hc
    obtain ⟨hc1, hc2⟩ := hc
    unfold deterministicForCalls at hc1
    obtain ⟨cpu, hcpu, hr⟩ := List.mem_filterMap.1 hc1
    obtain ⟨r, _, rfl⟩ := Option.map_eq_some_iff.1 hr
    have h1 : cpu = t := by simpa using hc2
    have h2 := List.mem_range.1 hcpu
    omega
  have h1 : i ∈ List.range' fr (ub - fr) :=
    (iterations_perm T fr ub hT).mem_iff.1 (List.mem_flatMap.2 ⟨t, List.mem_range.2 ht, h⟩)
  rw [List.mem_range'_1] at h1
  exact ⟨ht, by omega, by omega⟩

theorem msgsTo_flatMap {α : Type} (items : Nat → List (Nat × μ)) (pe : Nat) (f : α → List Nat) (l : List α) :
    msgsTo items pe (l.flatMap f) = l.flatMap fun x => msgsTo items pe (f x) := by
  unfold msgsTo
  rw [List.flatMap_assoc]

theorem Schedule.mem {T fr ub : Nat} {ev : List (Nat × Nat)} (hT : 0 < T) (h : Schedule T fr ub ev) {e : Nat × Nat} (he : e ∈ ev) :
    e.1 < T ∧ fr ≤ e.2 ∧ e.2 < ub := by
  have h1 : e.2 ∈ threadIterations T fr ub e.1 := by
    rw [← h e.1]
    exact List.mem_map.2 ⟨e, List.mem_filter.2 ⟨he, by simp⟩, rfl⟩
  exact threadIterations_lt hT h1

/-- The send buffers: for each process the messages of the threads in their order, those of one thread in reverse order. -/
theorem sendBuffers_eq {T N fr ub : Nat} (hT : 0 < T) {items? : Nat → Option (List (Nat × μ))} {items : Nat → List (Nat × μ)}
    (hi : ∀ i, fr ≤ i → i < ub → items? i = some (items i)) (hd : ∀ i, fr ≤ i → i < ub → ∀ x, x ∈ items i → x.1 < N)
    {count fill : List (Nat × Nat)} (hc : Schedule T fr ub count) (hf : Schedule T fr ub fill) :
    sendBuffers? T N items? count fill = some ((List.range N).map fun pe =>
      (List.range T).flatMap fun t => (msgsTo items pe (threadIterations T fr ub t)).reverse) := by
  have hb : ∀ ev, Schedule T fr ub ev → ∀ x, x ∈ flat items ev → x.1 < T ∧ x.2.1 < N := by
    intro ev hev x hx
    obtain ⟨e, he, hx⟩ := List.mem_flatMap.1 hx
    obtain ⟨it, hit, rfl⟩ := List.mem_map.1 hx
    obtain ⟨h1, h2, h3⟩ := hev.mem hT he
    exact ⟨h1, hd e.2 h2 h3 it hit⟩
  have hsel : ∀ ev, Schedule T fr ub ev → ∀ t pe, sel (flat items ev) t pe = msgsTo items pe (threadIterations T fr ub t) := by
    intro ev hev t pe
    rw [sel_flat, hev t]
  obtain ⟨num, hnum, hnum2⟩ := count_ok (flat items count) (fun _ => 0) (hb count hc)
  have hcount : count.foldlM (countStep? T N items?) (fun _ => 0) = some num :=
    (foldlM_flat (countItem? T N) count _ fun e he => hi e.2 (hc.mem hT he).2.1 (hc.mem hT he).2.2).trans hnum
  let M : Nat → Nat → List μ := fun pe t => (msgsTo items pe (threadIterations T fr ub t)).reverse
  have hM : ∀ ev, Schedule T fr ub ev → ∀ t pe, (sel (flat items ev) t pe).length = (M pe t).length := by
    intro ev hev t pe
    rw [hsel ev hev t pe]
    exact (List.length_reverse ..).symm
  have hS : ∀ t pe, t < T → pe < N → colPrefixSums T N num (t, pe) = csum (fun s => (M pe s).length) (t + 1) := by
    intro t pe ht hpe
    rw [colPrefixSums_eq num ht hpe]
    apply csum_congr
    intro s _
    rw [hnum2 s pe, hM count hc s pe, Nat.zero_add]
  obtain ⟨s, hs, hs2, _⟩ := fill_ok (fun pe => colPrefixSums T N num (T - 1, pe)) (fun t pe => csum (fun s => (M pe s).length) t)
    (flat items fill) ⟨colPrefixSums T N num, fun _ => none⟩ (hb fill hf)
    (by intro t pe ht hpe
        show colPrefixSums T N num (t, pe) = _
        rw [hS t pe ht hpe, hM fill hf t pe]; rfl)
    (by intro t pe ht hpe
        show colPrefixSums T N num (t, pe) ≤ colPrefixSums T N num (T - 1, pe)
        rw [hS t pe ht hpe, hS (T - 1) pe (by omega) hpe]
        exact csum_mono _ (by omega))
    (by intro t t' pe h ht' hpe
        show colPrefixSums T N num (t, pe) ≤ _
        rw [hS t pe (by omega) hpe]
        exact csum_mono _ h)
  have hfill : fill.foldlM (fillStep? T N (fun pe => colPrefixSums T N num (T - 1, pe)) items?)
      ⟨colPrefixSums T N num, fun _ => none⟩ = some s :=
    (foldlM_flat (fillItem? T N _) fill _ fun e he => hi e.2 (hf.mem hT he).2.1 (hf.mem hT he).2.2).trans hs
  unfold sendBuffers?
  rw [if_neg (by omega), hcount, Option.bind_some]
  unfold fillBuffers?
  rw [hfill]
  show (List.range N).mapM _ = _
  have hread : ∀ pe, pe < N → (List.range' 0 (colPrefixSums T N num (T - 1, pe))).mapM (fun i => s.buf (pe, i)) =
      some ((List.range T).flatMap (M pe)) := by
    intro pe hpe
    rw [hS (T - 1) pe (by omega) hpe, show T - 1 + 1 = T by omega]
    refine read_ok (M pe) T (fun t j ht hj => ?_) T (Nat.le_refl _)
    rw [hs2 t pe j ht hpe (by rw [hM fill hf t pe]; exact hj), hsel fill hf t pe]
  have hmap : ∀ l : List Nat, (∀ pe, pe ∈ l → pe < N) → l.mapM (fun pe =>
      (List.range' 0 (colPrefixSums T N num (T - 1, pe))).mapM (fun i => s.buf (pe, i))) =
      some (l.map fun pe => (List.range T).flatMap (M pe)) := by
    intro l
    induction l with
    | nil => intro _; rfl
    | cons pe l ih =>
      intro h
      rw [List.mapM_cons, hread pe (h pe List.mem_cons_self)]
      show Option.bind (l.mapM _) _ = _
      rw [ih fun y hy => h y (List.mem_cons_of_mem _ hy)]
      rfl
  exact hmap _ fun pe hpe => List.mem_range.1 hpe

theorem sendBuffers_perm (items : Nat → List (Nat × μ)) {T fr ub : Nat} (hT : 0 < T) (pe : Nat) :
    ((List.range T).flatMap fun t => (msgsTo items pe (threadIterations T fr ub t)).reverse).Perm
      (msgsTo items pe (List.range' fr (ub - fr))) := by
  have h1 : ((List.range T).flatMap fun t => (msgsTo items pe (threadIterations T fr ub t)).reverse).Perm
      ((List.range T).flatMap fun t => msgsTo items pe (threadIterations T fr ub t)) :=
    List.Perm.flatMap_left _ fun t _ => List.reverse_perm _
  refine h1.trans ?_
  rw [← msgsTo_flatMap]
  exact (iterations_perm T fr ub hT).flatMap_right _

end Verif.Dist

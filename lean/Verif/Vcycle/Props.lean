import Verif.Vcycle.Lemmas

/-!
# C84: v-cycles of the deep multilevel partitioner
-/

namespace Verif.Vcycle
open Verif.Math Verif.Blocks Verif.Subgraph

theorem level_exists {c : Nat} (h : 0 < c) : ∃ l, 2 ^ l ≤ c ∧ c < 2 ^ (l + 1) :=
  ⟨Nat.log2 c, (Nat.log2_eq_iff (by omega)).1 rfl⟩

theorem Aligned.counts {c next l : Nat} (h : Aligned c next) (h1 : 2 ^ l ≤ c) (h2 : c < 2 ^ (l + 1)) :
    next < 2 ^ (l + 1) → ∀ j, j < c - 2 ^ l → treeLabel next l j = 2 := by
  obtain ⟨m, h⟩ := h
  have hm : m = l := by
    have key : ∀ a b : Nat, 2 ^ a ≤ c → c < 2 ^ (b + 1) → a ≤ b := by
      intro a b g1 g2
      have := (Nat.pow_lt_pow_iff_right (a := 2) (by decide)).1 (Nat.lt_of_le_of_lt g1 g2)
      omega
    rcases h with h | ⟨g1, g2, _⟩
    · have : 2 ^ m < 2 ^ (m + 1) := by rw [Nat.pow_succ]; have := Nat.two_pow_pos m; omega
      exact Nat.le_antisymm (key m l (by omega) h2) (key l m h1 (by omega))
    · exact Nat.le_antisymm (key m l (by omega) h2) (key l m h1 g2)
  subst hm
  intro hn j hj
  rcases h with h | ⟨_, _, h⟩ <;> omega

/-- The limits of a v-cycle, as long as no entry beyond the end is read; `F` is the sum in the type of the accumulator. -/
theorem limits_of {wide : Bool} {c l : Nat} {limits next : List Int} {F : List Int → Int} (h1 : 2 ^ l ≤ c) (h2 : c < 2 ^ (l + 1)) (h3 : c ≤ next.length)
    (hk : next.length < 2 ^ 31) (hc : c ≠ limits.length)
    (hg : next.length < 2 ^ (l + 1) → ∀ j, j < c - 2 ^ l → treeLabel next.length l j = 2)
    (hF : ∀ b, b < c → accumulate? wide 0 (part next (counts c next.length l) b) = some (F (part next (counts c next.length l) b))) :
    ∃ parts : List (List Int), parts.flatten = next ∧ parts.length = c ∧ (∀ p, p ∈ parts → p ≠ []) ∧
      maxBlockWeights? wide c limits next = some (parts.map F) := by
  have hpos := Nat.two_pow_pos l
  have ht := (counts_total h1 h2 h3).2.2 hg
  refine ⟨(List.range c).map (part next (counts c next.length l)), ?_, by rw [List.length_map, List.length_range], ?_, ?_⟩
  · rw [parts_flatten, ht, List.take_length]
  · intro p hp
    obtain ⟨b, hb, rfl⟩ := List.mem_map.1 hp
    rw [List.mem_range] at hb
    have hb1 := counts_pos h1 h2 h3 hb
    have hmono : ∀ d, sumTo (counts c next.length l) (b + 1) ≤ sumTo (counts c next.length l) (b + 1 + d) := by
      intro d
      induction d with
      | zero => exact Nat.le_refl _
      | succ d ih => exact Nat.le_trans ih (Nat.le_add_right _ _)
    have h := hmono (c - (b + 1))
    rw [show b + 1 + (c - (b + 1)) = c by omega, ht] at h
    have h : sumTo (counts c next.length l) b + counts c next.length l b ≤ next.length := h
    intro he
    have := congrArg List.length he
    unfold part at this
    rw [List.length_take, List.length_drop, List.length_nil] at this
    omega
  · unfold maxBlockWeights?
    rw [floorLog2_eq (by omega) (by have : (2 : Nat) ^ 31 < 2 ^ 32 := by decide
                                    omega), Option.bind_some, if_neg hc,
      limit_fold (n := counts c next.length l) (F := F) (fun b hb => subBlocks_eq h1 h2 h3 hk hb) hF (by omega) c (Nat.le_refl _), Option.map_some, List.map_map]
    rfl

theorem sum_flatten : ∀ parts : List (List Int), parts.flatten.sum = (parts.map List.sum).sum
  | [] => rfl
  | p :: ps => by rw [List.flatten_cons, List.sum_append, sum_flatten ps, List.map_cons, List.sum_cons]

theorem Groups.sum {a b : List Int} (h : Groups a b) : a.sum = b.sum := by
  obtain ⟨ps, rfl, rfl, _⟩ := h
  exact (sum_flatten ps).symm

theorem Groups.nonneg {a b : List Int} (h : Groups a b) (hb : ∀ x, x ∈ b → 0 ≤ x) : ∀ x, x ∈ a → 0 ≤ x := by
  obtain ⟨ps, rfl, rfl, _⟩ := h
  intro x hx
  obtain ⟨p, hp, rfl⟩ := List.mem_map.1 hx
  exact List.sum_nonneg fun y hy => hb y (List.mem_flatten.2 ⟨p, hp, hy⟩)

theorem Groups.refl (a : List Int) : Groups a a :=
  ⟨a.map fun x => [x], by induction a with
    | nil => rfl
    | cons x xs ih => rw [List.map_cons, List.flatten_cons, ih]; rfl,
   by rw [List.map_map]; symm; exact (List.map_congr_left (fun x _ => by simp)).trans (List.map_id a),
   fun p hp => by obtain ⟨x, _, rfl⟩ := List.mem_map.1 hp; exact List.cons_ne_nil _ _⟩

theorem part_small {next : List Int} {n : Nat → Nat} {b : Nat} (h0 : ∀ x, x ∈ next → 0 ≤ x) :
    (∀ x, x ∈ part next n b → 0 ≤ x) ∧ (part next n b).sum ≤ next.sum := by
  have hsub : ∀ x, x ∈ part next n b → 0 ≤ x := fun x hx => h0 x (List.mem_of_mem_drop (List.mem_of_mem_take hx))
  refine ⟨hsub, ?_⟩
  have e : next = next.take (sumTo n b) ++ (part next n b ++ (next.drop (sumTo n b)).drop (n b)) := by
    unfold part
    rw [List.take_append_drop, List.take_append_drop]
  have a1 : 0 ≤ (next.take (sumTo n b)).sum := List.sum_nonneg fun x hx => h0 x (List.mem_of_mem_take hx)
  have a2 : 0 ≤ ((next.drop (sumTo n b)).drop (n b)).sum := List.sum_nonneg fun x hx => h0 x (List.mem_of_mem_drop (List.mem_of_mem_drop hx))
  have := congrArg List.sum e
  rw [List.sum_append, List.sum_append] at this
  omega

/-- **C84.** If the number of blocks is a power of two, or the next v-cycle has at least as many blocks as the next power of two, and the total
limit fits an `int`, then each limit is the sum of the limits of some consecutive blocks of the next v-cycle, each of which is counted once.
(Partial: for other numbers of blocks, entries beyond the end are read, `C84_reads_beyond`; for larger limits, they are truncated,
`C84_truncated`.) -/
theorem C84_limits_partial {wide : Bool} {c : Nat} {limits next : List Int} (hpos : 0 < c) (ha : Aligned c next.length) (h3 : c ≤ next.length)
    (hk : next.length < 2 ^ 31) (hc : c ≠ limits.length) (h0 : ∀ x, x ∈ next → 0 ≤ x) (hs : next.sum < 2 ^ 31) :
    ∃ out, maxBlockWeights? wide c limits next = some out ∧ out.length = c ∧ Groups out next := by
  obtain ⟨l, h1, h2⟩ := level_exists hpos
  obtain ⟨ps, a1, a2, a3, a4⟩ := limits_of (wide := wide) (limits := limits) (F := List.sum) h1 h2 h3 hk hc (ha.counts h1 h2) fun b _ => by
    obtain ⟨g1, g2⟩ := part_small (n := counts c next.length l) (b := b) h0
    rw [accumulate_small wide _ 0 (Int.le_refl _) g1 (by omega), Int.zero_add]
  exact ⟨_, a4, by rw [List.length_map, a2], ps, a1, rfl, a3⟩

/-- Three blocks before eight: the third block gets four of them. -/
example : Aligned 3 8 ∧ maxBlockWeights? false 3 [1, 1, 1, 1, 1, 1, 1, 1, 1] [1, 2, 3, 4, 5, 6, 7, 8] = some [3, 7, 26] :=
  ⟨⟨1, Or.inr (by decide)⟩, by decide +kernel⟩

/-- **C84.** Exactly when the limits are defined (with 64-bit weights, where sums cannot overflow): the number of blocks is a power of two, or
the next v-cycle has at least as many blocks as the next power of two, or each block that is taken as split has two blocks in the next v-cycle. -/
theorem C84_defined_iff {c l : Nat} {limits next : List Int} (h1 : 2 ^ l ≤ c) (h2 : c < 2 ^ (l + 1)) (h3 : c ≤ next.length) (hk : next.length < 2 ^ 31)
    (hc : c ≠ limits.length) :
    (maxBlockWeights? true c limits next).isSome = true ↔
      c = 2 ^ l ∨ 2 ^ (l + 1) ≤ next.length ∨ ∀ j, j < c - 2 ^ l → treeLabel next.length l j = 2 := by
  have hpos := Nat.two_pow_pos l
  constructor
  · intro h
    obtain ⟨out, ho⟩ := Option.isSome_iff_exists.1 h
    unfold maxBlockWeights? at ho
    rw [floorLog2_eq (by omega) (by have : (2 : Nat) ^ 31 < 2 ^ 32 := by decide
                                    omega), Option.bind_some, if_neg hc] at ho
    obtain ⟨s, hs, _⟩ := Option.map_eq_some_iff.1 ho
    obtain ⟨g1, g2⟩ := limit_fold_fits (n := counts c next.length l) (fun b hb => subBlocks_eq h1 h2 h3 hk hb) c (Nat.le_refl _) s hs
    obtain ⟨t1, t2⟩ := counts_total h1 h2 h3
    by_cases hn : 2 ^ (l + 1) ≤ next.length
    · exact Or.inr (Or.inl hn)
    · exact Or.inr (Or.inr (t2.1 (by omega) (by omega)))
  · intro h
    obtain ⟨ps, _, _, _, a4⟩ := limits_of (wide := true) (limits := limits) (F := fun p => toInt32 p.sum) h1 h2 h3 hk hc
      (by rcases h with h | h | h
          · intro _ j hj; omega
          · intro _; omega
          · exact fun _ => h)
      fun b _ => by
        have := accumulate_wide (part next (counts c next.length l) b) 0
        rw [Int.zero_add] at this
        exact this
    rw [a4]
    rfl

/-- Three blocks before three or four: defined. -/
example : (maxBlockWeights? true 3 [1] [1, 2, 3]).isSome = true ∧ (maxBlockWeights? true 3 [1] [1, 2, 3, 4]).isSome = true := by decide +kernel

/-- **C84, not in general.** If a v-cycle has at least two blocks more than a power of two, and the next one has at most one and a half times the
power of two, then entries beyond the end of the limits are read: for every power of two, all such numbers of blocks and all limits. -/
theorem C84_reads_beyond {wide : Bool} {c m : Nat} {limits next : List Int} (h1 : 2 ^ (m + 1) + 2 ≤ c) (h3 : c ≤ next.length)
    (h4 : next.length ≤ 3 * 2 ^ m) (hk : next.length < 2 ^ 31) (hc : c ≠ limits.length) : maxBlockWeights? wide c limits next = none := by
  have hpos := Nat.two_pow_pos m
  have e1 : 2 ^ (m + 1) = 2 * 2 ^ m := by rw [Nat.pow_succ]; omega
  have e2 : 2 ^ (m + 1 + 1) = 4 * 2 ^ m := by rw [Nat.pow_succ, Nat.pow_succ]; omega
  have hl : treeLabel next.length (m + 1) 1 ≠ 2 := by
    rw [treeLabel_eq _ _ _ (by omega), show next.length / 2 ^ (m + 1) = 1 from Nat.div_eq_of_lt_le (by omega) (by omega), if_neg]
    · decide
    · have : next.length % 2 ^ (m + 1) = next.length - 2 ^ (m + 1) := by
        rw [Nat.mod_eq_sub_mod (by omega), Nat.mod_eq_of_lt (by omega)]
      rw [this]
      show ¬ (1 % 2) * 2 ^ m + rev m (1 / 2) < _
      omega
  cases h : maxBlockWeights? wide c limits next with
  | none => rfl
  | some out =>
    exfalso
    unfold maxBlockWeights? at h
    rw [floorLog2_eq (by omega) (by have : (2 : Nat) ^ 31 < 2 ^ 32 := by decide
                                    omega), Option.bind_some, if_neg hc] at h
    obtain ⟨s, hs, _⟩ := Option.map_eq_some_iff.1 h
    obtain ⟨g1, g2⟩ := limit_fold_fits (n := counts c next.length (m + 1)) (fun b hb => subBlocks_eq (l := m + 1) (by omega) (by omega) h3 hk hb) c (Nat.le_refl _) s hs
    obtain ⟨t1, t2⟩ := counts_total (l := m + 1) (c := c) (next := next.length) (by omega) (by omega) h3
    exact hl (t2.1 (by omega) (by omega) 1 (by omega))

/-- The v-cycles 6 and 6 for eight blocks, and 10 for twelve blocks. -/
example : vcycleLimits? false [6, 6] [1, 1, 1, 1, 1, 1, 1, 1] = none ∧ vcycleLimits? false [10] [1, 1, 1, 1, 1, 1, 1, 1, 1, 1, 1, 1] = none := by
  decide +kernel

/-- **C84.** With 64-bit weights, each limit is the sum of the limits of its blocks modulo 2^32. -/
theorem C84_wide {c : Nat} {limits next : List Int} (hpos : 0 < c) (ha : Aligned c next.length) (h3 : c ≤ next.length)
    (hk : next.length < 2 ^ 31) (hc : c ≠ limits.length) :
    ∃ parts : List (List Int), parts.flatten = next ∧ parts.length = c ∧ (∀ p, p ∈ parts → p ≠ []) ∧
      maxBlockWeights? true c limits next = some (parts.map fun p => toInt32 p.sum) := by
  obtain ⟨l, h1, h2⟩ := level_exists hpos
  exact limits_of h1 h2 h3 hk hc (ha.counts h1 h2) fun b _ => by
    have := accumulate_wide (part next (counts c next.length l) b) 0
    rw [Int.zero_add] at this
    exact this

/-- **C84, not in general.** With 64-bit weights, the limits of a v-cycle are below 2^31, whatever the limits of the next one are: if these are
larger in total, then the limits of the v-cycle do not add up to them. -/
theorem C84_truncated {c : Nat} {limits next out : List Int} (hpos : 0 < c) (ha : Aligned c next.length) (h3 : c ≤ next.length)
    (hk : next.length < 2 ^ 31) (hc : c ≠ limits.length) (hbig : 2 ^ 31 * (c : Int) ≤ next.sum) (h : maxBlockWeights? true c limits next = some out) :
    (∀ x, x ∈ out → x < 2 ^ 31) ∧ out.sum < next.sum := by
  obtain ⟨ps, _, a2, _, a4⟩ := C84_wide (limits := limits) hpos ha h3 hk hc
  rw [a4] at h
  injection h with h
  have hx : ∀ x, x ∈ out → x < 2 ^ 31 := by
    intro x hx
    rw [← h] at hx
    obtain ⟨p, _, rfl⟩ := List.mem_map.1 hx
    exact (toInt32_range _).2
  refine ⟨hx, ?_⟩
  have hl : out.length = c := by rw [← h, List.length_map, a2]
  have key : ∀ l : List Int, (∀ x, x ∈ l → x < 2 ^ 31) → l.sum ≤ (2 ^ 31 - 1) * (l.length : Int) := by
    intro l
    induction l with
    | nil => intro _; decide
    | cons y ys ih =>
      intro hy
      have h1 := hy y List.mem_cons_self
      have h2 := ih fun x hx => hy x (List.mem_cons_of_mem _ hx)
      rw [List.sum_cons, List.length_cons]
      push_cast
      omega
  have := key out hx
  rw [hl] at this
  omega

/-- Two blocks before four, whose limits are 2^31 each: both limits are 0. -/
example : maxBlockWeights? true 2 [1] [2 ^ 31, 2 ^ 31, 2 ^ 31, 2 ^ 31] = some [0, 0] := by decide +kernel

/-! ## All v-cycles -/

theorem vcycleLimits_cons (wide : Bool) (c : Nat) (steps : List Nat) (limits : List Int) :
    vcycleLimits? wide (c :: steps) limits =
      (vcycleLimits? wide steps limits).bind fun acc => (maxBlockWeights? wide c limits (acc.headD [])).map (· :: acc) := by
  unfold vcycleLimits?
  rw [List.cons_append, List.reverse_cons, List.foldlM_append]
  cases List.foldlM (fun acc c => (maxBlockWeights? wide c limits (acc.headD [])).map (· :: acc)) [] (steps ++ [limits.length]).reverse with
  | none => rfl
  | some acc =>
    show ((maxBlockWeights? wide c limits (acc.headD [])).map (· :: acc)).bind (fun s => some s) = _
    rw [Option.bind_some]
    cases maxBlockWeights? wide c limits (acc.headD []) <;> rfl

/-- **C84.** If consecutive numbers of blocks do not decrease and are aligned, the v-cycles have as many limits as they have blocks, each limit is
the sum of limits of the next v-cycle, the last limits are those of the input, and all v-cycles have the same total limit. -/
theorem C84_chain_partial {wide : Bool} {steps : List Nat} {limits : List Int} (hpos : 0 < limits.length) (hk : limits.length < 2 ^ 31)
    (h0 : ∀ x, x ∈ limits → 0 ≤ x) (hs : limits.sum < 2 ^ 31) (hsteps : (steps ++ [limits.length]).IsChain (Step limits.length)) :
    ∃ l, vcycleLimits? wide steps limits = some l ∧ l.map List.length = steps ++ [limits.length] ∧ l.IsChain Groups ∧ l.getLast? = some limits ∧
      ∀ lim, lim ∈ l → 0 < lim.length ∧ lim.sum = limits.sum ∧ ∀ x, x ∈ lim → 0 ≤ x := by
  have strong : ∃ l, vcycleLimits? wide steps limits = some l ∧ l.map List.length = steps ++ [limits.length] ∧ l.IsChain Groups ∧
      l.getLast? = some limits ∧ (∀ lim, lim ∈ l → (0 < lim.length ∧ lim.sum = limits.sum ∧ ∀ x, x ∈ lim → 0 ≤ x) ∧ lim.length ≤ limits.length ∧
        (lim.length = limits.length → lim = limits)) := by
    induction steps with
    | nil =>
      refine ⟨[limits], ?_, rfl, List.IsChain.singleton _, rfl, ?_⟩
      · show ((maxBlockWeights? wide limits.length limits []).map (· :: [])) >>= (fun s => some s) = _
        unfold maxBlockWeights?
        rw [floorLog2_eq (by omega) (by have : (2 : Nat) ^ 31 < 2 ^ 32 := by decide
                                        omega), Option.bind_some, if_pos rfl]
        rfl
      · intro lim hl
        rw [List.mem_singleton] at hl
        subst hl
        exact ⟨⟨hpos, rfl, h0⟩, Nat.le_refl _, fun _ => rfl⟩
    | cons c steps ih =>
      obtain ⟨l, i1, i2, i3, i4, i5⟩ := ih (by rw [List.cons_append] at hsteps; exact List.IsChain.of_cons hsteps)
      cases l with
      | nil => cases i4
      | cons n rest =>
        have hstep : Step limits.length c n.length := by
          have : steps ++ [limits.length] = n.length :: rest.map List.length := i2.symm
          rw [List.cons_append, this] at hsteps
          exact (List.isChain_cons_cons.1 hsteps).1
        obtain ⟨s1, s2, s3⟩ := hstep
        obtain ⟨⟨_, n1, n2⟩, n3, n4⟩ := i5 n List.mem_cons_self
        have main : ∃ out, maxBlockWeights? wide c limits n = some out ∧ out.length = c ∧ Groups out n ∧ (c = limits.length → out = limits) := by
          by_cases hc : c = limits.length
          · refine ⟨limits, ?_, hc.symm, ?_, fun _ => rfl⟩
            · unfold maxBlockWeights?
              rw [floorLog2_eq (by omega) (by have : (2 : Nat) ^ 31 < 2 ^ 32 := by decide
                                              omega), Option.bind_some, if_pos hc]
            · rw [n4 (by omega)]
              exact Groups.refl _
          · obtain ⟨out, o1, o2, o3⟩ := C84_limits_partial (wide := wide) (limits := limits) (next := n) s1 (s3.resolve_left hc) s2 (by omega) hc n2 (by omega)
            exact ⟨out, o1, o2, o3, fun h => absurd h hc⟩
        obtain ⟨out, o1, o2, o3, o4⟩ := main
        refine ⟨out :: n :: rest, ?_, ?_, List.isChain_cons_cons.2 ⟨o3, i3⟩, ?_, ?_⟩
        · rw [vcycleLimits_cons, i1, Option.bind_some]
          show (maxBlockWeights? wide c limits n).map _ = _
          rw [o1]
          rfl
        · rw [List.map_cons, i2, o2]
          rfl
        · rw [List.getLast?_cons_cons, i4]
        · intro lim hl
          rcases List.mem_cons.1 hl with rfl | hl
          · exact ⟨⟨by omega, by rw [o3.sum, n1], o3.nonneg n2⟩, by omega, fun h => o4 (by omega)⟩
          · exact i5 lim hl
  obtain ⟨l, a1, a2, a3, a4, a5⟩ := strong
  exact ⟨l, a1, a2, a3, a4, fun lim hl => (a5 lim hl).1⟩

/-- The v-cycles 2, 3 and 4 before nine blocks. -/
example : ([2, 3, 4] ++ [9]).IsChain (Step 9) ∧ vcycleLimits? false [2, 3, 4] [1, 2, 3, 4, 5, 6, 7, 8, 9] =
    some [[15, 30], [6, 9, 30], [6, 9, 13, 17], [1, 2, 3, 4, 5, 6, 7, 8, 9]] := by
  refine ⟨?_, by decide +kernel⟩
  exact List.isChain_cons_cons.2 ⟨⟨by decide, by decide, Or.inr ⟨1, by decide⟩⟩, List.isChain_cons_cons.2
    ⟨⟨by decide, by decide, Or.inr ⟨1, by decide⟩⟩, List.isChain_cons_cons.2 ⟨⟨by decide, by decide, Or.inr ⟨2, by decide⟩⟩, List.IsChain.singleton _⟩⟩⟩

theorem vcycle_loop {deep : DeepFn} {n : Nat} {R : List Int → List Nat → Prop} {V : List Int → Prop}
    (hdeep : ∀ lim comm, V lim → Communities n lim comm → ∃ p, deep lim comm = some p ∧ Blocks n lim.length p ∧ R lim p) {limits : List Int} :
    ∀ (l : List (List Int)) (comm : Option (List Nat × List Int)) (part : List Nat), l.IsChain Groups → l.getLast? = some limits →
      (∀ lim, lim ∈ l → V lim) → (∀ lim, l.head? = some lim → Communities n lim comm) → ∃ p, vcycleLoop? deep l comm part = some p ∧ Blocks n limits.length p ∧ R limits p
  | [], _, _, _, h, _, _ => by cases h
  | [lim], comm, part, _, h, hV, hc => by
    obtain ⟨p, h1, h2, h3⟩ := hdeep lim comm (hV lim List.mem_cons_self) (hc lim rfl)
    have h : lim = limits := by injection h
    subst h
    refine ⟨p, ?_, h2, h3⟩
    show (deep lim comm).bind _ = _
    rw [h1]
    rfl
  | lim :: lim' :: rest, comm, part, hch, h, hV, hc => by
    obtain ⟨p, h1, h2, h3⟩ := hdeep lim comm (hV lim List.mem_cons_self) (hc lim rfl)
    obtain ⟨g1, g2⟩ := List.isChain_cons_cons.1 hch
    obtain ⟨q, q1, q2⟩ := vcycle_loop hdeep (lim' :: rest) (some (p, lim)) p g2 (by rw [List.getLast?_cons_cons] at h; exact h)
      (fun x hx => hV x (List.mem_cons_of_mem _ hx)) fun x hx => by
      have hx : lim' = x := by injection hx
      subst hx
      exact ⟨h2, g1⟩
    refine ⟨q, ?_, q2⟩
    show (deep lim comm).bind _ = _
    rw [h1]
    exact q1

/-- **C84.** If the deep multilevel partitioner works for limits with communities of the previous v-cycle whose limits are sums of its own, then
v-cycles end with a partition into `k` blocks, and whatever it guarantees for its limits holds for the limits of the input. -/
theorem C84_result_partial {wide : Bool} {steps : List Nat} {limits : List Int} {n : Nat} {deep : DeepFn} {R : List Int → List Nat → Prop}
    (hpos : 0 < limits.length) (hk : limits.length < 2 ^ 31) (h0 : ∀ x, x ∈ limits → 0 ≤ x) (hs : limits.sum < 2 ^ 31)
    (hsteps : (steps ++ [limits.length]).IsChain (Step limits.length))
    (hdeep : ∀ lim comm, (0 < lim.length ∧ lim.sum = limits.sum ∧ ∀ x, x ∈ lim → 0 ≤ x) → Communities n lim comm →
      ∃ p, deep lim comm = some p ∧ Blocks n lim.length p ∧ R lim p) :
    ∃ p, vcyclePartition? wide steps limits n deep = some (p, limits.length) ∧ Blocks n limits.length p ∧ R limits p := by
  obtain ⟨l, a1, _, a3, a4, a5⟩ := C84_chain_partial (wide := wide) hpos hk h0 hs hsteps
  obtain ⟨p, p1, p2⟩ := vcycle_loop hdeep l none (List.replicate n 0) a3 a4 a5 fun _ _ => trivial
  refine ⟨p, ?_, p2⟩
  unfold vcyclePartition?
  rw [a1, Option.bind_some, p1]
  rfl

/-- A partitioner that puts each node into the last block that refines its community; three nodes, v-cycles 2 and 4 before eight blocks. -/
example : vcyclePartition? false [2, 4] [1, 1, 1, 1, 1, 1, 1, 1] 3 (fun lim comm => some (match comm with
    | none => [0, 1, 1]
    | some (q, lim') => q.map fun b => (b + 1) * (lim.length / lim'.length) - 1)) = some ([3, 7, 7], 8) := by decide +kernel

/-- A partitioner that meets the assumption: it keeps the communities, or puts all nodes into the last block. -/
example (n : Nat) (limits : List Int) : ∀ lim comm, (0 < lim.length ∧ lim.sum = limits.sum ∧ ∀ x, x ∈ lim → 0 ≤ x) → Communities n lim comm →
    ∃ p, (fun (lim : List Int) (comm : Option (List Nat × List Int)) => some ((comm.map (·.1)).getD (List.replicate n (lim.length - 1)))) lim comm = some p ∧
      Blocks n lim.length p ∧ (comm = none → ∀ b, b ∈ p → b = lim.length - 1) := by
  intro lim comm hv hc
  cases comm with
  | none =>
    refine ⟨_, rfl, ⟨List.length_replicate, fun b hb => ?_⟩, fun _ b hb => List.eq_of_mem_replicate hb⟩
    have := List.eq_of_mem_replicate hb
    omega
  | some x =>
    obtain ⟨q, lim'⟩ := x
    obtain ⟨⟨c1, c2⟩, ps, e1, e2, e3⟩ := hc
    refine ⟨q, rfl, ⟨c1, fun b hb => Nat.lt_of_lt_of_le (c2 b hb) ?_⟩, fun h => by cases h⟩
    rw [e2, ← e1, List.length_map]
    clear e1 e2 hv
    induction ps with
    | nil => exact Nat.zero_le _
    | cons a ps ih =>
      have h1 := List.length_pos_of_ne_nil (e3 a List.mem_cons_self)
      have h2 := ih fun p hp => e3 p (List.mem_cons_of_mem _ hp)
      rw [List.length_cons, List.flatten_cons, List.length_append]
      omega

end Verif.Vcycle

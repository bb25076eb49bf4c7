import Verif.Files.Write

/-!
# Partition files and compressed reading
-/

namespace Verif.Files

theorem field_single (x : Nat) : IsFields [x] (digits x) := by
  have : IsFields [x] (digits x ++ [] ++ []) := .cons (digits_ok x) blank_nil (fun h => absurd rfl h) .nil
  simpa using this

theorem digits_ne_nil (x : Nat) : digits x ≠ [] := fields_ne_nil (field_single x)

theorem readNumbers_ok {dbg : Bool} {b : Nat} (hb : b ≤ 64) (sl : Nat) : ∀ (l : List Nat) (fuel : Nat),
    (∀ x ∈ l, x < 2 ^ b) → (writePartition l).length ≤ fuel →
    readNumbers dbg b fuel ⟨writePartition l, 0, sl⟩ = .ok l
  | [], fuel, _, _ => by cases fuel <;> rfl
  | x :: l, fuel, hl, hf => by
    have e : writePartition (x :: l) = digits x ++ '\n' :: writePartition l := by simp [writePartition]
    rw [e] at hf ⊢
    simp only [List.length_append, List.length_cons] at hf
    obtain ⟨fuel, rfl⟩ : ∃ k, fuel = k + 1 := ⟨fuel - 1, by omega⟩
    have hx := hl x List.mem_cons_self
    obtain ⟨f', f1, -, f3⟩ := scan_field (field_single x) (end_cons (writePartition l))
      (lt_of_lt_of_le hx (Nat.pow_le_pow_right (by decide) hb)) dbg 0 sl
    cases f1
    have hv : Toker.valid ⟨digits x ++ '\n' :: writePartition l, 0, sl⟩ = true := by
      simp [Toker.valid]
    simp only [readNumbers, hv, if_true, f3, ok_bind, List.nil_append, consume_newline]
    rw [readNumbers_ok hb sl l fuel (fun y hy => hl y (List.mem_cons_of_mem _ hy)) (by omega)]
    simp [toUnsigned, Nat.mod_eq_of_lt hx]

theorem writePartition_ne_nil {l : List Nat} (h : l ≠ []) : writePartition l ≠ [] := by
  cases l with
  | nil => exact absurd rfl h
  | cons x l => simp [writePartition]

theorem open_ok {page : Nat} {file : List Char} (h : file ≠ []) :
    Toker.open? page file = .ok ⟨file, 0, (page - file.length % page) % page⟩ := by
  simp [Toker.open?, h]

/-! ### Block sizes -/

theorem countBlocks_ok {w : Widths} {k : Nat} : ∀ (part done : List Nat) (sizes : List Nat),
    (∀ b ∈ part, b < k) → done.length + part.length < 2 ^ w.node →
    sizes = (List.range k).map (fun b => done.count b) →
    countBlocks w sizes part = .ok ((List.range k).map fun b => (done ++ part).count b)
  | [], done, sizes, _, _, e => by simp [countBlocks, e]
  | b :: part, done, sizes, hb, hn, e => by
    have hbk := hb b List.mem_cons_self
    have hg : sizes[b]? = some (done.count b) := by rw [e]; simp [hbk]
    simp only [countBlocks, hg]
    rw [countBlocks_ok (w := w) (k := k) part (done ++ [b]) _ (fun x hx => hb x (List.mem_cons_of_mem _ hx))
      (by simp only [List.length_append, List.length_cons, List.length_nil] at hn ⊢; omega)]
    · simp
    · rw [e]
      apply List.ext_getElem (by simp)
      intro i h1 h2
      simp only [List.length_set, List.length_map, List.length_range] at h1
      rw [List.getElem_set]
      split
      · rename_i hbi
        subst hbi
        have hle := List.count_le_length (a := b) (l := done)
        simp only [List.length_cons] at hn
        rw [toUnsigned, Nat.mod_eq_of_lt (by omega)]
        simp
      · rename_i hbi
        simp [List.count_singleton, hbi]

theorem sumInt_ok {w : Widths} {sizes : List Nat} (h : sizes.sum < 2 ^ 31) (hn : sizes.sum < 2 ^ w.node) :
    sumInt w sizes = sizes.sum := by
  have key : ∀ (l : List Nat) (a : Nat), a + l.sum < 2 ^ 31 → l.foldl (fun s x => (s + x) % 2 ^ 32) a = a + l.sum := by
    intro l
    induction l with
    | nil => intro a _; rfl
    | cons x l ih =>
      intro a hl
      simp only [List.sum_cons] at hl
      rw [List.foldl_cons, Nat.mod_eq_of_lt (by omega), ih _ (by omega), List.sum_cons]
      omega
  have h0 := key sizes 0 (by omega)
  rw [Nat.zero_add] at h0
  unfold sumInt
  rw [h0, if_pos h]
  exact Nat.mod_eq_of_lt hn

/-- Blocks `b, b + 1, …` of the given sizes, one after the other. -/
def runs : Nat → List Nat → List Nat
  | _, [] => []
  | b, s :: sizes => List.replicate s b ++ runs (b + 1) sizes

theorem runs_length : ∀ (b : Nat) (sizes : List Nat), (runs b sizes).length = sizes.sum
  | _, [] => rfl
  | b, s :: sizes => by simp [runs, runs_length (b + 1) sizes]

theorem fillBlocks_ok {w : Widths} {n : Nat} (hn : n < 2 ^ w.node) : ∀ (sizes pre : List Nat) (b : Nat) (part : Nat → Nat),
    pre.length + sizes.sum = n → b + sizes.length < 2 ^ w.block → (∀ i x, pre[i]? = some x → part i = x) →
    ∃ part', fillBlocks w n pre.length b part sizes = .ok part' ∧
      ∀ i x, (pre ++ runs b sizes)[i]? = some x → part' i = x
  | [], pre, b, part, _, _, hp => ⟨part, rfl, by simpa [runs] using hp⟩
  | s :: sizes, pre, b, part, hs, hb, hp => by
    simp only [List.sum_cons] at hs
    simp only [List.length_cons] at hb
    have e1 : toUnsigned w.node (pre.length + s) = (pre ++ List.replicate s b).length := by
      rw [List.length_append, List.length_replicate]
      exact Nat.mod_eq_of_lt (by omega)
    have e2 : toUnsigned w.block (b + 1) = b + 1 := Nat.mod_eq_of_lt (by omega)
    simp only [fillBlocks]
    rw [if_pos (by omega), e1, e2]
    obtain ⟨part', h1, h2⟩ := fillBlocks_ok hn sizes (pre ++ List.replicate s b) (b + 1)
      (fun i => if pre.length ≤ i ∧ i < pre.length + s then b else part i)
      (by rw [List.length_append, List.length_replicate]; omega) (by omega) (by
        intro i x hx
        rcases Nat.lt_or_ge i pre.length with hi | hi
        · rw [List.getElem?_append_left hi] at hx
          rw [if_neg (by omega)]
          exact hp i x hx
        · rw [List.getElem?_append_right hi, List.getElem?_replicate] at hx
          split at hx
          · rw [if_pos (by omega)]
            exact Option.some.inj hx
          · cases hx)
    refine ⟨part', h1, ?_⟩
    rw [runs, ← List.append_assoc]
    exact h2

theorem runs_count : ∀ (sizes : List Nat) (b c : Nat),
    (runs b sizes).count c = if b ≤ c then (sizes[c - b]?).getD 0 else 0
  | [], b, c => by simp [runs]
  | s :: sizes, b, c => by
    rw [runs, List.count_append, runs_count sizes (b + 1) c, List.count_replicate]
    by_cases h : b = c
    · subst h
      simp
    · by_cases h2 : b ≤ c
      · obtain ⟨e, rfl⟩ : ∃ e, c = b + 1 + e := ⟨c - b - 1, by omega⟩
        simp [h, show b ≤ b + 1 + e by omega, show b + 1 + e - b = e + 1 by omega]
      · simp [h, h2, show ¬ b + 1 ≤ c by omega]

theorem runs_ge : ∀ (sizes : List Nat) (b x : Nat), x ∈ runs b sizes → b ≤ x
  | [], b, x, h => by cases h
  | s :: sizes, b, x, h => by
    rcases List.mem_append.1 h with h | h
    · exact (List.eq_of_mem_replicate h).ge
    · have := runs_ge sizes (b + 1) x h; omega

theorem runs_sorted : ∀ (sizes : List Nat) (b : Nat), (runs b sizes).Pairwise (· ≤ ·)
  | [], _ => .nil
  | s :: sizes, b => by
    rw [runs, List.pairwise_append]
    refine ⟨?_, runs_sorted sizes (b + 1), ?_⟩
    · rw [List.pairwise_replicate]; right; exact Nat.le_refl _
    · intro a ha c hc
      rw [List.eq_of_mem_replicate ha]
      have := runs_ge sizes (b + 1) c hc
      omega

theorem counts_sum {k : Nat} {part : List Nat} (h : ∀ b ∈ part, b < k) :
    ((List.range k).map fun b => part.count b).sum = part.length := by
  have hp : (runs 0 ((List.range k).map fun b => part.count b)).Perm part := by
    rw [List.perm_iff_count]
    intro c
    rw [runs_count, if_pos (Nat.zero_le _), Nat.sub_zero]
    rcases Nat.lt_or_ge c k with hc | hc
    · simp [hc]
    · rw [List.getElem?_eq_none (by simpa using hc), Option.getD_none,
        List.count_eq_zero.2 fun hm => absurd (h c hm) (by omega)]
  rw [← runs_length 0, hp.length_eq]

theorem runs_perm {k : Nat} {part : List Nat} (h : ∀ b ∈ part, b < k) :
    (runs 0 ((List.range k).map fun b => part.count b)).Perm part := by
  rw [List.perm_iff_count]
  intro c
  rw [runs_count, if_pos (Nat.zero_le _), Nat.sub_zero]
  rcases Nat.lt_or_ge c k with hc | hc
  · simp [hc]
  · rw [List.getElem?_eq_none (by simpa using hc), Option.getD_none,
      List.count_eq_zero.2 fun hm => absurd (h c hm) (by omega)]

/-! ### Compressed reading -/

/-- The neighbours of a node as handed to the builder. -/
def nbs (x : Nat × List (Nat × Nat)) : List (Nat × Int) := x.2.map fun y => (y.1, (y.2 : Int))

/-- The calls of the builder for all nodes but the last, whose neighbours are still being collected. -/
structure CInv (h : Header) (d : Desc) (s : Comp) : Prop where
  n : s.builder.n = h.n
  m : s.builder.m = 2 * h.m
  node : s.node = d.length
  nodes : s.builder.nodes = (d.mapIdx fun u x => (u, nbs x)).dropLast
  nbh : s.nbh = (d.getLast?.map nbs).getD []
  weights : s.builder.weights = if h.hasNw then d.mapIdx fun u x => (u, (x.1 : Int)) else []

theorem mapIdx_snoc {α β : Type} (f : Nat → α → β) (l : List α) (a : α) :
    (l ++ [a]).mapIdx f = l.mapIdx f ++ [f l.length a] := by
  rw [List.mapIdx_append]; simp

theorem dropLast_append_getLast {d : Desc} {x : Nat × List (Nat × Nat)} (h : d.getLast? = some x) (hd : 0 < d.length) :
    (d.mapIdx fun u x => (u, nbs x)).dropLast ++ [(d.length - 1, nbs x)] = d.mapIdx fun u x => (u, nbs x) := by
  obtain ⟨d', rfl⟩ : ∃ d', d = d' ++ [x] := by
    have hne : d ≠ [] := List.length_pos_iff.1 hd
    refine ⟨d.dropLast, ?_⟩
    rw [List.getLast?_eq_some_getLast hne] at h
    rw [← Option.some.inj h, List.dropLast_append_getLast hne]
  rw [mapIdx_snoc]
  simp

theorem cnode_ok {w : Widths} {h : Header} {d : Desc} {s : Comp} (hi : CInv h d s) {x : Nat} (hn : d.length < h.n)
    (hw : h.n < 2 ^ w.node) (hx : h.hasNw = true → x < 2 ^ (w.nw - 1)) :
    ∃ s', Comp.nodeCb w h s x = .ok s' ∧ CInv h (d ++ [(x, [])]) s' := by
  have hu : toUnsigned w.node (d.length + 1) = d.length + 1 := Nat.mod_eq_of_lt (by omega)
  obtain ⟨s1, h1, h2⟩ : ∃ s1, (if s.node > 0 then do
      let b ← s.builder.addNode (s.node - 1) s.nbh
      return { s with builder := b, nbh := [] }
    else .ok s : Res Comp) = .ok s1 ∧ (s1.builder.n = h.n ∧ s1.builder.m = 2 * h.m ∧ s1.node = d.length ∧ s1.nbh = [] ∧
      s1.builder.nodes = (d.mapIdx fun u x => (u, nbs x)) ∧ s1.builder.weights = s.builder.weights) := by
    by_cases hpos : s.node > 0
    · rw [if_pos hpos]
      have hd : 0 < d.length := by rw [← hi.node]; exact hpos
      rw [Builder.addNode, if_pos (by rw [hi.n, hi.node]; omega)]
      refine ⟨_, rfl, hi.n, hi.m, hi.node, rfl, ?_, rfl⟩
      have hne : d ≠ [] := List.length_pos_iff.1 hd
      have hl : d.getLast? = some (d.getLast hne) := List.getLast?_eq_some_getLast hne
      show s.builder.nodes ++ [(s.node - 1, s.nbh)] = _
      rw [hi.nodes, hi.node, hi.nbh, hl]
      exact dropLast_append_getLast hl hd
    · rw [if_neg hpos]
      have hd : d = [] := List.length_eq_zero_iff.1 (by rw [← hi.node]; omega)
      subst hd
      exact ⟨s, rfl, hi.n, hi.m, hi.node, hi.nbh, hi.nodes, rfl⟩
  obtain ⟨a1, a2, a3, a4, a5, a6⟩ := h2
  unfold Comp.nodeCb
  rw [h1]
  simp only [ok_bind, pure_eq]
  have hnodes : (d ++ [(x, ([] : List (Nat × Nat)))]).mapIdx (fun u x => (u, nbs x)) =
      d.mapIdx (fun u x => (u, nbs x)) ++ [(d.length, nbs (x, []))] := mapIdx_snoc _ _ _
  cases hh : h.hasNw with
  | false =>
    simp only [Bool.false_eq_true, if_false, ok_bind]
    refine ⟨_, rfl, a1, a2, ?_, ?_, ?_, ?_⟩
    · show toUnsigned w.node (s1.node + 1) = _
      rw [a3, hu]; simp
    · rw [hnodes]
      simpa using a5
    · simpa [nbs] using a4
    · rw [hh]
      show s1.builder.weights = _
      rw [a6, hi.weights, hh]; rfl
  | true =>
    simp only [if_true]
    rw [Builder.addWeight, if_pos (by rw [a1, a3]; exact hn)]
    refine ⟨_, rfl, a1, a2, ?_, ?_, ?_, ?_⟩
    · show toUnsigned w.node (s1.node + 1) = _
      rw [a3, hu]; simp
    · rw [hnodes]
      simpa using a5
    · simpa [nbs] using a4
    · rw [hh, if_pos rfl, mapIdx_snoc]
      show s1.builder.weights ++ [(s1.node, toSigned w.nw x)] = _
      rw [a6, hi.weights, hh, if_pos rfl, a3, toSigned_of_lt (hx hh)]

theorem cedges_ok {w : Widths} {h : Header} (hnode : h.n < 2 ^ w.node) {d : Desc} {x : Nat} :
    ∀ (nb pre : List (Nat × Nat)) (s : Comp), (∀ y ∈ nb, y.1 < h.n) → (∀ y ∈ nb, y.2 < 2 ^ (w.ew - 1)) →
      CInv h (d ++ [(x, pre)]) s →
      ∃ s', feedEdges (Comp.edgeCb w) nb s = .ok s' ∧ CInv h (d ++ [(x, pre ++ nb)]) s'
  | [], pre, s, _, _, hi => ⟨s, rfl, by simpa using hi⟩
  | y :: nb, pre, s, h1, h2, hi => by
    have e1 : toUnsigned w.node y.1 = y.1 := Nat.mod_eq_of_lt (lt_trans (h1 y List.mem_cons_self) hnode)
    have e2 := toSigned_of_lt (h2 y List.mem_cons_self)
    obtain ⟨s2, h3, h4⟩ := cedges_ok hnode (d := d) (x := x) nb (pre ++ [y])
      { s with nbh := s.nbh ++ [(toUnsigned w.node y.1, toSigned w.ew y.2)]
               edge := toUnsigned w.edge (s.edge + 1) }
      (fun y hy => h1 y (List.mem_cons_of_mem _ hy)) (fun y hy => h2 y (List.mem_cons_of_mem _ hy))
      ⟨hi.n, hi.m, by have := hi.node; simpa using this, by have := hi.nodes; simpa [mapIdx_snoc] using this,
        by have := hi.nbh; simp [nbs] at this; simp [nbs, this, e1, e2], by
          have := hi.weights; simpa [mapIdx_snoc] using this⟩
    refine ⟨s2, ?_, by simpa using h4⟩
    simp only [feedEdges, Comp.edgeCb, ok_bind]
    exact h3

theorem cfeed_ok {w : Widths} {h : Header} {D : Desc} (hn : D.length = h.n) (hnode : h.n < 2 ^ w.node)
    (htargets : ∀ y ∈ D.flat, y.1 < h.n) (hnw : h.hasNw = true → ∀ x ∈ D, x.1 < 2 ^ (w.nw - 1))
    (hew : ∀ y ∈ D.flat, y.2 < 2 ^ (w.ew - 1)) :
    ∀ (d' d : Desc) (s : Comp), D = d ++ d' → CInv h d s →
      ∃ s', feed (Comp.nodeCb w h) (Comp.edgeCb w) d' s = .ok s' ∧ CInv h D s'
  | [], d, s, e, hi => ⟨s, rfl, by rw [e, List.append_nil]; exact hi⟩
  | x :: d', d, s, e, hi => by
    have hx : x ∈ D := by rw [e]; simp
    have hf : ∀ y ∈ x.2, y ∈ D.flat := fun y hy => List.mem_flatMap.2 ⟨x, hx, hy⟩
    obtain ⟨s1, h1, h2⟩ := cnode_ok (w := w) hi (x := x.1) (by rw [← hn, e]; simp) hnode (fun hh => hnw hh x hx)
    obtain ⟨s2, h3, h4⟩ := cedges_ok hnode (d := d) (x := x.1) x.2 [] s1 (fun y hy => htargets y (hf y hy))
      (fun y hy => hew y (hf y hy)) h2
    obtain ⟨s3, h5, h6⟩ := cfeed_ok hn hnode htargets hnw hew d' (d ++ [x]) s2 (by rw [e]; simp) (by simpa using h4)
    exact ⟨s3, by simp only [feed, h1, ok_bind, h3, h5], h6⟩

end Verif.Files

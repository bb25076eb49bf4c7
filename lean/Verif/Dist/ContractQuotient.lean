import Verif.Dist.ContractGraph

/-!
# Quotients of distributed graphs, for the proof of C73
-/

namespace Verif.Dist
open Verif.Math

variable {C : Nat → Nat} {dist : List Nat} {inp : Nat → Input} {g : Nat → DGraph} {lab : Nat → List Nat} {S : Nat → Orders}

/-! ## Edges -/

theorem isEdge_edges (V : ∀ p, p < procs dist → Valid dist p (inp p)) {a b : Nat} : IsEdge dist inp a b ↔ ∃ w, (a, b, w) ∈ edges dist inp := by
  constructor
  · rintro ⟨p, w, hp, ho, h⟩
    have hb := ((V p hp).owns_iff' hp).1 ho
    have := mem_edges hp (u := a - first dist p) (by unfold localN; omega) h
    rw [show first dist p + (a - first dist p) = a by omega] at this
    exact ⟨w, this⟩
  · rintro ⟨w, h⟩
    unfold edges at h
    obtain ⟨p, hp, h⟩ := List.mem_flatMap.1 h
    obtain ⟨u, hu, h⟩ := List.mem_flatMap.1 h
    obtain ⟨x, hx, he⟩ := List.mem_map.1 h
    have hp := List.mem_range.1 hp
    have hu := List.mem_range.1 hu
    obtain ⟨rfl, rfl, rfl⟩ : first dist p + u = a ∧ x.1 = b ∧ x.2 = w := by
      simp only [Prod.mk.injEq] at he; exact he
    refine ⟨p, x.2, hp, ((V p hp).owns_iff' hp).2 ⟨by omega, by unfold localN at hu; omega⟩, ?_⟩
    rw [Nat.add_sub_cancel_left]
    exact hx

theorem edges_lt (V : ∀ p, p < procs dist → Valid dist p (inp p)) {e : Nat × Nat × Int} (he : e ∈ edges dist inp) :
    e.1 < globalN dist ∧ e.2.1 < globalN dist := by
  unfold edges at he
  obtain ⟨p, hp, he⟩ := List.mem_flatMap.1 he
  obtain ⟨u, hu, he⟩ := List.mem_flatMap.1 he
  obtain ⟨x, hx, rfl⟩ := List.mem_map.1 he
  have hp := List.mem_range.1 hp
  have hu := List.mem_range.1 hu
  have VV := V p hp
  constructor
  · have h1 : first dist (p + 1) ≤ globalN dist := VV.mono (by omega) (by unfold procs at *; omega)
    show first dist p + u < _
    unfold localN at hu
    omega
  · unfold Input.neighbours at hx
    obtain ⟨i, hi, rfl⟩ := List.mem_map.1 hx
    have hi := List.mem_range'_1.1 hi
    have hm := VV.xadj_mono (show u + 1 ≤ localN dist p by omega) (Nat.le_refl _)
    rw [VV.xadj_last] at hm
    refine VV.targets _ ?_
    show (inp p).adjncy.getD i 0 ∈ _
    rw [List.getD_eq_getElem?_getD, List.getElem?_eq_getElem (by omega)]
    exact List.getElem_mem _

/-- An edge of the quotient graph. -/
theorem quotient_mem {P : Nat → Nat} {Wt : Nat → Int} {cdist : List Nat} {cinp : Nat → Input} (Q : Quotient dist inp Wt P cdist cinp)
    (hc : 0 < procs cdist) (V : ∀ p, p < procs cdist → Valid cdist p (cinp p)) {x y : Nat} {w : Int} : (x, y, w) ∈ edges cdist cinp ↔
      x < globalN cdist ∧ y ≠ x ∧ between dist inp P x y ≠ [] ∧ w = ((between dist inp P x y).map (·.2.2)).sum := by
  constructor
  · intro h
    have hlt := (edges_lt V h).1
    unfold edges at h
    obtain ⟨p, hp, h⟩ := List.mem_flatMap.1 h
    obtain ⟨u, hu, h⟩ := List.mem_flatMap.1 h
    obtain ⟨z, hz, he⟩ := List.mem_map.1 h
    obtain ⟨rfl, rfl, rfl⟩ : first cdist p + u = x ∧ z.1 = y ∧ z.2 = w := by
      simp only [Prod.mk.injEq] at he; exact he
    exact ⟨hlt, (Q.edges p u z.1 z.2 (List.mem_range.1 hp) (List.mem_range.1 hu)).1 hz⟩
  · rintro ⟨hlt, h⟩
    have ho := (V 0 hc).owner hlt
    have hq := ho.lt
    have hb := ((V 0 hc).owns_iff' hq).1 ho
    generalize findInDistribution x cdist = q at ho hq hb
    have hu : x - first cdist q < localN cdist q := by unfold localN; omega
    have hx : first cdist q + (x - first cdist q) = x := by omega
    have h1 := (Q.edges q (x - first cdist q) y w hq hu).2 (by rw [hx]; exact h)
    have := mem_edges hq hu h1
    rwa [hx] at this

theorem between_mem {P : Nat → Nat} {x y : Nat} : between dist inp P x y ≠ [] ↔ ∃ e, e ∈ edges dist inp ∧ P e.1 = x ∧ P e.2.1 = y := by
  unfold between
  constructor
  · intro h
    obtain ⟨e, he⟩ := List.exists_mem_of_ne_nil _ h
    rw [List.mem_filter] at he
    exact ⟨e, he.1, of_decide_eq_true he.2⟩
  · rintro ⟨e, he, h⟩
    exact List.ne_nil_of_mem (List.mem_filter.2 ⟨he, decide_eq_true h⟩)

/-- The quotient graph of an undirected graph is undirected. -/
theorem quotient_symmetric {P : Nat → Nat} {Wt : Nat → Int} {cdist : List Nat} {cinp : Nat → Input} (Q : Quotient dist inp Wt P cdist cinp)
    (hc : 0 < procs cdist) (V : ∀ p, p < procs cdist → Valid cdist p (cinp p)) (V0 : ∀ p, p < procs dist → Valid dist p (inp p))
    (hP : ∀ a, a < globalN dist → P a < globalN cdist) (hsym : Symmetric dist inp) : Symmetric cdist cinp := by
  intro x y h
  obtain ⟨w, h⟩ := (isEdge_edges V).1 h
  obtain ⟨_, h2, h3, _⟩ := (quotient_mem Q hc V).1 h
  obtain ⟨e, he, h4, h5⟩ := between_mem.1 h3
  obtain ⟨w', h6⟩ := (isEdge_edges V0).1 (hsym e.1 e.2.1 ((isEdge_edges V0).2 ⟨e.2.2, he⟩))
  exact (isEdge_edges V).2 ⟨_, (quotient_mem Q hc V).2 ⟨by rw [← h5]; exact hP _ (edges_lt V0 he).2, Ne.symm h2, between_mem.2 ⟨_, h6, h5, h4⟩, rfl⟩⟩

theorem between_swap {P : Nat → Nat} (hu : Undirected dist inp) (x y : Nat) :
    ((between dist inp P y x).map fun e => (e.2.1, e.1, e.2.2)).Perm (between dist inp P x y) := by
  unfold between
  have h := List.Perm.filter (fun e : Nat × Nat × Int => decide (P e.1 = x ∧ P e.2.1 = y)) hu
  rw [List.filter_map] at h
  refine List.Perm.trans (List.Perm.of_eq ?_) h
  congr 1
  refine List.filter_congr fun e _ => ?_
  show decide _ = decide _
  simp only [decide_eq_decide]
  exact And.comm

theorem edges_nodup {cdist : List Nat} {cinp : Nat → Input} (V : ∀ p, p < procs cdist → Valid cdist p (cinp p))
    (h : ∀ q u, q < procs cdist → u < localN cdist q → (((cinp q).neighbours u).map (·.1)).Nodup) : (edges cdist cinp).Nodup := by
  unfold edges
  rw [List.nodup_flatMap]
  constructor
  · intro p hp
    have hp := List.mem_range.1 hp
    rw [List.nodup_flatMap]
    constructor
    · intro u hu
      refine List.Nodup.of_map (fun e : Nat × Nat × Int => e.2.1) ?_
      rw [List.map_map]
      exact h p u hp (List.mem_range.1 hu)
    · refine List.nodup_range.imp fun hne => ?_
      rw [Function.onFun, List.disjoint_left]
      intro e h1 h2
      obtain ⟨_, _, rfl⟩ := List.mem_map.1 h1
      obtain ⟨_, _, h3⟩ := List.mem_map.1 h2
      rw [Prod.mk.injEq] at h3
      omega
  · refine List.nodup_range.imp_of_mem fun {p q} hp hq hne => ?_
    have hp := List.mem_range.1 hp
    have hq := List.mem_range.1 hq
    rw [Function.onFun, List.disjoint_left]
    intro e h1 h2
    obtain ⟨u, hu, h1⟩ := List.mem_flatMap.1 h1
    obtain ⟨v, hv, h2⟩ := List.mem_flatMap.1 h2
    obtain ⟨_, _, rfl⟩ := List.mem_map.1 h1
    obtain ⟨_, _, h3⟩ := List.mem_map.1 h2
    rw [Prod.mk.injEq] at h3
    have hu := List.mem_range.1 hu
    have hv := List.mem_range.1 hv
    have o1 : Owns cdist p (first cdist p + u) := ((V p hp).owns_iff' hp).2 ⟨by omega, by unfold localN at hu; omega⟩
    have o2 : Owns cdist q (first cdist p + u) := ((V q hq).owns_iff' hq).2 ⟨by omega, by unfold localN at hv; omega⟩
    exact hne ((V p hp).owns_unique o1 o2)

theorem quotient_undirected {P : Nat → Nat} {Wt : Nat → Int} {cdist : List Nat} {cinp : Nat → Input} (Q : Quotient dist inp Wt P cdist cinp)
    (hc : 0 < procs cdist) (V : ∀ p, p < procs cdist → Valid cdist p (cinp p)) (V0 : ∀ p, p < procs dist → Valid dist p (inp p))
    (hP : ∀ a, a < globalN dist → P a < globalN cdist) (hu : Undirected dist inp) : Undirected cdist cinp := by
  unfold Undirected
  have hn := edges_nodup V Q.once
  have key : ∀ x y w, (x, y, w) ∈ edges cdist cinp → (y, x, w) ∈ edges cdist cinp := by
    intro x y w h
    obtain ⟨_, h2, h3, h4⟩ := (quotient_mem Q hc V).1 h
    obtain ⟨e, he, h5, h6⟩ := between_mem.1 h3
    have hs := between_swap (P := P) hu y x
    refine (quotient_mem Q hc V).2 ⟨by rw [← h6]; exact hP _ (edges_lt V0 he).2, Ne.symm h2, ?_, ?_⟩
    · intro h0
      rw [h0] at hs
      have := hs.length_eq
      rw [List.length_map, List.length_nil, List.length_eq_zero_iff] at this
      exact h3 this
    · rw [h4, ← (hs.map (·.2.2)).sum_eq, List.map_map]
      rfl
  refine (List.perm_ext_iff_of_nodup (hn.map fun a b hab => ?_) hn).2 fun e => ?_
  · obtain ⟨a1, a2, a3⟩ := a
    obtain ⟨b1, b2, b3⟩ := b
    simp only [Prod.mk.injEq] at hab ⊢
    omega
  · rw [List.mem_map]
    constructor
    · rintro ⟨e', he', rfl⟩; exact key _ _ _ he'
    · intro he; exact ⟨(e.2.1, e.1, e.2.2), key _ _ _ he, rfl⟩

/-! ## Cuts and weights -/

theorem sum_one {ks : List Nat} {k : Nat} {a : Int} (hn : ks.Nodup) (hk : k ∈ ks) : (ks.map fun y => if k = y then a else 0).sum = a := by
  induction ks with
  | nil => exact absurd hk List.not_mem_nil
  | cons j ks ih =>
    rw [List.nodup_cons] at hn
    rw [List.map_cons, List.sum_cons]
    rcases List.mem_cons.1 hk with rfl | h
    · rw [if_pos rfl]
      have : ks.map (fun y => if k = y then a else 0) = ks.map fun _ => (0 : Int) :=
        List.map_congr_left fun y hy => if_neg (by rintro rfl; exact hn.1 hy)
      rw [this, List.map_const', List.sum_replicate]
      simp
    · rw [if_neg (by rintro rfl; exact hn.1 h), Int.zero_add, ih hn.2 h]

/-- A sum over groups. -/
theorem sum_groups {α : Type} {ks : List Nat} (hn : ks.Nodup) (key : α → Nat) (φ : α → Int) : ∀ E : List α, (∀ e, e ∈ E → key e ∈ ks) →
    (ks.map fun y => ((E.filter fun e => decide (key e = y)).map φ).sum).sum = (E.map φ).sum
  | [], _ => by
    simp only [List.filter_nil, List.map_nil, List.sum_nil, List.map_const', List.sum_replicate]
    simp
  | e :: E, h => by
    have ih := sum_groups hn key φ E fun x hx => h x (List.mem_cons_of_mem _ hx)
    rw [List.map_cons, List.sum_cons, ← ih, ← sum_one (a := φ e) hn (h e List.mem_cons_self), ← sum_map_add]
    congr 1
    refine List.map_congr_left fun y _ => ?_
    by_cases hy : key e = y
    · rw [List.filter_cons, if_pos (decide_eq_true hy), List.map_cons, List.sum_cons, if_pos hy]
    · rw [List.filter_cons, if_neg (by simpa using hy), if_neg hy, Int.zero_add]

variable {P : Nat → Nat} {Wt : Nat → Int} {cdist : List Nat} {cinp : Nat → Input}

theorem quotient_node_cut (Q : Quotient dist inp Wt P cdist cinp) (B : Nat → Nat) {q u : Nat} (hq : q < procs cdist) (hu : u < localN cdist q) :
    (((cinp q).neighbours u).map fun x => if B (first cdist q + u) ≠ B x.1 then x.2 else 0).sum =
      (((edges dist inp).filter fun e => decide (P e.1 = first cdist q + u)).map fun e => if B (P e.1) ≠ B (P e.2.1) then e.2.2 else 0).sum := by
  have hE := Q.edges q u
  have hn := Q.once q u hq hu
  generalize hx : first cdist q + u = x at hE ⊢
  generalize (cinp q).neighbours u = L at hE hn ⊢
  have hE : ∀ y w, (y, w) ∈ L ↔ y ≠ x ∧ between dist inp P x y ≠ [] ∧ w = ((between dist inp P x y).map (·.2.2)).sum := fun y w => hE y w hq hu
  have h1 : ∀ e, e ∈ (edges dist inp).filter (fun e => decide (P e.1 = x ∧ P e.2.1 ≠ x)) → P e.2.1 ∈ L.map (·.1) := by
    intro e he
    rw [List.mem_filter] at he
    have h2 := of_decide_eq_true he.2
    exact List.mem_map.2 ⟨_, (hE (P e.2.1) _).2 ⟨h2.2, between_mem.2 ⟨e, he.1, h2.1, rfl⟩, rfl⟩, rfl⟩
  have h2 := sum_groups hn (fun e : Nat × Nat × Int => P e.2.1) (fun e => if B (P e.1) ≠ B (P e.2.1) then e.2.2 else 0) _ h1
  rw [List.map_map] at h2
  have h3 : L.map (fun z => if B x ≠ B z.1 then z.2 else 0) = L.map ((fun y => ((((edges dist inp).filter
      (fun e => decide (P e.1 = x ∧ P e.2.1 ≠ x))).filter fun e => decide (P e.2.1 = y)).map
        fun e => if B (P e.1) ≠ B (P e.2.1) then e.2.2 else 0).sum) ∘ (·.1)) := by
    refine List.map_congr_left fun z hz => ?_
    obtain ⟨h4, _, h5⟩ := (hE z.1 z.2).1 hz
    show _ = ((((edges dist inp).filter _).filter fun e => decide (P e.2.1 = z.1)).map _).sum
    rw [List.filter_filter]
    have h6 : (edges dist inp).filter (fun e => decide (P e.2.1 = z.1) && decide (P e.1 = x ∧ P e.2.1 ≠ x)) = between dist inp P x z.1 := by
      unfold between
      refine List.filter_congr fun e _ => ?_
      rw [← Bool.decide_and, decide_eq_decide]
      constructor
      · rintro ⟨a, b, _⟩; exact ⟨b, a⟩
      · rintro ⟨a, b⟩; exact ⟨b, a, by rw [b]; exact h4⟩
    rw [h6]
    have h7 : (between dist inp P x z.1).map (fun e => if B (P e.1) ≠ B (P e.2.1) then e.2.2 else 0) =
        (between dist inp P x z.1).map fun e => if B x ≠ B z.1 then e.2.2 else 0 := by
      refine List.map_congr_left fun e he => ?_
      unfold between at he
      rw [List.mem_filter] at he
      have := of_decide_eq_true he.2
      rw [this.1, this.2]
    rw [h7]
    by_cases hb : B x ≠ B z.1
    · simp only [if_pos hb]; exact h5
    · simp only [if_neg hb]
      rw [List.map_const', List.sum_replicate]
      simp
  rw [h3, h2, sum_filter_map, sum_filter_map]
  congr 1
  refine List.map_congr_left fun e _ => ?_
  by_cases ha : P e.1 = x
  · by_cases hb : P e.2.1 = x
    · rw [if_neg (by simp [hb]), if_pos (decide_eq_true ha), if_neg (by rw [ha, hb]; exact fun h => h rfl)]
    · rw [if_pos (decide_eq_true ⟨ha, hb⟩), if_pos (decide_eq_true ha)]
  · rw [if_neg (by simp [ha]), if_neg (by simp [ha])]

theorem quotient_directed (Q : Quotient dist inp Wt P cdist cinp) (V : ∀ p, p < procs cdist → Valid cdist p (cinp p))
    (hc : 0 < procs cdist) (V0 : ∀ p, p < procs dist → Valid dist p (inp p)) (hP : ∀ a, a < globalN dist → P a < globalN cdist) (B : Nat → Nat) :
    ((edges cdist cinp).map fun e => if B e.1 ≠ B e.2.1 then e.2.2 else 0).sum =
      ((edges dist inp).map fun e => if B (P e.1) ≠ B (P e.2.1) then e.2.2 else 0).sum := by
  rw [← edges_sum (dist := cdist) (inp := cinp) (fun a b w => if B a ≠ B b then w else 0),
    ← sum_groups (ks := List.range (globalN cdist)) List.nodup_range (fun e : Nat × Nat × Int => P e.1) _ (edges dist inp)
      fun e he => List.mem_range.2 (hP _ (edges_lt V0 he).1)]
  refine Eq.trans ?_ (tile_sum (V 0 hc).zero (V 0 hc).sorted (fun x => (((edges dist inp).filter fun e => decide (P e.1 = x)).map
    fun e => if B (P e.1) ≠ B (P e.2.1) then e.2.2 else 0).sum) _ (Nat.le_refl _))
  congr 1
  refine List.map_congr_left fun q hq => ?_
  congr 1
  exact List.map_congr_left fun u hu => quotient_node_cut Q B (List.mem_range.1 hq) (List.mem_range.1 hu)

end Verif.Dist

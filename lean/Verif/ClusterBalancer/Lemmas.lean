import Verif.ClusterBalancer.Spec
import Mathlib.Algebra.BigOperators.Group.List.Lemmas
import Mathlib.Algebra.BigOperators.Ring.List
import Mathlib.Tactic.Ring

/-! # Lemmas about the clusters of the cluster balancer -/

namespace Verif.ClusterBalancer
open Verif

theorem flat_inj {k c d a b : Nat} (ha : a < k) (hb : b < k) (h : c * k + a = d * k + b) : c = d ∧ a = b := by
  have h1 : (c * k + a) / k = (d * k + b) / k := by rw [h]
  have h2 : (c * k + a) % k = (d * k + b) % k := by rw [h]
  have hk : 0 < k := by omega
  rw [Nat.mul_comm c, Nat.mul_comm d, Nat.mul_add_div hk, Nat.mul_add_div hk, Nat.div_eq_of_lt ha, Nat.div_eq_of_lt hb] at h1
  rw [Nat.mul_comm c, Nat.mul_comm d, Nat.mul_add_mod, Nat.mul_add_mod, Nat.mod_eq_of_lt ha, Nat.mod_eq_of_lt hb] at h2
  exact ⟨by omega, h2⟩

/-- What a move from `src` to `dst` adds to the connection with `b`. -/
def delta (src dst b : Nat) (w : Int) : Int := (if b = dst then w else 0) - (if b = src then w else 0)

theorem shift_at {k c d src dst b : Nat} {w : Int} (conns : Nat → Int) (hs : src < k) (hd : dst < k) (hb : b < k) :
    shift k conns c src dst w (d * k + b) = conns (d * k + b) + if d = c then delta src dst b w else 0 := by
  unfold shift delta
  by_cases hdc : d = c
  · subst hdc
    rw [if_pos rfl]
    by_cases h1 : b = dst
    · subst h1
      rw [upd_same, if_pos rfl]
      by_cases h2 : b = src
      · subst h2; rw [upd_same, if_pos rfl]; ring
      · rw [upd_ne _ _ (fun e => h2 (flat_inj hb hs e).2), if_neg h2]; ring
    · rw [upd_ne _ _ (fun e => h1 (flat_inj hb hd e).2), if_neg h1]
      by_cases h2 : b = src
      · subst h2; rw [upd_same, if_pos rfl]; ring
      · rw [upd_ne _ _ (fun e => h2 (flat_inj hb hs e).2), if_neg h2]; ring
  · rw [if_neg hdc, upd_ne _ _ (fun e => hdc (flat_inj hb hd e).1), upd_ne _ _ (fun e => hdc (flat_inj hb hs e).1)]; ring

theorem moveEdges_at {g : PGraph} {S : Sets} {c src dst d b : Nat} (hs : src < g.k) (hd : dst < g.k) (hb : b < g.k) :
    ∀ (l : List (Nat × Int)) (conns : Nat → Int), l.foldl (moveEdge g S c src dst) conns (d * g.k + b) =
      conns (d * g.k + b) + (l.map fun x => if x.1 < g.n ∧ S.clusterOf x.1 = some d ∧ d ≠ c then delta src dst b x.2 else 0).sum
  | [], conns => by simp
  | x :: l, conns => by
    rw [List.foldl_cons, moveEdges_at hs hd hb l, List.map_cons, List.sum_cons, ← add_assoc]
    congr 1
    unfold moveEdge
    by_cases hx : x.1 < g.n
    · rw [if_pos hx]
      cases ho : S.clusterOf x.1 with
      | none => simp
      | some e =>
        by_cases he : e = c
        · simp only [he, if_true]
          rw [if_neg (by rintro ⟨_, h1, h2⟩; exact h2 (Option.some.inj h1).symm)]; ring
        · simp only [he, if_false]
          rw [shift_at conns hs hd hb]
          by_cases hde : d = e
          · subst hde; rw [if_pos rfl, if_pos ⟨hx, rfl, he⟩]
          · rw [if_neg hde, if_neg (by rintro ⟨_, h1, _⟩; exact hde (Option.some.inj h1).symm)]
    · rw [if_neg hx, if_neg (by rintro ⟨h, _⟩; exact hx h)]; ring

theorem sum_map_sub' {α : Type _} (f h : α → Int) : ∀ l : List α, (l.map fun x => f x - h x).sum = (l.map f).sum - (l.map h).sum
  | [] => by simp
  | a :: l => by simp only [List.map_cons, List.sum_cons, sum_map_sub' f h l]; ring

theorem sum_map_add' {α : Type _} (f h : α → Int) : ∀ l : List α, (l.map fun x => f x + h x).sum = (l.map f).sum + (l.map h).sum
  | [] => by simp
  | a :: l => by simp only [List.map_cons, List.sum_cons, sum_map_add' f h l]; ring

theorem sum_flatMap' {α β : Type _} (f : α → List β) (h : β → Int) : ∀ l : List α,
    ((l.flatMap f).map h).sum = (l.map fun a => ((f a).map h).sum).sum
  | [] => by simp
  | a :: l => by simp [List.flatMap_cons, sum_flatMap' f h l]

theorem sum_map_zero {α : Type _} {f : α → Int} : ∀ {l : List α}, (∀ a ∈ l, f a = 0) → (l.map f).sum = 0
  | [], _ => rfl
  | a :: l, h => by
    rw [List.map_cons, List.sum_cons, h a (List.mem_cons_self ..), sum_map_zero fun x hx => h x (List.mem_cons_of_mem _ hx)]; rfl

theorem sum_map_congr {α : Type _} {f h : α → Int} {l : List α} (e : ∀ a ∈ l, f a = h a) : (l.map f).sum = (l.map h).sum := by
  rw [List.map_congr_left e]

theorem sum_comm' {α β : Type _} (f : α → β → Int) (m : List β) : ∀ l : List α,
    (l.map fun a => (m.map fun b => f a b).sum).sum = (m.map fun b => (l.map fun a => f a b).sum).sum
  | [] => by simp
  | a :: l => by
    simp only [List.map_cons, List.sum_cons, sum_comm' f m l]
    rw [← sum_map_add']

theorem sum_pick {v : Nat} {w : Int} : ∀ {l : List Nat}, l.Nodup → (l.map fun u => if v = u then w else 0).sum = if v ∈ l then w else 0
  | [], _ => by simp
  | a :: l, h => by
    obtain ⟨h1, h2⟩ := List.nodup_cons.1 h
    rw [List.map_cons, List.sum_cons, sum_pick h2]
    by_cases ha : v = a
    · subst ha; simp [h1]
    · simp [ha]

/-- The weight of the edges from one list of nodes to another. -/
def weightBetween (g : PGraph) (A B : List Nat) : Int := ((A.flatMap g.adj).map fun x => if x.1 ∈ B then x.2 else 0).sum

theorem weightBetween_eq (g : PGraph) (A : List Nat) {B : List Nat} (hB : B.Nodup) :
    weightBetween g A B = (A.map fun u => (B.map fun v => between g u v).sum).sum := by
  unfold weightBetween between
  rw [sum_flatMap']
  refine sum_map_congr fun u _ => ?_
  rw [sum_comm' (fun v (x : Nat × Int) => if x.1 = v then x.2 else 0)]
  exact sum_map_congr fun x _ => (sum_pick hB).symm

theorem weightBetween_symm {g : PGraph} (G : Graph g) {A B : List Nat} (hA : A.Nodup) (hB : B.Nodup) (oA : ∀ u ∈ A, u < g.n)
    (oB : ∀ u ∈ B, u < g.n) : weightBetween g A B = weightBetween g B A := by
  rw [weightBetween_eq g A hB, weightBetween_eq g B hA, sum_comm' (fun u v => between g u v)]
  refine sum_map_congr fun v hv => sum_map_congr fun u hu => G.symm u (oA u hu) v (oB v hv)

theorem sum_delta (src dst b : Nat) (p : Nat × Int → Prop) [DecidablePred p] (l : List (Nat × Int)) :
    (l.map fun x => if p x then delta src dst b x.2 else 0).sum = delta src dst b (l.map fun x => if p x then x.2 else 0).sum := by
  induction l with
  | nil => simp [delta]
  | cons a l ih =>
    simp only [List.map_cons, List.sum_cons, ih]
    unfold delta
    split_ifs <;> ring

theorem updAll (dst : Nat) : ∀ (l : List Nat) (f : Nat → Nat) (v : Nat), l.foldl (fun b u => upd b u dst) f v = if v ∈ l then dst else f v
  | [], f, v => by simp
  | a :: l, f, v => by
    rw [List.foldl_cons, updAll dst l]
    by_cases h : v ∈ l
    · simp [h]
    · by_cases ha : v = a
      · subst ha; simp [h]
      · simp [h, ha, upd_ne]

theorem moveCluster_exact {g : PGraph} {S : Sets} {s : St} {c dst u : Nat} {nodes : List Nat} (G : Graph g) (C : Clustering g S)
    (B : Blocks g S s.block) (E : Exact g S s) (hc : S.members[c]? = some nodes) (hu : u ∈ nodes) (hd : dst < g.k) :
    Exact g S ⟨nodes.foldl (fun b v => upd b v dst) s.block, moveCluster g S s.conns c (s.block u) dst nodes⟩ := by
  intro d l hl b hb
  have hs : s.block u < g.k := B.lt u (by have := C.owned c nodes hc u hu; omega)
  show moveCluster g S s.conns c (s.block u) dst nodes (d * g.k + b) = connTo g (nodes.foldl (fun b v => upd b v dst) s.block) l b
  unfold moveCluster
  rw [moveEdges_at hs hd hb, E d l hl b hb]
  by_cases hdc : d = c
  · subst hdc
    obtain rfl : nodes = l := Option.some.inj (hc.symm.trans hl)
    rw [sum_map_zero (fun x _ => if_neg (by rintro ⟨_, _, h⟩; exact h rfl)), add_zero]
    refine sum_map_congr fun x _ => ?_
    rw [updAll]
    by_cases hx : x.1 ∈ nodes
    · simp [hx]
    · rw [if_neg (c := x.1 ∈ nodes) hx]
  · have e1 : ((nodes.flatMap g.adj).map fun x => if x.1 < g.n ∧ S.clusterOf x.1 = some d ∧ d ≠ c then delta (s.block u) dst b x.2 else 0).sum
        = delta (s.block u) dst b (weightBetween g nodes l) := by
      unfold weightBetween
      rw [← sum_delta]
      refine sum_map_congr fun x _ => ?_
      by_cases hx : x.1 ∈ l
      · have := C.owned d l hl x.1 hx
        rw [if_pos ⟨this, (C.of d l hl x.1 this).2 hx, hdc⟩, if_pos hx]
      · rw [if_neg (by rintro ⟨h1, h2, _⟩; exact hx ((C.of d l hl x.1 h1).1 h2)), if_neg hx]
    rw [e1, weightBetween_symm G (C.nodup c nodes hc) (C.nodup d l hl) (C.owned c nodes hc) (C.owned d l hl)]
    unfold weightBetween connTo
    rw [← sum_delta, ← sum_map_add']
    refine sum_map_congr fun x _ => ?_
    rw [updAll]
    by_cases hx : x.1 ∈ nodes
    · have ho := C.owned c nodes hc x.1 hx
      have hxl : x.1 ∉ l := fun h => hdc (Option.some.inj (((C.of d l hl x.1 ho).2 h).symm.trans ((C.of c nodes hc x.1 ho).2 hx)))
      rw [if_pos (c := x.1 ∈ nodes) hx, if_pos (c := x.1 ∈ nodes) hx, B.same c nodes hc x.1 hx u hu]
      unfold delta
      by_cases h1 : b = dst <;> by_cases h2 : b = s.block u <;> simp [hxl, h1, h2, eq_comm] <;> omega
    · rw [if_neg (c := x.1 ∈ nodes) hx, if_neg (c := x.1 ∈ nodes) hx, add_zero]

/-! ## Ghost nodes -/

/-- The weight of the edges from a list of nodes to the ghost node `p`. -/
def toGhost (g : PGraph) (nodes : List Nat) (p : Nat) : Int :=
  ((nodes.flatMap g.adj).map fun x => if x.1 = g.n + p then x.2 else 0).sum

structure TouchInv (s : List Nat × (Nat → Int)) : Prop where
  nodup : s.1.Nodup
  mem : ∀ p, p ∈ s.1 ↔ s.2 p ≠ 0
  nonneg : ∀ p, 0 ≤ s.2 p

theorem touch_inv {g : PGraph} : ∀ (l : List (Nat × Int)) (s : List Nat × (Nat → Int)), (∀ x ∈ l, 0 < x.2) → TouchInv s →
    TouchInv (l.foldl (touch g) s) ∧ ∀ p, (l.foldl (touch g) s).2 p = s.2 p + (l.map fun x => if x.1 = g.n + p then x.2 else 0).sum
  | [], s, _, h => ⟨h, fun p => by simp⟩
  | x :: l, s, hp, h => by
    have hx : 0 < x.2 := hp x (List.mem_cons_self ..)
    have key : TouchInv (touch g s x) ∧ ∀ p, (touch g s x).2 p = s.2 p + if x.1 = g.n + p then x.2 else 0 := by
      unfold touch
      by_cases ho : x.1 < g.n
      · rw [if_pos ho]
        exact ⟨h, fun p => by rw [if_neg (by omega), add_zero]⟩
      · rw [if_neg ho]
        refine ⟨⟨?_, fun p => ?_, fun p => ?_⟩, fun p => ?_⟩
        · show (if s.2 (x.1 - g.n) = 0 then s.1 ++ [x.1 - g.n] else s.1).Nodup
          split
          · rename_i h0
            refine List.nodup_append.2 ⟨h.nodup, List.nodup_singleton _, ?_⟩
            intro a ha b hb e
            rw [List.mem_singleton] at hb
            subst hb; subst e
            exact (h.mem _).1 ha h0
          · exact h.nodup
        · show p ∈ (if s.2 (x.1 - g.n) = 0 then s.1 ++ [x.1 - g.n] else s.1) ↔ upd s.2 (x.1 - g.n) (s.2 (x.1 - g.n) + x.2) p ≠ 0
          by_cases hpe : p = x.1 - g.n
          · subst hpe
            rw [upd_same]
            have := h.nonneg (x.1 - g.n)
            refine ⟨fun _ => by omega, fun _ => ?_⟩
            split
            · simp
            · rename_i h0; exact (h.mem _).2 h0
          · rw [upd_ne _ _ hpe, ← h.mem p]
            split <;> simp [hpe]
        · show 0 ≤ upd s.2 (x.1 - g.n) (s.2 (x.1 - g.n) + x.2) p
          by_cases hpe : p = x.1 - g.n
          · subst hpe; rw [upd_same]; have := h.nonneg (x.1 - g.n); omega
          · rw [upd_ne _ _ hpe]; exact h.nonneg p
        · show upd s.2 (x.1 - g.n) (s.2 (x.1 - g.n) + x.2) p = _
          by_cases hpe : p = x.1 - g.n
          · subst hpe; rw [upd_same, if_pos (by omega)]
          · rw [upd_ne _ _ hpe, if_neg (by omega), add_zero]
    obtain ⟨h1, h2⟩ := touch_inv l (touch g s x) (fun y hy => hp y (List.mem_cons_of_mem _ hy)) key.1
    refine ⟨h1, fun p => ?_⟩
    rw [List.foldl_cons, h2 p, key.2 p, List.map_cons, List.sum_cons, add_assoc]

theorem edges_pos {g : PGraph} (G : Graph g) {nodes : List Nat} (ho : ∀ u ∈ nodes, u < g.n) : ∀ x ∈ nodes.flatMap g.adj, 0 < x.2 := by
  intro x hx
  obtain ⟨u, hu, h⟩ := List.mem_flatMap.1 hx
  exact G.pos u (ho u hu) x h

theorem entries_ok {g : PGraph} (G : Graph g) {nodes : List Nat} (ho : ∀ u ∈ nodes, u < g.n) :
    (∀ p, ((entries g nodes).map fun e => if e.1 = p then e.2 else 0).sum = toGhost g nodes p) ∧ ∀ e ∈ entries g nodes, e.1 < g.ghosts := by
  obtain ⟨I, hd⟩ := touch_inv (g := g) (nodes.flatMap g.adj) ([], fun _ => 0) (edges_pos G ho)
    ⟨List.nodup_nil, fun p => by simp, fun p => le_refl 0⟩
  refine ⟨fun p => ?_, fun e he => ?_⟩
  · have hd' := hd p
    rw [zero_add] at hd'
    unfold entries toGhost
    rw [← hd', List.map_map]
    have := sum_pick (v := p) (w := ((nodes.flatMap g.adj).foldl (touch g) ([], fun _ => 0)).2 p) I.nodup
    rw [sum_map_congr (h := fun u => if p = u then ((nodes.flatMap g.adj).foldl (touch g) ([], fun _ => 0)).2 p else 0) (fun a _ => ?_), this]
    · split
      · rfl
      · rename_i h0
        by_contra hne
        exact h0 ((I.mem p).2 fun e => hne e.symm)
    · show (if a = p then ((nodes.flatMap g.adj).foldl (touch g) ([], fun _ => 0)).2 a else 0) = _
      by_cases hap : a = p
      · subst hap; rw [if_pos rfl]
      · rw [if_neg hap, if_neg (fun e => hap e.symm)]
  · obtain ⟨p, hp, rfl⟩ := List.mem_map.1 he
    show p < g.ghosts
    by_contra hge
    refine (I.mem p).1 hp ?_
    rw [hd p, zero_add]
    refine sum_map_zero fun x hx => if_neg fun hxe => ?_
    obtain ⟨u, hu, h⟩ := List.mem_flatMap.1 hx
    have := G.known u (ho u hu) x h
    omega

theorem sum_zipIdx {α : Type _} (f : α → Int) (c : Nat) : ∀ (l : List α) (k : Nat),
    ((l.zipIdx k).map fun m => if m.2 = c then f m.1 else 0).sum = if k ≤ c then (l[c - k]?).elim 0 f else 0
  | [], k => by simp
  | a :: l, k => by
    rw [List.zipIdx_cons, List.map_cons, List.sum_cons, sum_zipIdx f c l]
    by_cases h : k = c
    · subst h; simp
    · by_cases h1 : k + 1 ≤ c
      · obtain ⟨d, hd⟩ : ∃ d, c - k = d + 1 := ⟨c - k - 1, by omega⟩
        have hd' : c - (k + 1) = d := by omega
        rw [if_pos h1, if_pos (show k ≤ c by omega), hd, hd']
        simp [h]
      · rw [if_neg h1, if_neg (show ¬ k ≤ c by omega)]
        simp [h]

theorem ghostToCluster_ok {g : PGraph} {S : Sets} (G : Graph g) (C : Clustering g S) {c : Nat} {l : List Nat} (hc : S.members[c]? = some l) (p : Nat) :
    ((ghostToCluster g S.members).map fun t => if t.1 = p ∧ t.2.2 = c then t.2.1 else 0).sum = toGhost g l p := by
  unfold ghostToCluster
  rw [sum_flatMap']
  rw [sum_map_congr (h := fun m => if m.2 = c then toGhost g m.1 p else 0) (fun m hm => ?_), sum_zipIdx (fun l => toGhost g l p) c S.members 0]
  · rw [if_pos (Nat.zero_le c), Nat.sub_zero, hc]; rfl
  · rw [List.map_map]
    by_cases h : m.2 = c
    · rw [if_pos h]
      have hm' : S.members[m.2]? = some m.1 := by
        have := List.mem_zipIdx hm
        simp only [Nat.sub_zero, Nat.zero_add] at this
        rw [List.getElem?_eq_getElem (by omega), this.2.2]
      rw [← (entries_ok G (C.owned m.2 m.1 hm')).1 p]
      refine sum_map_congr fun e _ => ?_
      show (if e.1 = p ∧ m.2 = c then e.2 else 0) = _
      simp [h]
    · rw [if_neg h]
      exact sum_map_zero fun e _ => if_neg (by rintro ⟨_, h'⟩; exact h h')

theorem ghostToCluster_lt {g : PGraph} {S : Sets} (G : Graph g) (C : Clustering g S) : ∀ t ∈ ghostToCluster g S.members, t.1 < g.ghosts := by
  intro t ht
  obtain ⟨m, hm, h⟩ := List.mem_flatMap.1 ht
  obtain ⟨e, he, rfl⟩ := List.mem_map.1 h
  have hm' : S.members[m.2]? = some m.1 := by
    have := List.mem_zipIdx hm
    simp only [Nat.sub_zero, Nat.zero_add] at this
    rw [List.getElem?_eq_getElem (by omega), this.2.2]
  exact (entries_ok G (C.owned m.2 m.1 hm')).2 e he

theorem fillIndices_at (size i : Nat) : ∀ (d prev upto : Nat) (ix : Nat → Nat), upto - prev = d →
    fillIndices ix prev upto size i = if prev < i ∧ i ≤ upto then size else ix i
  | 0, prev, upto, ix, h => by
    unfold fillIndices
    rw [h, if_neg (by omega)]; rfl
  | d + 1, prev, upto, ix, h => by
    have ih := fillIndices_at size i d (prev + 1) upto (upd ix (prev + 1) size) (by omega)
    unfold fillIndices at ih ⊢
    rw [h, List.range'_succ, List.foldl_cons]
    rw [show upto - (prev + 1) = d by omega] at ih
    rw [ih]
    by_cases h1 : i = prev + 1
    · subst h1; rw [upd_same, if_neg (by omega), if_pos (by omega)]
    · rw [upd_ne _ _ h1]
      by_cases h2 : prev < i ∧ i ≤ upto
      · rw [if_pos (by omega), if_pos h2]
      · rw [if_neg (by omega), if_neg h2]

theorem adjacency_fold : ∀ (l : List (Nat × Int × Nat)) (s : Nat × (Nat → Nat) × List (Nat × Int)), l.Pairwise (fun a b => a.1 ≤ b.1) →
    (∀ t ∈ l, s.1 ≤ t.1) → ∃ prev ix, l.foldl adjacencyStep s = (prev, ix, s.2.2 ++ l.map fun t => (t.2.2, t.2.1)) ∧ s.1 ≤ prev ∧
      (prev = s.1 ∨ ∃ t ∈ l, t.1 = prev) ∧ (∀ t ∈ l, t.1 ≤ prev) ∧ (∀ i ≤ s.1, ix i = s.2.1 i) ∧
      ∀ i, s.1 < i → i ≤ prev → ix i = s.2.2.length + (l.filter fun t => decide (t.1 < i)).length
  | [], s, _, _ => ⟨s.1, s.2.1, by simp, le_refl _, .inl rfl, by simp, fun _ _ => rfl, fun i h1 h2 => by omega⟩
  | t :: l, s, hs, hge => by
    obtain ⟨h1, h2⟩ := List.pairwise_cons.1 hs
    have ht : s.1 ≤ t.1 := hge t (List.mem_cons_self ..)
    have hm : max s.1 t.1 = t.1 := max_eq_right ht
    obtain ⟨prev, ix, e, hle, hat, hub, hlo, hhi⟩ := adjacency_fold l (adjacencyStep s t) h2 (by
      intro x hx; show max s.1 t.1 ≤ x.1; rw [hm]; exact h1 x hx)
    have hle' : t.1 ≤ prev := by rw [← hm]; exact hle
    have hlo' : ∀ i ≤ t.1, ix i = fillIndices s.2.1 s.1 t.1 s.2.2.length i := fun i hi => hlo i (by show i ≤ max s.1 t.1; omega)
    refine ⟨prev, ix, ?_, by omega, ?_, ?_, ?_, ?_⟩
    · rw [List.foldl_cons, e]
      show (prev, ix, (s.2.2 ++ [(t.2.2, t.2.1)]) ++ _) = _
      rw [List.append_assoc, List.map_cons]; rfl
    · rcases hat with h | ⟨x, hx, h⟩
      · exact .inr ⟨t, List.mem_cons_self .., by rw [h]; exact hm.symm⟩
      · exact .inr ⟨x, List.mem_cons_of_mem _ hx, h⟩
    · intro x hx
      rcases List.mem_cons.1 hx with rfl | hx
      · exact hle'
      · exact hub x hx
    · intro i hi
      rw [hlo' i (by omega), fillIndices_at _ i _ _ _ _ rfl, if_neg (by omega)]
    · intro i hi hip
      by_cases hit : i ≤ t.1
      · rw [hlo' i hit, fillIndices_at _ i _ _ _ _ rfl, if_pos ⟨hi, hit⟩]
        rw [List.filter_eq_nil_iff.2, List.length_nil, Nat.add_zero]
        intro x hx
        rcases List.mem_cons.1 hx with rfl | hx
        · simp only [decide_eq_true_eq]; omega
        · have := h1 x hx; simp only [decide_eq_true_eq]; omega
      · rw [hhi i (by show max s.1 t.1 < i; omega) hip, List.filter_cons_of_pos (by simp only [decide_eq_true_eq]; omega)]
        show (s.2.2 ++ [(t.2.2, t.2.1)]).length + _ = _
        rw [List.length_append, List.length_cons, List.length_cons, List.length_nil]; omega

theorem adjacency_ok {ghosts : Nat} {junk : Nat → Nat} {s : List (Nat × Int × Nat)} (hs : s.Pairwise fun a b => a.1 ≤ b.1) :
    (adjacency ghosts junk s).2 = List.replicate s.length (0, 0) ++ s.map (fun t => (t.2.2, t.2.1)) ∧ (adjacency ghosts junk s).1 0 = 0 ∧
      ((∀ t ∈ s, t.1 < ghosts) → ∀ i, 0 < i → i ≤ ghosts →
        (adjacency ghosts junk s).1 i = s.length + (s.filter fun t => decide (t.1 < i)).length) := by
  obtain ⟨prev, ix, e, hle, hat, hub, hlo, hhi⟩ := adjacency_fold s (0, upd junk 0 0, List.replicate s.length (0, 0)) hs (fun _ _ => Nat.zero_le _)
  unfold adjacency
  rw [e]
  refine ⟨rfl, ?_, fun hlt i h1 h2 => ?_⟩
  · show fillIndices ix prev ghosts _ 0 = 0
    rw [fillIndices_at _ 0 _ _ _ _ rfl, if_neg (by omega), hlo 0 (Nat.zero_le _)]
    exact upd_same junk 0 0
  · show fillIndices ix prev ghosts (List.replicate s.length ((0 : Nat), (0 : Int)) ++ s.map fun t => (t.2.2, t.2.1)).length i = _
    rw [fillIndices_at _ i _ _ _ _ rfl]
    split
    · rename_i h
      rw [List.length_append, List.length_replicate, List.length_map, List.filter_eq_self.2]
      intro t ht
      have := hub t ht
      simp only [decide_eq_true_eq]; omega
    · rename_i h
      rw [hhi i h1 (by omega)]
      show (List.replicate s.length ((0 : Nat), (0 : Int))).length + _ = _
      rw [List.length_replicate]

theorem sorted_split (i : Nat) : ∀ {s : List (Nat × Int × Nat)}, s.Pairwise (fun a b => a.1 ≤ b.1) →
    s = s.filter (fun t => decide (t.1 < i)) ++ (s.filter (fun t => decide (t.1 = i)) ++ s.filter fun t => decide (i < t.1))
  | [], _ => rfl
  | t :: s, h => by
    obtain ⟨h1, h2⟩ := List.pairwise_cons.1 h
    have ih := sorted_split i h2
    rcases Nat.lt_trichotomy t.1 i with hlt | heq | hgt
    · rw [List.filter_cons_of_pos (by simpa using hlt), List.filter_cons_of_neg (by simp; omega), List.filter_cons_of_neg (by simp; omega),
        List.cons_append, ← ih]
    · have e1 : s.filter (fun t => decide (t.1 < i)) = [] :=
        List.filter_eq_nil_iff.2 fun x hx => by have := h1 x hx; simp only [decide_eq_true_eq]; omega
      rw [List.filter_cons_of_neg (by simp; omega), List.filter_cons_of_pos (by simpa using heq), List.filter_cons_of_neg (by simp; omega), e1]
      rw [e1, List.nil_append] at ih
      rw [List.nil_append, List.cons_append, ← ih]
    · have e1 : (t :: s).filter (fun t => decide (t.1 < i)) = [] := List.filter_eq_nil_iff.2 fun x hx => by
        rcases List.mem_cons.1 hx with rfl | hx
        · simp only [decide_eq_true_eq]; omega
        · have := h1 x hx; simp only [decide_eq_true_eq]; omega
      have e2 : (t :: s).filter (fun t => decide (t.1 = i)) = [] := List.filter_eq_nil_iff.2 fun x hx => by
        rcases List.mem_cons.1 hx with rfl | hx
        · simp only [decide_eq_true_eq]; omega
        · have := h1 x hx; simp only [decide_eq_true_eq]; omega
      rw [e1, e2, List.nil_append, List.nil_append, List.filter_eq_self.2]
      intro x hx
      rcases List.mem_cons.1 hx with rfl | hx
      · simpa using hgt
      · have := h1 x hx; simp only [decide_eq_true_eq]; omega

theorem slice_fold (k src dst : Nat) : ∀ (Y X Z : List (Nat × Int)) (conns : Nat → Int),
    (List.range' X.length Y.length).foldlM (ghostEdge? k (X ++ (Y ++ Z)) src dst) conns =
      some (Y.foldl (fun f x => shift k f x.1 src dst x.2) conns)
  | [], X, Z, conns => rfl
  | y :: Y, X, Z, conns => by
    rw [List.length_cons, List.range'_succ, List.foldlM_cons]
    have hy : ghostEdge? k (X ++ (y :: Y ++ Z)) src dst conns X.length = some (shift k conns y.1 src dst y.2) := by
      unfold ghostEdge?
      rw [List.getElem?_append_right (le_refl _), Nat.sub_self]; rfl
    rw [hy]
    have ih := slice_fold k src dst Y (X ++ [y]) Z (shift k conns y.1 src dst y.2)
    rw [List.length_append, List.length_singleton, List.append_assoc] at ih
    exact ih

theorem shifts_at {k src dst d b : Nat} (hs : src < k) (hd : dst < k) (hb : b < k) : ∀ (Y : List (Nat × Int)) (conns : Nat → Int),
    Y.foldl (fun f x => shift k f x.1 src dst x.2) conns (d * k + b) =
      conns (d * k + b) + (Y.map fun x => if d = x.1 then delta src dst b x.2 else 0).sum
  | [], conns => by simp
  | y :: Y, conns => by
    rw [List.foldl_cons, shifts_at hs hd hb Y, shift_at conns hs hd hb, List.map_cons, List.sum_cons, add_assoc]

/-- The entries of a ghost node. -/
def listed (A : (Nat → Nat) × List (Nat × Int)) (p : Nat) : List (Nat × Int) := (A.2.drop (A.1 p)).take (A.1 (p + 1) - A.1 p)

theorem adjacency_slice {ghosts : Nat} {junk : Nat → Nat} {s : List (Nat × Int × Nat)} (hs : s.Pairwise fun a b => a.1 ≤ b.1)
    (hlt : ∀ t ∈ s, t.1 < ghosts) {p : Nat} (hp : p < ghosts) : ∃ X Y Z, (adjacency ghosts junk s).2 = X ++ (Y ++ Z) ∧
      (adjacency ghosts junk s).1 p = X.length ∧ (adjacency ghosts junk s).1 (p + 1) - (adjacency ghosts junk s).1 p = Y.length ∧
      Y = (if p = 0 then List.replicate s.length (0, 0) else []) ++ (s.filter fun t => decide (t.1 = p)).map fun t => (t.2.2, t.2.1) := by
  obtain ⟨e, e0, ei⟩ := adjacency_ok (ghosts := ghosts) (junk := junk) hs
  have hsp := sorted_split p hs
  have hcount : (s.filter fun t => decide (t.1 < p + 1)).length = (s.filter fun t => decide (t.1 < p)).length +
      (s.filter fun t => decide (t.1 = p)).length := by
    clear hsp e e0 ei hs hlt
    induction s with
    | nil => rfl
    | cons t s ih =>
      rcases Nat.lt_trichotomy t.1 p with h | h | h
      · rw [List.filter_cons_of_pos (by simp; omega), List.filter_cons_of_pos (by simpa using h), List.filter_cons_of_neg (by simp; omega)]
        simp only [List.length_cons, ih]; omega
      · rw [List.filter_cons_of_pos (by simp; omega), List.filter_cons_of_neg (by simp; omega), List.filter_cons_of_pos (by simpa using h)]
        simp only [List.length_cons, ih]; omega
      · rw [List.filter_cons_of_neg (by simp; omega), List.filter_cons_of_neg (by simp; omega), List.filter_cons_of_neg (by simp; omega), ih]
  by_cases h0 : p = 0
  · subst h0
    have hnone : s.filter (fun t => decide (t.1 < 0)) = [] := List.filter_eq_nil_iff.2 fun x _ => by simp
    rw [hnone, List.nil_append] at hsp
    rw [hnone, List.length_nil, Nat.zero_add] at hcount
    refine ⟨[], _, (s.filter fun t => decide (0 < t.1)).map fun t => (t.2.2, t.2.1), ?_, e0, ?_, rfl⟩
    · rw [e, if_pos rfl, List.nil_append, List.append_assoc, ← List.map_append, ← hsp]
    · rw [e0, ei hlt 1 (by omega) (by omega), if_pos rfl, List.length_append, List.length_replicate, List.length_map, hcount]; omega
  · refine ⟨List.replicate s.length (0, 0) ++ (s.filter fun t => decide (t.1 < p)).map fun t => (t.2.2, t.2.1), _,
      (s.filter fun t => decide (p < t.1)).map fun t => (t.2.2, t.2.1), ?_, ?_, ?_, rfl⟩
    · rw [e, if_neg h0, List.nil_append, List.append_assoc, ← List.map_append, ← List.map_append, ← hsp]
    · rw [ei hlt p (by omega) (by omega), List.length_append, List.length_replicate, List.length_map]
    · rw [ei hlt p (by omega) (by omega), ei hlt (p + 1) (by omega) (by omega), if_neg h0, List.nil_append, List.length_map, hcount]; omega

theorem slice_sum {s : List (Nat × Int × Nat)} (p d : Nat) (m : Nat) :
    (((if p = 0 then List.replicate m ((0 : Nat), (0 : Int)) else []) ++ (s.filter fun t => decide (t.1 = p)).map fun t => (t.2.2, t.2.1)).map
      fun x => if d = x.1 then x.2 else 0).sum = (s.map fun t => if t.1 = p ∧ t.2.2 = d then t.2.1 else 0).sum := by
  rw [List.map_append, List.sum_append, sum_map_zero, zero_add]
  · induction s with
    | nil => rfl
    | cons t s ih =>
      by_cases h : t.1 = p
      · rw [List.filter_cons_of_pos (by simpa using h), List.map_cons, List.map_cons, List.sum_cons, ih, List.map_cons, List.sum_cons]
        simp [h, eq_comm]
      · rw [List.filter_cons_of_neg (by simpa using h), ih, List.map_cons, List.sum_cons]
        simp [h]
  · intro x hx
    split at hx
    · rw [List.eq_of_mem_replicate hx]; split <;> rfl
    · simp at hx

theorem moveGhost_exact {g : PGraph} {S : Sets} {s : St} {junk : Nat → Nat} {srt : List (Nat × Int × Nat)} {v dst : Nat} (G : Graph g)
    (C : Clustering g S) (B : Blocks g S s.block) (E : Exact g S s) (hsrt : SortedOf (ghostToCluster g S.members) srt) (hv : g.n ≤ v)
    (hv' : v < g.n + g.ghosts) (hd : dst < g.k) : ∃ conns,
      moveGhost? g.k (adjacency g.ghosts junk srt) s.conns (v - g.n) (s.block v) dst = some conns ∧ Exact g S ⟨upd s.block v dst, conns⟩ := by
  have hs : s.block v < g.k := B.lt v hv'
  obtain ⟨X, Y, Z, h1, h2, h3, h4⟩ := adjacency_slice (junk := junk) hsrt.2
    (fun t ht => ghostToCluster_lt G C t (hsrt.1.mem_iff.1 ht)) (show v - g.n < g.ghosts by omega)
  refine ⟨Y.foldl (fun f x => shift g.k f x.1 (s.block v) dst x.2) s.conns, ?_, ?_⟩
  · unfold moveGhost?
    rw [h3, h2, h1]
    exact slice_fold _ _ _ Y X Z s.conns
  · intro d l hl b hb
    show (Y.foldl (fun f x => shift g.k f x.1 (s.block v) dst x.2) s.conns) (d * g.k + b) = connTo g (upd s.block v dst) l b
    rw [shifts_at hs hd hb, E d l hl b hb, sum_delta (s.block v) dst b (fun x => d = x.1), h4, slice_sum,
      (hsrt.1.map _).sum_eq, ghostToCluster_ok G C hl]
    unfold toGhost connTo
    rw [← sum_delta, ← sum_map_add']
    refine sum_map_congr fun x _ => ?_
    by_cases hx : x.1 = v
    · have hxl : x.1 ∉ l := fun h => by have := C.owned d l hl x.1 h; omega
      rw [if_pos (show x.1 = g.n + (v - g.n) by omega), hx, upd_same]
      rw [hx] at hxl
      unfold delta
      by_cases h1 : b = dst <;> by_cases h2 : b = s.block v <;> simp [hxl, h1, h2, eq_comm] <;> omega
    · rw [if_neg (show ¬ x.1 = g.n + (v - g.n) by omega), add_zero, upd_ne _ _ hx]

/-! ## Sequences of moves -/

theorem step_ok {g : PGraph} {S : Sets} {s : St} {junk : Nat → Nat} {srt : List (Nat × Int × Nat)} {o : Op} (G : Graph g)
    (C : Clustering g S) (B : Blocks g S s.block) (E : Exact g S s) (hsrt : SortedOf (ghostToCluster g S.members) srt) (ho : o.Valid g S) :
    ∃ s', step? g S (adjacency g.ghosts junk srt) s o = some s' ∧ Exact g S s' ∧ Blocks g S s'.block ∧
      ∀ v, s'.block v = blockAfter S s.block [o] v := by
  cases o with
  | cluster c dst =>
    obtain ⟨h1, h2⟩ := ho
    have hc : S.members[c]? = some S.members[c] := List.getElem?_eq_getElem h1
    generalize S.members[c] = nodes at hc
    cases nodes with
    | nil => exact absurd rfl (C.nonempty c _ hc)
    | cons u l =>
      refine ⟨⟨(u :: l).foldl (fun b v => upd b v dst) s.block, moveCluster g S s.conns c (s.block u) dst (u :: l)⟩, ?_,
        moveCluster_exact G C B E hc (List.mem_cons_self ..) h2, ⟨fun v hv => ?_, fun d m hm x hx y hy => ?_⟩, fun v => ?_⟩
      · show S.members[c]?.bind _ = _
        rw [hc]; rfl
      · show (u :: l).foldl (fun b v => upd b v dst) s.block v < g.k
        rw [updAll]; split
        · exact h2
        · exact B.lt v hv
      · show (u :: l).foldl (fun b v => upd b v dst) s.block x = (u :: l).foldl (fun b v => upd b v dst) s.block y
        have ox := C.owned d m hm x hx
        have oy := C.owned d m hm y hy
        have e : ∀ z ∈ m, (z ∈ u :: l ↔ d = c) := fun z hz => by
          have oz := C.owned d m hm z hz
          rw [← C.of c _ hc z oz, (C.of d m hm z oz).2 hz]
          exact ⟨fun h => Option.some.inj h, fun h => by rw [h]⟩
        rw [updAll, updAll]
        by_cases h : d = c
        · rw [if_pos ((e x hx).2 h), if_pos ((e y hy).2 h)]
        · rw [if_neg (fun h' => h ((e x hx).1 h')), if_neg (fun h' => h ((e y hy).1 h')), B.same d m hm x hx y hy]
      · show (u :: l).foldl (fun b v => upd b v dst) s.block v = if v ∈ S.members.getD c [] then dst else s.block v
        rw [updAll, List.getD_eq_getElem?_getD, hc]; rfl
  | ghost v dst =>
    obtain ⟨h1, h2, h3⟩ := ho
    obtain ⟨conns, e, hE⟩ := moveGhost_exact (junk := junk) G C B E hsrt h1 h2 h3
    refine ⟨⟨upd s.block v dst, conns⟩, ?_, hE, ⟨fun x hx => ?_, fun d m hm x hx y hy => ?_⟩, fun x => ?_⟩
    · unfold step?; simp only [h1, h2, and_self, if_true]; rw [e]; rfl
    · show upd s.block v dst x < g.k
      by_cases h : x = v
      · subst h; rw [upd_same]; exact h3
      · rw [upd_ne _ _ h]; exact B.lt x hx
    · show upd s.block v dst x = upd s.block v dst y
      have ox := C.owned d m hm x hx
      have oy := C.owned d m hm y hy
      rw [upd_ne _ _ (by omega), upd_ne _ _ (by omega), B.same d m hm x hx y hy]
    · show upd s.block v dst x = if x = v then dst else s.block x
      rfl

theorem run_ok {g : PGraph} {S : Sets} {junk : Nat → Nat} {srt : List (Nat × Int × Nat)} (G : Graph g)
    (C : Clustering g S) (hsrt : SortedOf (ghostToCluster g S.members) srt) : ∀ (ops : List Op) (s : St), Blocks g S s.block → Exact g S s →
    (∀ o ∈ ops, o.Valid g S) → ∃ s', run? g S (adjacency g.ghosts junk srt) s ops = some s' ∧ Exact g S s' ∧ Blocks g S s'.block ∧
      ∀ v, s'.block v = blockAfter S s.block ops v
  | [], s, B, E, _ => ⟨s, rfl, E, B, fun _ => rfl⟩
  | o :: ops, s, B, E, h => by
    obtain ⟨s1, e1, E1, B1, b1⟩ := step_ok (junk := junk) G C B E hsrt (h o (List.mem_cons_self ..))
    obtain ⟨s2, e2, E2, B2, b2⟩ := run_ok (junk := junk) G C hsrt ops s1 B1 E1 fun x hx => h x (List.mem_cons_of_mem _ hx)
    refine ⟨s2, ?_, E2, B2, fun v => ?_⟩
    · unfold run? at e2 ⊢
      rw [List.foldlM_cons, e1]; exact e2
    · rw [b2 v]
      unfold blockAfter
      rw [List.foldl_cons, b1 v]; rfl

/-! ## Singletons -/

theorem addConns_at {k c d b : Nat} {block : Nat → Nat} (hb : b < k) : ∀ (l : List (Nat × Int)) (conns : Nat → Int), (∀ x ∈ l, block x.1 < k) →
    l.foldl (addConn k block c) conns (d * k + b) =
      conns (d * k + b) + if d = c then (l.map fun x => if block x.1 = b then x.2 else 0).sum else 0
  | [], conns, _ => by simp
  | x :: l, conns, h => by
    rw [List.foldl_cons, addConns_at hb l _ fun y hy => h y (List.mem_cons_of_mem _ hy)]
    have hx : addConn k block c conns x (d * k + b) = conns (d * k + b) + if d = c ∧ block x.1 = b then x.2 else 0 := by
      unfold addConn
      by_cases e : d * k + b = c * k + block x.1
      · obtain ⟨h1, h2⟩ := flat_inj hb (h x (List.mem_cons_self ..)) e
        rw [e, upd_same, if_pos ⟨h1, h2.symm⟩]
      · rw [upd_ne _ _ e, if_neg (by rintro ⟨rfl, h2⟩; exact e (by rw [h2])), add_zero]
    rw [hx, List.map_cons, List.sum_cons]
    by_cases hdc : d = c
    · subst hdc; simp only [true_and, if_true]; ring
    · simp [hdc]

structure SingleInv (g : PGraph) (block : Nat → Nat) (over : Nat → Bool) (m : Nat) (s : Sets × (Nat → Int)) : Prop where
  single : ∀ (c : Nat) l, s.1.members[c]? = some l → ∃ u < m, l = [u] ∧ over (block u) = true
  of : ∀ (u c : Nat), s.1.clusterOf u = some c ↔ s.1.members[c]? = some [u]
  cover : ∀ u < m, over (block u) = true → ∃ c, s.1.clusterOf u = some c
  conns : ∀ (c u : Nat), s.1.members[c]? = some [u] → ∀ b < g.k,
    s.2 (c * g.k + b) = ((g.adj u).map fun x => if block x.1 = b then x.2 else 0).sum
  zero : ∀ c, s.1.members.length ≤ c → ∀ b < g.k, s.2 (c * g.k + b) = 0

theorem singleton_step {g : PGraph} {block : Nat → Nat} {over : Nat → Bool} {m : Nat} {s : Sets × (Nat → Int)}
    (hb : ∀ x ∈ g.adj m, block x.1 < g.k) (I : SingleInv g block over m s) : SingleInv g block over (m + 1) (singletonStep g block over s m) := by
  have fresh : s.1.clusterOf m = none := by
    cases h : s.1.clusterOf m with
    | none => rfl
    | some c =>
      obtain ⟨u, hu, e, _⟩ := I.single c _ ((I.of m c).1 h)
      have := (List.cons.inj e).1
      omega
  unfold singletonStep
  by_cases ho : over (block m) = true
  · rw [if_pos ho]
    have get : ∀ (c : Nat) (l : List Nat), (s.1.members ++ [[m]])[c]? = some l ↔ s.1.members[c]? = some l ∨ (c = s.1.members.length ∧ l = [m]) := by
      intro c l
      rcases Nat.lt_trichotomy c s.1.members.length with h | h | h
      · rw [List.getElem?_append_left h]
        exact ⟨fun e => .inl e, fun e => e.elim id fun e => by omega⟩
      · subst h
        rw [List.getElem?_append_right (le_refl _), Nat.sub_self, List.getElem?_eq_none (l := s.1.members) (le_refl _)]
        simp [eq_comm]
      · rw [List.getElem?_eq_none (by simp; omega), List.getElem?_eq_none (l := s.1.members) (by omega)]
        constructor
        · intro h'; exact absurd h' (by simp)
        · rintro (h' | ⟨h', _⟩)
          · exact absurd h' (by simp)
          · omega
    refine ⟨fun c l hl => ?_, fun u c => ?_, fun u hu hou => ?_, fun c u hcu b hbk => ?_, fun c hc b hbk => ?_⟩
    · rcases (get c l).1 hl with h | ⟨_, rfl⟩
      · obtain ⟨u, hu, h1, h2⟩ := I.single c l h
        exact ⟨u, by omega, h1, h2⟩
      · exact ⟨m, by omega, rfl, ho⟩
    · show upd s.1.clusterOf m (some s.1.members.length) u = some c ↔ (s.1.members ++ [[m]])[c]? = some [u]
      rw [get]
      by_cases hum : u = m
      · subst hum
        rw [upd_same]
        constructor
        · intro h; exact .inr ⟨(Option.some.inj h).symm, rfl⟩
        · rintro (h | ⟨h, _⟩)
          · rw [(I.of u c).2 h] at fresh; exact absurd fresh (by simp)
          · rw [h]
      · rw [upd_ne _ _ hum, I.of u c]
        exact ⟨.inl, fun h => h.elim id fun h => absurd (List.cons.inj h.2).1 hum⟩
    · show ∃ c, upd s.1.clusterOf m (some s.1.members.length) u = some c
      by_cases hum : u = m
      · subst hum; exact ⟨_, upd_same _ _ _⟩
      · obtain ⟨c, h⟩ := I.cover u (by omega) hou
        exact ⟨c, by rw [upd_ne _ _ hum, h]⟩
    · show (g.adj m).foldl (addConn g.k block s.1.members.length) s.2 (c * g.k + b) = _
      rw [addConns_at hbk _ _ hb]
      rcases (get c [u]).1 hcu with h | ⟨h, h'⟩
      · have : c < s.1.members.length := by
          by_contra hge
          rw [List.getElem?_eq_none (by omega)] at h
          exact absurd h (by simp)
        rw [if_neg (by omega), add_zero, I.conns c u h b hbk]
      · obtain rfl : u = m := (List.cons.inj h').1
        rw [if_pos h, I.zero c (by omega) b hbk, zero_add]
    · show (g.adj m).foldl (addConn g.k block s.1.members.length) s.2 (c * g.k + b) = 0
      have hc' : s.1.members.length + 1 ≤ c := by
        have : (s.1.members ++ [[m]]).length ≤ c := hc
        simpa using this
      rw [addConns_at hbk _ _ hb, if_neg (by omega), add_zero, I.zero c (by omega) b hbk]
  · rw [if_neg ho]
    refine ⟨fun c l hl => ?_, fun u c => ?_, fun u hu hou => ?_, fun c u hcu b hbk => I.conns c u hcu b hbk, fun c hc b hbk => I.zero c hc b hbk⟩
    · obtain ⟨u, hu, h1, h2⟩ := I.single c l hl
      exact ⟨u, by omega, h1, h2⟩
    · show upd s.1.clusterOf m none u = some c ↔ s.1.members[c]? = some [u]
      by_cases hum : u = m
      · subst hum; rw [upd_same, ← I.of u c, fresh]
      · rw [upd_ne _ _ hum, I.of u c]
    · show ∃ c, upd s.1.clusterOf m none u = some c
      have hum : u ≠ m := fun e => ho (e ▸ hou)
      obtain ⟨c, h⟩ := I.cover u (by omega) hou
      exact ⟨c, by rw [upd_ne _ _ hum, h]⟩

theorem singletons_inv {g : PGraph} {block : Nat → Nat} {over : Nat → Bool} (hb : ∀ u < g.n, ∀ x ∈ g.adj u, block x.1 < g.k) :
    SingleInv g block over g.n (singletons g block over) := by
  unfold singletons
  suffices h : ∀ m ≤ g.n, SingleInv g block over m ((List.range m).foldl (singletonStep g block over) (⟨[], fun _ => none⟩, fun _ => 0)) from
    h g.n (le_refl _)
  intro m
  induction m with
  | zero => intro _; exact ⟨by simp, by simp, by omega, by simp, fun _ _ _ _ => rfl⟩
  | succ m ih =>
    intro hm
    rw [List.range_succ, List.foldl_append]
    exact singleton_step (hb m (by omega)) (ih (by omega))

/-! ## The best block -/

theorem maxConn_fold {conn : Nat → Int} {own : Nat} {bw maxw : Nat → Int} {w : Int} : ∀ (l : List Nat) (s : Int × Nat),
    (l.foldl (maxConnStep conn own bw maxw w) s = s ∨ ∃ b ∈ l, b ≠ own ∧ bw b + w ≤ maxw b ∧ l.foldl (maxConnStep conn own bw maxw w) s = (conn b, b))
    ∧ s.1 ≤ (l.foldl (maxConnStep conn own bw maxw w) s).1 ∧
    ∀ b ∈ l, b ≠ own → bw b + w ≤ maxw b → conn b ≤ (l.foldl (maxConnStep conn own bw maxw w) s).1
  | [], s => ⟨.inl rfl, le_refl _, by simp⟩
  | a :: l, s => by
    obtain ⟨h1, h2, h3⟩ := maxConn_fold l (maxConnStep conn own bw maxw w s a)
    rw [List.foldl_cons]
    have hs : s.1 ≤ (maxConnStep conn own bw maxw w s a).1 := by
      unfold maxConnStep; split
      · rename_i h; exact le_of_lt h.2.1
      · exact le_refl _
    refine ⟨?_, le_trans hs h2, fun b hb ho hf => ?_⟩
    · rcases h1 with h | ⟨b, hb, h⟩
      · rw [h]
        unfold maxConnStep
        split
        · rename_i h'; exact .inr ⟨a, List.mem_cons_self .., h'.1, h'.2.2, rfl⟩
        · exact .inl rfl
      · exact .inr ⟨b, List.mem_cons_of_mem _ hb, h⟩
    · rcases List.mem_cons.1 hb with rfl | hb
      · refine le_trans ?_ h2
        unfold maxConnStep; split
        · exact le_refl _
        · rename_i h'
          by_contra hlt
          exact h' ⟨ho, by omega, hf⟩
      · exact h3 b hb ho hf

end Verif.ClusterBalancer

import Verif.Dist.HEMRound
import Verif.Dist.ColoredLPProps
import Verif.Dist.GlobalLPProps

/-!
# C82: the heavy edge matching clusterer computes a matching
-/

namespace Verif.Dist
open Verif

variable {dist : List Nat} {inp : Nat → Input} {g : Nat → DGraph} {Wt : Nat → Int} {cfg : HEMConfig} {ord : ColorOrder} {color : Nat → Nat}

theorem World.hem_colors (W : World dist inp g) (hsym : Symmetric dist inp) (hW : KnowsWeights dist g Wt) (O : ord.Ok dist inp)
    (hsort : ord.Sorts dist color) (hproper : ∀ a b, IsEdge dist inp a b → color a ≠ color b) (hsmall : ∀ p, p < procs dist → (g p).totalN < 2 ^ 31)
    {sch : Nat → HEMSchedule} (hsch : ∀ c, c < ord.colors → (sch c).Ok dist ord c) : ∀ c, c ≤ ord.colors →
    ∃ m, (List.range c).foldlM (hemColor? (procs dist) cfg g ord sch) (fun _ _ => invalidG) = some m ∧
      MatchVal dist inp Wt cfg color c (glue dist m) ∧ KnowsMatching dist g m (glue dist m)
  | 0, _ => ⟨_, rfl, ⟨fun _ _ h => absurd rfl h, fun _ _ _ _ h => absurd rfl h, fun _ _ _ => Or.inl rfl⟩, fun _ _ _ _ _ _ => Or.inl rfl⟩
  | c + 1, hc => by
    obtain ⟨m, h1, h2, h3⟩ := World.hem_colors W hsym hW O hsort hproper hsmall hsch c (by omega)
    obtain ⟨m', h4, h5⟩ := W.hem_color hsym hW O hsort hproper hsmall (show c < ord.colors by omega) (hsch c (by omega)) h2 h3
    refine ⟨m', ?_, h5⟩
    rw [List.range_succ, List.foldlM_append, h1]
    show List.foldlM (hemColor? (procs dist) cfg g ord sch) m [c] = _
    rw [List.foldlM_cons, h4]
    rfl

/-- **C82**, the clusterer on a graph whose nodes are sorted by colours. -/
theorem C82_sorted (W : World dist inp g) (hsym : Symmetric dist inp) (hW : KnowsWeights dist g Wt) (O : ord.Ok dist inp)
    (hsort : ord.Sorts dist color) (hproper : ∀ a b, IsEdge dist inp a b → color a ≠ color b)
    (hn : ((List.range (procs dist)).map fun p => (g p).totalN).sum < 2 ^ 31) (hm : globalM dist inp < 2 ^ 31)
    {sch : Nat → HEMSchedule} (hsch : ∀ c, c < ord.colors → (sch c).Ok dist ord c) :
    ∃ lab C, hemCluster? (procs dist) cfg g ord sch = some lab ∧ Clustered dist inp g lab C ∧ IsMatching dist inp Wt cfg C := by
  have hsmall : ∀ p, p < procs dist → (g p).totalN < 2 ^ 31 := by
    intro p hp
    have := List.single_le_sum (l := (List.range (procs dist)).map fun p => (g p).totalN) (fun _ _ => Nat.zero_le _) _
      (List.mem_map.2 ⟨p, List.mem_range.2 hp, rfl⟩)
    omega
  obtain ⟨m, h1, I, K⟩ := W.hem_colors (cfg := cfg) hsym hW O hsort hproper hsmall hsch ord.colors (Nat.le_refl _)
  obtain ⟨val, hval⟩ : ∃ val, val = glue dist m := ⟨_, rfl⟩
  rw [← hval] at I K
  let C : Nat → Nat := fun a => if val a = invalidG then a else val a
  have hC : ∀ a, a < globalN dist → C a = a ∨ (C a = val a ∧ val a ≠ invalidG ∧ val a ≠ a ∧ C (C a) = C a ∧
      (∃ w, 0 < w ∧ (a, C a, w) ∈ edges dist inp) ∧ Light cfg Wt a (C a)) := by
    intro a ha
    by_cases h : val a = invalidG
    · exact Or.inl (if_pos h)
    · have e : C a = val a := if_neg h
      rcases I.pair a ha h with h2 | ⟨h2, h3, h4⟩
      · exact Or.inl (by rw [e, h2])
      · by_cases h5 : val a = a
        · exact Or.inl (by rw [e, h5])
        · right
          rw [e]
          refine ⟨rfl, h, h5, ?_, h2, h4⟩
          show (if val (val a) = invalidG then val a else val (val a)) = val a
          rw [h3, ite_self]
  have hone : ∀ a b, a < globalN dist → b < globalN dist → C a ≠ a → C b ≠ b → C a = C b → a = b := by
    intro a b ha hb h2 h3 e
    obtain ⟨a1, a2, a3, _⟩ := (hC a ha).resolve_left h2
    obtain ⟨b1, b2, b3, _⟩ := (hC b hb).resolve_left h3
    exact I.one a b ha hb a2 a3 b3 (by rw [← a1, ← b1, e])
  have hpair : ∀ a b, a < globalN dist → b < globalN dist → a ≠ b → C a = C b → (C b = b ∧ C a = b ∧ C a ≠ a) ∨ (C a = a ∧ C b = a ∧ C b ≠ b) := by
    intro a b ha hb hne e
    by_cases h2 : C a = a
    · refine Or.inr ⟨h2, by rw [← e, h2], fun h3 => hne ?_⟩
      rw [← h2, e, h3]
    · by_cases h3 : C b = b
      · exact Or.inl ⟨h3, by rw [e, h3], h2⟩
      · exact absurd (hone a b ha hb h2 h3 e) hne
  have hlabels : ∀ a, a < globalN dist → C a < globalN dist := by
    intro a ha
    rcases hC a ha with h2 | ⟨_, _, _, _, ⟨w, _, h2⟩, _⟩
    · rw [h2]; exact ha
    · exact (edges_lt W.valid h2).2
  obtain ⟨lab, h2, h3⟩ := forAll_ok [] (N := procs dist) (f := fun p => hemSingle? (g p) (m p))
    (Q := fun p lab => ∀ l v, (g p).localToGlobal? l = some v → lab[l]? = some (C v)) (by
      intro p hp
      have R := W.represents p hp
      have hex : ∀ l, l < (g p).totalN → ∃ v, (g p).localToGlobal? l = some v := by
        intro l hl
        by_cases h : l < localN dist p
        · exact ⟨_, R.own l h⟩
        · obtain ⟨v, _, h2, _⟩ := R.ghost l (by omega) hl
          exact ⟨v, h2⟩
      have hv : ∀ l v, (g p).localToGlobal? l = some v → (if m p l = invalidG then (g p).localToGlobal? l else some (m p l)) = some (C v) := by
        intro l v hl
        have hK : m p l = val v ∨ val v = invalidG ∧ m p l = v := by
          by_cases h : l < localN dist p
          · have h4 := R.own l h
            rw [hl] at h4
            injection h4 with h4
            rw [h4, hval, W.glue_at _ hp h]
            exact Or.inl rfl
          · exact K p hp l v (by omega) hl
        show _ = some (if val v = invalidG then v else val v)
        rcases hK with h | ⟨h4, h5⟩
        · rw [h]
          by_cases h4 : val v = invalidG
          · rw [if_pos h4, if_pos h4, hl]
          · rw [if_neg h4, if_neg h4]
        · rw [if_pos h4, h5, hl, ite_self]
      refine ⟨(List.range (g p).totalN).map fun l => C (((g p).localToGlobal? l).getD 0), ?_, fun l v hl => ?_⟩
      · unfold hemSingle?
        refine mapM_some fun l hl => ?_
        obtain ⟨v, h⟩ := hex l (List.mem_range.1 hl)
        rw [hv l v h, h]
        rfl
      · rw [List.getElem?_map, List.getElem?_range (lt_total hl), Option.map_some, hl]
        rfl)
  refine ⟨lab, C, ?_, ⟨W, hlabels, fun p hp l v hl => h3 p hp l v hl, hn, hm⟩, ⟨fun a ha => ?_, fun a b c ha hb hc e1 e2 => ?_, fun a b ha hb hne e => ?_, fun hi a b ha hb hne e => ?_⟩⟩
  · unfold hemCluster?
    rw [h1, Option.bind_some, h2]
  · rcases hC a ha with h2 | ⟨_, _, _, h2, _⟩
    · rw [h2, h2]
    · exact h2
  · by_contra hno
    have n1 : a ≠ b := fun h => hno (Or.inl h)
    have n2 : b ≠ c := fun h => hno (Or.inr (Or.inl h))
    have n3 : a ≠ c := fun h => hno (Or.inr (Or.inr h))
    rcases hpair a b ha hb n1 e1 with ⟨x1, x2, x3⟩ | ⟨x1, x2, x3⟩
    · rcases hpair a c ha hc n3 (e1.trans e2) with ⟨y1, y2, y3⟩ | ⟨y1, y2, y3⟩
      · exact n2 (by rw [← x2, y2])
      · exact x3 y1
    · rcases hpair b c hb hc n2 e2 with ⟨y1, y2, y3⟩ | ⟨y1, y2, y3⟩
      · exact n3 (by rw [← x2, y2])
      · exact x3 y1
  · rcases hpair a b ha hb hne e with ⟨_, x2, x3⟩ | ⟨_, x2, x3⟩
    · obtain ⟨_, _, _, _, ⟨w, h4, h5⟩, _⟩ := (hC a ha).resolve_left x3
      rw [x2] at h5
      exact ⟨w, h4, Or.inl h5⟩
    · obtain ⟨_, _, _, _, ⟨w, h4, h5⟩, _⟩ := (hC b hb).resolve_left x3
      rw [x2] at h5
      exact ⟨w, h4, Or.inr h5⟩
  · rcases hpair a b ha hb hne e with ⟨_, x2, x3⟩ | ⟨_, x2, x3⟩
    · obtain ⟨_, _, _, _, _, h4⟩ := (hC a ha).resolve_left x3
      rw [x2] at h4
      exact h4 hi
    · obtain ⟨_, _, _, _, _, h4⟩ := (hC b hb).resolve_left x3
      rw [x2] at h4
      have := h4 hi
      omega

/-- **C82**, heavy edge matching: the nodes are coloured and sorted by colours, and then the clusterer ends, whatever threads and messages do,
with clusters that all processes know.  They are a matching: a cluster has at most two nodes, two nodes of a cluster are joined by an edge of
positive weight, and they are not too heavy unless the limit is ignored.  Each process must have a node. -/
theorem C82_heavy_edge_matching (W : World dist inp g) (hsym : Symmetric dist inp) (hirr : ∀ a, ¬ IsEdge dist inp a a) (hW : KnowsWeights dist g Wt)
    (hne : ∀ p, p < procs dist → 0 < localN dist p) (hn : ((List.range (procs dist)).map fun p => (g p).totalN).sum < 2 ^ 31)
    (hm : globalM dist inp < 2 ^ 31) {S : Nat} (hS : 0 < S) (csch : Nat → Nat → ColorSchedule) (hc : ∀ t i, i < S → (csch t i).Ok dist S i)
    (fuel : Nat) (hf : 2 * globalN dist + 2 ≤ fuel) (order : Nat → List Nat)
    (ho : ∀ p, p < procs dist → (order p).Perm (List.range (localN dist p))) :
    ∃ ord, ((nodeColoring? (procs dist) g S csch fuel).bind fun x => colorOrder? (procs dist) g x.1 order) = some ord ∧
      ∀ (cfg : HEMConfig) (sch : Nat → HEMSchedule), (∀ c, c < ord.colors → (sch c).Ok dist ord c) →
        ∃ lab C, hemCluster? (procs dist) cfg g ord sch = some lab ∧ Clustered dist inp g lab C ∧ IsMatching dist inp Wt cfg C := by
  obtain ⟨color, h1, _, h3⟩ := C75_node_coloring W hsym hirr hS
  obtain ⟨arr, h4, h5⟩ := h3 csch hc fuel hf
  obtain ⟨ord, h6, h7, h8, _⟩ := W.color_order_sorts h1 hne h5 ho
  exact ⟨ord, by rw [h4]; exact h6, fun cfg sch hsch => C82_sorted W hsym hW h7 h8 h1 hn hm hsch⟩

/-- **C82**, a process without nodes: the number of colours is the maximum of an empty range. -/
theorem C82_empty_process (W : World dist inp g) {p : Nat} (hp : p < procs dist) (h : localN dist p = 0) (S : Nat)
    (csch : Nat → Nat → ColorSchedule) (fuel : Nat) (order : Nat → List Nat) :
    ((nodeColoring? (procs dist) g S csch fuel).bind fun x => colorOrder? (procs dist) g x.1 order) = none := by
  cases nodeColoring? (procs dist) g S csch fuel with
  | none => rfl
  | some x => exact C77_empty_process W hp h x.1 order

/-! ## Examples -/

/-- Each process visits its nodes of the colour in their order, reads the entries of its neighbours when it writes, and its compare-and-swaps
succeed, except those of nodes for which `fail` holds; requests are handled in their order. -/
def plainHEM (ord : ColorOrder) (fail : Nat → Nat → Bool) (c : Nat) : HEMSchedule :=
  ⟨fun p => (List.range' (ord.start p c) (ord.start p (c + 1) - ord.start p c)).map fun i => ⟨ord.node p i, fun _ => false, fail p (ord.node p i)⟩,
    (plainSync (fun p => ord.start p c) (fun p => ord.start p (c + 1))).exec, fun _ l => l.map fun r => (r, false), fun _ l => l⟩

theorem plainHEM_ok (ord : ColorOrder) (fail : Nat → Nat → Bool) (c : Nat) : (plainHEM ord fail c).Ok dist ord c where
  visits p _ := by
    show (((List.range' (ord.start p c) (ord.start p (c + 1) - ord.start p c)).map fun i =>
      (⟨ord.node p i, fun _ => false, fail p (ord.node p i)⟩ : HEMVisit)).map (·.node)).Perm _
    rw [List.map_map]
    exact List.Perm.refl _
  ex := (plainSync_ok _ _).1
  order p l := by
    show ((l.map fun r => (r, false)).map (·.1)).Perm l
    rw [List.map_map]
    exact List.Perm.of_eq (List.map_id l)
  shuffle _ l := List.Perm.refl l

/-- A leaf of the star has colour 0, its centre has colour 1. -/
theorem order2_sorts : order2.Sorts [0, 1, 3] leaves := by
  have key : ∀ p, p < 2 → ∀ c, c < 2 → ∀ i, i < 2 → order2.start p c ≤ i → i < order2.start p (c + 1) →
      leaves (first [0, 1, 3] p + order2.node p i) = c := by decide
  have hs : ∀ c, c < 2 → ∀ p, p < 2 → order2.start p (c + 1) ≤ 2 := by decide
  intro p hp c hc i h1 h2
  have := hs c hc p hp
  exact key p hp c hc i (by omega) h1 h2

/-- The hypotheses hold for the star on two processes. -/
example : World [0, 1, 3] star2 (imported [0, 1, 3] star2) ∧ Symmetric [0, 1, 3] star2 ∧ (∀ a, ¬ IsEdge [0, 1, 3] star2 a a) ∧
    KnowsWeights [0, 1, 3] (imported [0, 1, 3] star2) (fun _ => 1) ∧ (∀ p, p < procs [0, 1, 3] → 0 < localN [0, 1, 3] p) ∧
    order2.Ok [0, 1, 3] star2 ∧ order2.Sorts [0, 1, 3] leaves ∧ (∀ a b, IsEdge [0, 1, 3] star2 a b → leaves a ≠ leaves b) ∧
    ((List.range (procs [0, 1, 3])).map fun p => (imported [0, 1, 3] star2 p).totalN).sum < 2 ^ 31 ∧ globalM [0, 1, 3] star2 < 2 ^ 31 ∧
    ∀ fail c, (plainHEM order2 fail c).Ok [0, 1, 3] order2 c := by
  have hw : ∀ p, p < 2 → (imported [0, 1, 3] star2 p).nodeWeights = [] := by decide +kernel
  refine ⟨star2_input.world, star2_input.symmetric, fun a h => ?_, fun p hp l v _ => ?_, by decide, order2_ok, order2_sorts, fun a b h => ?_,
    by decide +kernel, by decide +kernel, fun fail c => plainHEM_ok order2 fail c⟩
  · obtain ⟨w, hw⟩ := (isEdge_edges star2_input.world.valid).1 h
    exact star2_input.loopFree _ hw rfl
  · unfold DGraph.nodeWeight?
    rw [if_pos (hw p hp)]
  · obtain ⟨w, hw⟩ := (isEdge_edges star2_input.world.valid).1 h
    have key : ∀ e, e ∈ edges [0, 1, 3] star2 → leaves e.1 ≠ leaves e.2.1 := by decide
    exact key _ hw

/-- The clusters that the processes know. -/
def matchingSummary (N : Nat) (r : Option (Nat → List Nat)) : Option (List (List Nat)) := r.map fun r => (List.range N).map r

/-- Both leaves want the centre.  The leaf of its own process gets it, and the request of the other process is rejected. -/
example : matchingSummary 2 (hemCluster? 2 ⟨2, false⟩ (imported [0, 1, 3] star2) order2 (plainHEM order2 fun _ _ => false)) =
    some [[0, 2], [2, 2, 0]] := by decide +kernel

/-- If the compare-and-swap of this leaf fails, the request is accepted. -/
example : matchingSummary 2 (hemCluster? 2 ⟨2, false⟩ (imported [0, 1, 3] star2) order2 (plainHEM order2 fun p u => decide (p = 1 ∧ u = 0))) =
    some [[2, 2], [1, 2, 2]] := by decide +kernel

/-- No two nodes fit into one cluster, unless the limit is ignored. -/
example : matchingSummary 2 (hemCluster? 2 ⟨1, false⟩ (imported [0, 1, 3] star2) order2 (plainHEM order2 fun _ _ => false)) =
      some [[0, 2], [1, 2, 0]] ∧
    matchingSummary 2 (hemCluster? 2 ⟨1, true⟩ (imported [0, 1, 3] star2) order2 (plainHEM order2 fun _ _ => false)) =
      some [[0, 2], [2, 2, 0]] := by constructor <;> decide +kernel

/-- **C82**, the heaviest request need not win: the compare-and-swap of a request is not repeated if it fails.  Node 0 of process 1 gets two
requests of process 0, and accepts the one with the lighter edge if the other compare-and-swap comes second and fails. -/
theorem C82_lighter_request_wins : ∃ (g : DGraph) (rs : List MatchRequest) (order : List MatchRequest → List (MatchRequest × Bool))
    (answers : List MatchRequest) (m : Nat → Nat), (∀ l, ((order l).map (·.1)).Perm l) ∧ hemResolve? g order rs (fun _ => invalidG) = some (answers, m) ∧
    ∃ r r', r ∈ rs ∧ r' ∈ rs ∧ r.mine = r'.mine ∧ r.weight < r'.weight ∧ r ∈ answers ∧ { r' with mine := invalidN } ∈ answers := by
  have h : (hemResolve? (imported [0, 2, 3] (fun p => if p = 0 then ⟨[0, 1, 2], [2, 2], [], []⟩ else ⟨[0, 2], [0, 1], [], []⟩) 1)
      (fun l => l.map fun r => (r, decide (r.weight = 7))) [⟨0, 0, 0, 3⟩, ⟨0, 0, 1, 7⟩] (fun _ => invalidG)).map
        (fun x => x.1.map fun r => (r.pe, r.mine, r.theirs, r.weight)) = some [(0, 0, 0, 3), (0, invalidN, 1, 7)] := by decide +kernel
  obtain ⟨⟨answers, m⟩, h1, h2⟩ := Option.map_eq_some_iff.1 h
  refine ⟨_, _, _, answers, m, fun l => ?_, h1, ⟨0, 0, 0, 3⟩, ⟨0, 0, 1, 7⟩, by simp, by simp, rfl, by decide, ?_, ?_⟩
  · rw [List.map_map]
    exact List.Perm.of_eq (List.map_id l)
  · have : (0, 0, 0, 3) ∈ answers.map fun r => (r.pe, r.mine, r.theirs, r.weight) := by rw [h2]; simp
    obtain ⟨r, hr, e⟩ := List.mem_map.1 this
    obtain ⟨pe, mine, theirs, weight⟩ := r
    simp only [Prod.mk.injEq] at e
    obtain ⟨rfl, rfl, rfl, rfl⟩ := e
    exact hr
  · have : (0, invalidN, 1, 7) ∈ answers.map fun r => (r.pe, r.mine, r.theirs, r.weight) := by rw [h2]; simp
    obtain ⟨r, hr, e⟩ := List.mem_map.1 this
    obtain ⟨pe, mine, theirs, weight⟩ := r
    simp only [Prod.mk.injEq] at e
    obtain ⟨rfl, rfl, rfl, rfl⟩ := e
    exact hr

end Verif.Dist

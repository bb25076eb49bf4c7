import Verif.Compression.Roundtrip

/-!
# C06: graph compression is lossless

Specification: a graph is a list of neighbourhoods, a neighbourhood is a list of
(neighbour, edge weight) pairs.  Reading node `u` of the compressed graph must report the same pairs
(with multiplicity, in any order); without stored edge weights, each weight is reported as 1.
-/

namespace Verif.Compression

/-- A graph with `n < 2^32` nodes, degrees that fit `NodeID`, and non-negative edge weights of a
signed `wE`-bit type. -/
structure GraphOk (wE : Nat) (g : List (List Nbr)) : Prop where
  nodes : g.length < 2 ^ 32
  targets : ∀ nb ∈ g, ∀ x ∈ nb, x.1 < g.length
  degrees : ∀ nb ∈ g, nb.length < 2 ^ 32
  weights : ∀ nb ∈ g, ∀ x ∈ nb, 0 ≤ x.2 ∧ x.2 < 2 ^ (wE - 1)

/-- Compression succeeds; each node is reported with its degree and its neighbours in the order `nodeOrder`. -/
theorem compress_order (c : Cfg) (hasW : Bool) (wE : Nat) (hwE : 0 < wE)
    (g sorted : List (List Nbr)) (hg : GraphOk wE g)
    (hsorted : sorted.length = g.length ∧
      ∀ (u : Nat) (a b : List Nbr), sorted[u]? = some a → g[u]? = some b → a.Perm b)
    (hsvb : c.svb = true → hasW = true → ∀ nb ∈ g, ∀ x ∈ nb, x.2 < 2 ^ 31)
    (hsize : c.highDegree = true → ∀ u nb b, sorted[u]? = some nb → 10000 ≤ nb.length →
      add? c hasW wE u nb = some b → b.length < 2 ^ 31) :
    ∃ cg, compress? c hasW wE sorted = some cg ∧
      ∀ u nb a, g[u]? = some nb → sorted[u]? = some a →
        degree? c cg u = some nb.length ∧
        adjacentNodes? c hasW wE cg u = some ((nodeOrder c a).map (rep hasW)) := by
  obtain ⟨hlen, hperm⟩ := hsorted
  -- facts about the sorted neighbourhoods
  have hget : ∀ (u : Nat) (a : List Nbr), sorted[u]? = some a →
      ∃ b, g[u]? = some b ∧ b ∈ g ∧ a.Perm b ∧ u < g.length := by
    intro u a ha
    have hu : u < sorted.length := by
      rcases Nat.lt_or_ge u sorted.length with h | h
      · exact h
      · rw [List.getElem?_eq_none h] at ha; cases ha
    have hgu : g[u]? = some (g[u]'(by omega)) := List.getElem?_eq_getElem (by omega)
    exact ⟨_, hgu, List.getElem_mem _, hperm u a _ ha hgu, by omega⟩
  have hok : ∀ (u : Nat) (a : List Nbr), sorted[u]? = some a → NbOk c hasW wE a := by
    intro u a ha
    obtain ⟨b, _, hb, hp, _⟩ := hget u a ha
    refine ⟨fun x hx => ?_, fun x hx => hg.weights b hb x (hp.subset hx),
      fun h1 h2 x hx => hsvb h1 h2 b hb x (hp.subset hx)⟩
    have h1 := hg.targets b hb x (hp.subset hx)
    have h2 := hg.nodes
    omega
  have hdl : ∀ (u : Nat) (a : List Nbr), sorted[u]? = some a → a.length < 2 ^ 32 := by
    intro u a ha
    obtain ⟨b, _, hb, hp, _⟩ := hget u a ha
    rw [hp.length_eq]
    exact hg.degrees b hb
  have hadd : ∀ (u : Nat) (a : List Nbr), sorted[u]? = some a →
      ∃ b, add? c hasW wE (0 + u) a = some b := by
    intro u a ha
    obtain ⟨_, _, _, _, hu⟩ := hget u a ha
    by_cases hne : a = []
    · subst hne; exact ⟨[], rfl⟩
    · obtain ⟨b, hb, _⟩ := add_dec c hwE (node := 0 + u) (by have := hg.nodes; omega) a hne
        (hdl u a ha) (hok u a ha)
      exact ⟨b, hb⟩
  obtain ⟨offs, bs, h1, h2, _, h4⟩ := addNodes_spec c hasW wE sorted 0 0 hadd
  refine ⟨_, by simp only [compress?, h1]; rfl, ?_⟩
  intro u nb a hnb hs
  have hu : u < g.length := by
    rcases Nat.lt_or_ge u g.length with h | h
    · exact h
    · rw [List.getElem?_eq_none h] at hnb; cases hnb
  have hp := hperm u a nb hs hnb
  obtain ⟨b, pre, post, q1, q2, q3, q4⟩ := h4 u a hs
  simp only [Nat.zero_add] at q1 q3 q4
  have hdrop : ∀ pad : List Nat, (bs ++ pad).drop pre.length = b ++ (post ++ pad) := by
    intro pad
    rw [q2, List.append_assoc, List.append_assoc, List.drop_left]
  by_cases hne : a = []
  · subst hne
    have hnb0 : nb = [] := List.Perm.eq_nil hp.symm
    subst hnb0
    have hb0 : b = [] := by simpa [add?] using q1.symm
    subst hb0
    simp only [List.length_nil, Nat.add_zero] at q4
    refine ⟨?_, ?_⟩
    · simp [degree?, q3, q4]
    · have : nodeOrder c [] = [] := by
        unfold nodeOrder partOrder
        rw [if_neg (by rintro ⟨_, h⟩; exact absurd h (by decide))]
        split <;> rfl
      simp [adjacentNodes?, q3, q4, this]
  · obtain ⟨b', hb', hb1, hdec⟩ := add_dec c hwE (node := u) (by have := hg.nodes; omega) a hne
      (hdl u a hs) (hok u a hs)
    rw [q1] at hb'
    cases hb'
    have hneq : ¬ pre.length = pre.length + b.length := by omega
    obtain ⟨⟨fl, data, hhd⟩, hnode⟩ :=
      hdec (post ++ (if c.svb = true then List.replicate 15 0 else []))
    refine ⟨?_, ?_⟩
    · simp only [degree?, q3, q4, Option.bind_eq_bind, Option.bind_some]
      rw [if_neg hneq, hdrop, hhd]
      simp [hp.length_eq]
    · have ho := hnode (fun h1 h2 => hsize h1 u a b hs h2 q1) (fun h => by simp [h])
      simp only [adjacentNodes?, q3, q4, Option.bind_eq_bind, Option.bind_some]
      rw [if_neg hneq, hdrop]
      exact ho

/-- C06: for every graph and every combination of interval encoding, high-degree splitting,
StreamVByte and edge weights, compression succeeds and every node's neighbourhood and degree are read
back.  `sorted` are the neighbourhoods in the order chosen by the encoder's unstable sort: any
permutation of the given ones works.

Preconditions of the code: a neighbourhood of at least 10000 neighbours must have an encoding below
2^31 bytes, because the part offsets have 31 bits; with StreamVByte, edge weights must be below 2^31,
see `C06_streamvbyte_truncates_weights`. -/
theorem C06_compression_lossless (c : Cfg) (hasW : Bool) (wE : Nat) (hwE : 0 < wE)
    (g sorted : List (List Nbr)) (hg : GraphOk wE g)
    (hsorted : sorted.length = g.length ∧
      ∀ (u : Nat) (a b : List Nbr), sorted[u]? = some a → g[u]? = some b → a.Perm b)
    (hsvb : c.svb = true → hasW = true → ∀ nb ∈ g, ∀ x ∈ nb, x.2 < 2 ^ 31)
    (hsize : c.highDegree = true → ∀ u nb b, sorted[u]? = some nb → 10000 ≤ nb.length →
      add? c hasW wE u nb = some b → b.length < 2 ^ 31) :
    ∃ cg, compress? c hasW wE sorted = some cg ∧
      ∀ u nb, g[u]? = some nb →
        degree? c cg u = some nb.length ∧
        ∃ out, adjacentNodes? c hasW wE cg u = some out ∧
          out.Perm (nb.map fun x => (x.1, if hasW then x.2 else 1)) := by
  obtain ⟨cg, h1, h2⟩ := compress_order c hasW wE hwE g sorted hg hsorted hsvb hsize
  refine ⟨cg, h1, fun u nb hnb => ?_⟩
  have hu : u < sorted.length := by
    rcases Nat.lt_or_ge u sorted.length with h | h
    · exact h
    · rw [List.getElem?_eq_none (by rw [← hsorted.1]; exact h)] at hnb; cases hnb
  have hs : sorted[u]? = some sorted[u] := List.getElem?_eq_getElem hu
  obtain ⟨h3, h4⟩ := h2 u nb _ hnb hs
  refine ⟨h3, _, h4, ?_⟩
  have hp := hsorted.2 u _ nb hs hnb
  refine (((nodeOrder_perm c _ fun x hx => ?_).trans hp).map _)
  have h5 := hg.targets nb (List.mem_of_getElem? hnb) x (hp.subset hx)
  have h6 := hg.nodes
  omega

/-- A graph with isolated nodes, an interval, parallel edges and large weights. -/
def exGraph : List (List Nbr) := [[(1, 5), (2, 6), (3, 2 ^ 40), (3, 1)], [], [(3, 0), (0, 7), (1, 1)], []]

/-- It meets the hypotheses, with the default configuration. -/
example : ∃ cg, compress? ⟨true, true, false⟩ true 64 exGraph = some cg ∧
    ∀ u nb, exGraph[u]? = some nb → degree? ⟨true, true, false⟩ cg u = some nb.length ∧
      ∃ out, adjacentNodes? ⟨true, true, false⟩ true 64 cg u = some out ∧
        out.Perm (nb.map fun x => (x.1, if true then x.2 else 1)) :=
  C06_compression_lossless ⟨true, true, false⟩ true 64 (by decide) exGraph exGraph
    (by constructor <;> decide)
    ⟨rfl, fun u a b h1 h2 => by rw [h1] at h2; cases h2; exact List.Perm.refl _⟩
    (fun h => nomatch h)
    (fun _ u nb b h hl _ => by
      have : ∀ nb ∈ exGraph, nb.length < 10000 := by decide
      have := this nb (List.mem_of_getElem? h)
      omega)

theorem encodeGaps_weighted (v : Int) : encodeGaps? ⟨false, false, true⟩ true 64 1 4 0
      [(0, 1), (2, 1), (3, 1), (4, v)] =
      some (Varint.signedEncode 64 (((0 : Nat) : Int) - (1 : Nat)) ++ encW true 64 0 1 ++
        StreamVByte.encode .D2 [2, ((1 : Int) % 2 ^ 32).toNat, 3, ((1 : Int) % 2 ^ 32).toNat, 4,
          (v % 2 ^ 32).toNat]) := by
  unfold encodeGaps?
  have : List.filter (fun x : Nbr => decide (x.1 ≠ invalidNode))
      [(0, 1), (2, 1), (3, 1), (4, v)] = [(0, 1), (2, 1), (3, 1), (4, v)] := by
    simp only [List.filter, invalidNode]
    simp
  rw [if_neg (by omega), this]
  simp only [svbThreshold]
  rw [if_pos (by simp), if_neg (by simp), if_pos trivial]
  simp only [List.flatMap_cons, List.flatMap_nil, List.cons_append, List.nil_append]

/-- C06, why the StreamVByte precondition is needed: two neighbourhoods that differ in an edge weight
by 2^32 (a legal difference for 64 bit edge weights) have the same compressed representation, so no
decoder can tell them apart. -/
theorem C06_streamvbyte_truncates_weights (w : Int) :
    add? ⟨false, false, true⟩ true 64 1 [(0, 1), (2, 1), (3, 1), (4, w)] =
      add? ⟨false, false, true⟩ true 64 1 [(0, 1), (2, 1), (3, 1), (4, w + 2 ^ 32)] := by
  have h : (w + 2 ^ 32) % 2 ^ 32 = w % 2 ^ 32 := Int.add_emod_right ..
  have e : ∀ v : Int, add? ⟨false, false, true⟩ true 64 1 [(0, 1), (2, 1), (3, 1), (4, v)] =
      (encodeGaps? ⟨false, false, true⟩ true 64 1 4 0 [(0, 1), (2, 1), (3, 1), (4, v)]).map
        (Varint.varintEncode 4 ++ ·) := by
    intro v
    unfold add? addEdges?
    simp only [List.length_cons, List.length_nil]
    rw [if_neg (by omega), if_neg (by simp), if_neg (by simp), if_neg (by simp)]
  rw [e w, e (w + 2 ^ 32), encodeGaps_weighted, encodeGaps_weighted, h]

end Verif.Compression

import Verif.ClusterBalancer.Sequential
import Verif.ClusterBalancer.RoundProps
import Verif.ClusterBalancer.LimitProps
import Verif.NodeBalancer.Props

/-!
# C91: sequential rounds of the cluster balancer

A sequential round has exactly one result, moves clusters as a whole, makes no block heavier than before and than its limit, and makes progress.
-/

namespace Verif.ClusterBalancer
open Verif List
open Verif.NodeBalancer (Cand Rank Sys Reduced Consistent blockWeight totalOverload inW outW netW kInvalid nodup_all nodup_sub mem_all netW_eq
  outW_nonneg outW_ge inW_eq_zero C50_winners overload_le overload_lt reduced_spec)

section

variable {C : CSys} {P : Nat → Nat}

/-- The same candidate, with a block as its target, and with the same target if it had one. -/
structure Same (k : Nat) (c c' : Cand) : Prop where
  id : c'.id = c.id
  fr : c'.from = c.from
  weight : c'.weight = c.weight
  lt : c'.to < k
  kept : c.from ≠ c.to → c' = c

theorem netW_cons (c : Cand) (l : List Cand) (b : Nat) :
    netW (c :: l) b = ((if c.to = b then c.weight else 0) - if c.from = b then c.weight else 0) + netW l b := by simp [netW]

theorem weightStep_at (d : Nat → Int) (c : Cand) (b : Nat) :
    weightStep d c b = d b + ((if c.to = b then c.weight else 0) - if c.from = b then c.weight else 0) := by
  have := weightSteps [c] d b
  rw [netW_cons] at this
  simpa [netW] using this

theorem firstDeltas_eq (l : List Cand) (b : Nat) : firstDeltas l b = netW l b := by
  have key : ∀ (l : List Cand) (d : Nat → Int), l.foldl (fun d c => if c.from = c.to then d else weightStep d c) d b = d b + netW l b := by
    intro l
    induction l with
    | nil => intro d; simp [netW]
    | cons c l ih =>
      intro d
      rw [List.foldl_cons, ih, netW_cons]
      by_cases h : c.from = c.to
      · rw [if_pos h, h]; omega
      · rw [if_neg h, weightStep_at]; omega
  unfold firstDeltas
  rw [key]
  omega

theorem selectLoop_spec {k : Nat} {bw maxw : Nat → Int} (hk : k < 2 ^ 32) : ∀ (l : List Cand) (d : Nat → Int),
    (∀ c ∈ l, c.from < k ∧ c.to < k ∧ 0 ≤ c.weight) → (∀ b, b < k → d b ≤ max 0 (maxw b - bw b)) →
    ∃ l', selectLoop? k bw maxw l d = some l' ∧ List.Forall₂ (Same k) l l' ∧ ∀ b, b < k → d b + netW l' b - netW l b ≤ max 0 (maxw b - bw b)
  | [], d, _, h => ⟨[], rfl, .nil, fun b hb => by have := h b hb; simpa [netW] using this⟩
  | c :: l, d, hl, h => by
    obtain ⟨h1, h2, h3⟩ := hl c List.mem_cons_self
    have hl' : ∀ c ∈ l, c.from < k ∧ c.to < k ∧ 0 ≤ c.weight := fun x hx => hl x (List.mem_cons_of_mem _ hx)
    by_cases hc : c.from ≠ c.to
    · obtain ⟨l', q1, q2, q3⟩ := selectLoop_spec (bw := bw) (maxw := maxw) hk l d hl' h
      refine ⟨c :: l', ?_, .cons ⟨rfl, rfl, rfl, h2, fun _ => rfl⟩ q2, fun b hb => ?_⟩
      · unfold selectLoop?
        rw [if_pos hc, q1]
        rfl
      · have := q3 b hb
        rw [netW_cons, netW_cons]
        omega
    · obtain ⟨t, a1, a2, a3, -⟩ := C88_assign (bw := bw) (maxw := maxw) (deltas := d) (w := c.weight) hk h1
      have hto : c.to = c.from := (not_not.1 hc).symm
      obtain ⟨l', q1, q2, q3⟩ := selectLoop_spec (bw := bw) (maxw := maxw) hk l (weightStep d { c with «to» := t }) hl' (fun b hb => by
        rw [weightStep_at]
        dsimp only
        have hb' := h b hb
        by_cases ht : t = b
        · subst ht
          rw [if_pos rfl]
          by_cases hf : c.from = t
          · rw [if_pos hf]; omega
          · rw [if_neg hf]
            have := a3 (Ne.symm hf)
            omega
        · rw [if_neg ht]
          split <;> omega)
      refine ⟨{ c with «to» := t } :: l', ?_, .cons ⟨rfl, rfl, rfl, a2, fun h => absurd h hc⟩ q2, fun b hb => ?_⟩
      · unfold selectLoop?
        rw [if_neg hc, hto, a1, Option.bind_some, q1]
        rfl
      · have := q3 b hb
        rw [weightStep_at] at this
        rw [netW_cons, netW_cons]
        dsimp only at this ⊢
        rw [hto]
        omega

theorem forall₂_left {R : Cand → Cand → Prop} : ∀ {l l' : List Cand}, List.Forall₂ R l l' → ∀ c' ∈ l', ∃ c ∈ l, R c c'
  | _, _, .nil, c', h => by simp at h
  | _, _, .cons hr ht, c', h => by
    rcases List.mem_cons.1 h with rfl | h
    · exact ⟨_, List.mem_cons_self, hr⟩
    · obtain ⟨c, hc, h⟩ := forall₂_left ht c' h
      exact ⟨c, List.mem_cons_of_mem _ hc, h⟩

theorem forall₂_ids {k : Nat} : ∀ {l l' : List Cand}, List.Forall₂ (Same k) l l' → l'.map Cand.id = l.map Cand.id
  | _, _, .nil => rfl
  | _, _, .cons hr ht => by rw [List.map_cons, List.map_cons, hr.id, forall₂_ids ht]

theorem forall₂_kept {k : Nat} : ∀ {l l' : List Cand}, List.Forall₂ (Same k) l l' → (∀ c ∈ l, c.from ≠ c.to) → l' = l
  | _, _, .nil, _ => rfl
  | _, _, .cons hr ht, h => by rw [hr.kept (h _ List.mem_cons_self), forall₂_kept ht fun c hc => h c (List.mem_cons_of_mem _ hc)]

theorem inW_nonneg {l : List Cand} {b : Nat} (h : ∀ c ∈ l, 0 ≤ c.weight) : 0 ≤ inW l b := by
  induction l with
  | nil => simp [inW]
  | cons d l ih =>
    have e : inW (d :: l) b = (if d.from ≠ d.to ∧ d.to = b then d.weight else 0) + inW l b := by simp [inW]
    have := ih fun x hx => h x (List.mem_cons_of_mem _ hx)
    have := h d List.mem_cons_self
    rw [e]
    split <;> omega

theorem netW_split_owner (N b : Nat) : ∀ l : List Cand, netW ((l.map (splitOwner N)).map Prod.snd) b = netW l b
  | [] => rfl
  | c :: l => by
    have := netW_split_owner N b l
    rw [List.map_cons, List.map_cons, netW_cons, this, netW_cons]
    rfl

/-- **C91, if every candidate has a block as its target.**  If all processes agree on a partition and their candidates are different clusters with weights that are not negative, then a sequential
round has exactly one result, without undefined behaviour.  All processes agree on the new partition and its block weights; the nodes of each
candidate have all stayed or have all moved to one block, and no other node has moved; no block is heavier than before and than its limit.  If
there is a candidate, and all candidates have positive weights, overloaded blocks, and other blocks as targets that have room for them, then the
total overload has shrunk.  What is missing: `find_max_relative_gain` gives no block if no block has room (`C88_fits_nowhere`), and then the
reduction reads the weight of an invalid block. -/
theorem C91_sequential_partial (hN : 0 < C.sys.N) (hk : C.sys.k < 2 ^ 32) (hg : C.Ghosts) (D : C.Disjoint) {picks : Nat → List Cand} {s : Nat → Rank}
    (hc : Consistent C.sys P s) (M : ClusterMoves C P picks) (hf : ∀ r, r < C.sys.N → ∀ c ∈ picks r, c.from < C.sys.k ∧ 0 ≤ c.weight)
    (hid : ∀ r, r < C.sys.N → ∀ c ∈ picks r, c.id * C.sys.N + r < kInvalid) (maxNodes : Nat) {sort : List Cand → List Cand} (hs : ∀ l, sort l ~ l) :
    ∃ (s' : Nat → Rank) (P' : Nat → Nat), (∀ s'', SequentialRound C maxNodes sort picks s s'' ↔ s'' = s') ∧ Consistent C.sys P' s' ∧
      (∀ r, r < C.sys.N → ∀ c ∈ picks r, (∀ u ∈ C.nodes r c.id, P' u = P u) ∨ ∃ t, t < C.sys.k ∧ ∀ u ∈ C.nodes r c.id, P' u = t) ∧
      (∀ u, (∀ r, r < C.sys.N → ∀ c ∈ picks r, u ∉ C.nodes r c.id) → P' u = P u) ∧
      (∀ b, b < C.sys.k → blockWeight C.sys P' b ≤ max (blockWeight C.sys P b) (C.sys.maxw b)) ∧
      totalOverload C.sys P' ≤ totalOverload C.sys P ∧
      ((∃ r, r < C.sys.N ∧ picks r ≠ []) → (∀ r, r < C.sys.N → ∀ c ∈ picks r, 0 < c.weight ∧ C.sys.maxw c.from < blockWeight C.sys P c.from ∧
        c.from ≠ c.to ∧ blockWeight C.sys P c.to + c.weight ≤ C.sys.maxw c.to) → totalOverload C.sys P' < totalOverload C.sys P) := by
  obtain ⟨ws, w1, w2, w3, -, w5⟩ := C50_winners C.sys.N hN ⟨(s 0).bw, C.sys.maxw, maxNodes, sort⟩ hs (fun r => (picks r).map (withOwner C.sys.N r))
    (fun r hr c hc' => by
      obtain ⟨c, h0, rfl⟩ := List.mem_map.1 hc'
      exact ⟨by have := hid r hr c h0; show c.id * C.sys.N + r ≠ kInvalid; omega, (hf r hr c h0).2⟩)
  have hmem : ∀ c ∈ ws, ∃ r, r < C.sys.N ∧ ∃ c0 ∈ picks r, c = withOwner C.sys.N r c0 := by
    intro c hc'
    obtain ⟨r, hr, h⟩ := mem_all (w2.subset hc')
    obtain ⟨c0, h0, rfl⟩ := List.mem_map.1 h
    exact ⟨r, hr, c0, h0, rfl⟩
  have hmod : ∀ r, r < C.sys.N → ∀ i, (i * C.sys.N + r) % C.sys.N = r := fun r hr i => by
    rw [Nat.mul_comm, Nat.mul_add_mod, Nat.mod_eq_of_lt hr]
  have hdiv : ∀ r, r < C.sys.N → ∀ i, (i * C.sys.N + r) / C.sys.N = i := fun r hr i => by
    rw [Nat.mul_comm, Nat.mul_add_div hN, Nat.div_eq_of_lt hr, Nat.add_zero]
  have hnod : (ws.map Cand.id).Nodup := by
    refine nodup_sub w2 (nodup_all (owner := fun i => i % C.sys.N) (fun r hr c hc' => ?_) fun r hr => ?_)
    · obtain ⟨c, -, rfl⟩ := List.mem_map.1 hc'
      exact hmod r hr c.id
    · rw [List.map_map]
      refine List.Nodup.of_map (fun i => i / C.sys.N) ?_
      rw [List.map_map]
      have e : (picks r).map ((fun i => i / C.sys.N) ∘ Cand.id ∘ withOwner C.sys.N r) = (picks r).map Cand.id :=
        List.map_congr_left fun c _ => hdiv r hr c.id
      rw [e]
      exact M.distinct r hr
  have hbw : ∀ b, b < C.sys.k → (s 0).bw b = blockWeight C.sys P b := hc.weights 0 hN
  have hws : ∀ c ∈ ws, c.from < C.sys.k ∧ c.to < C.sys.k ∧ 0 ≤ c.weight := by
    intro c hc'
    obtain ⟨r, hr, c0, h0, rfl⟩ := hmem c hc'
    exact ⟨(hf r hr c0 h0).1, (M.move r hr c0 h0).target, (hf r hr c0 h0).2⟩
  have hfirst : ∀ b, b < C.sys.k → firstDeltas ws b ≤ max 0 (C.sys.maxw b - (s 0).bw b) := by
    intro b _
    rw [firstDeltas_eq, netW_eq]
    have h0 : 0 ≤ outW ws b := outW_nonneg fun c hc' => (hws c hc').2.2
    by_cases hx : ∃ c ∈ ws, c.from ≠ c.to ∧ c.to = b
    · have := w3 b hx
      dsimp only at this
      omega
    · have := inW_eq_zero (l := ws) (b := b) fun c hc' h => hx ⟨c, hc', h⟩
      omega
  obtain ⟨sel, e1, e2, e3⟩ := selectLoop_spec (bw := (s 0).bw) (maxw := C.sys.maxw) hk ws _ hws hfirst
  have hwin : ∀ w ∈ sel.map (splitOwner C.sys.N), ∃ r, r < C.sys.N ∧ ∃ c0 ∈ picks r, w.1 = r ∧ w.2.id = c0.id ∧ w.2.from = c0.from ∧
      w.2.weight = c0.weight ∧ w.2.to < C.sys.k := by
    intro w hw
    obtain ⟨c', hc', rfl⟩ := List.mem_map.1 hw
    obtain ⟨c, hcw, hsame⟩ := forall₂_left e2 c' hc'
    obtain ⟨r, hr, c0, h0, rfl⟩ := hmem c hcw
    have hi : c'.id = c0.id * C.sys.N + r := hsame.id
    exact ⟨r, hr, c0, h0, by show c'.id % C.sys.N = r; rw [hi, hmod r hr], by show c'.id / C.sys.N = c0.id; rw [hi, hdiv r hr], hsame.fr, hsame.weight,
      hsame.lt⟩
  obtain ⟨P', p1, p2, p3⟩ := C90_sequential_moves (winners := sel.map (splitOwner C.sys.N)) hg D hc (fun w hw => by
      obtain ⟨r, hr, c0, h0, h1, h2, h3, h4, h5⟩ := hwin w hw
      have m := M.move r hr c0 h0
      rw [h1]
      exact ⟨hr, ⟨h5, by rw [h4, h2]; exact m.weight, by rw [h2]; exact m.once, by rw [h2, h3]; exact m.node⟩⟩) (by
      rw [List.map_map]
      have hn : (sel.map Cand.id).Nodup := by rw [forall₂_ids e2]; exact hnod
      refine List.Nodup.of_map (fun x : Nat × Nat => C.sys.N * x.2 + x.1) ?_
      rw [List.map_map]
      have e : sel.map ((fun x : Nat × Nat => C.sys.N * x.2 + x.1) ∘ (fun w : Nat × Cand => (w.1, w.2.id)) ∘ splitOwner C.sys.N) = sel.map Cand.id :=
        List.map_congr_left fun c _ => Nat.div_add_mod c.id C.sys.N
      rw [e]
      exact hn)
  have hW : ∀ b, b < C.sys.k → blockWeight C.sys P' b = blockWeight C.sys P b + netW sel b := by
    intro b hb
    have h := p1.weights 0 hN b hb
    have h' : ((sel.map (splitOwner C.sys.N)).map Prod.snd).foldl weightStep (s 0).bw b = blockWeight C.sys P' b := h
    rw [weightSteps, netW_split_owner, hbw b hb] at h'
    exact h'.symm
  have hle : ∀ b, b < C.sys.k → blockWeight C.sys P' b ≤ max (blockWeight C.sys P b) (C.sys.maxw b) := by
    intro b hb
    have := e3 b hb
    rw [firstDeltas_eq, hbw b hb] at this
    rw [hW b hb]
    omega
  refine ⟨sequentialMoves C (sel.map (splitOwner C.sys.N)) s, P', fun s'' => ⟨?_, ?_⟩, p1, fun r hr c hc' => ?_, fun u hu => p3 u fun w hw h => ?_, hle,
    overload_le hle, fun hne hfit => overload_lt hle ?_⟩
  · rintro ⟨ws', h1, sel', h2, rfl⟩
    have : some ws' = some ws := (w1 _).1 h1
    cases this
    have h3 : select? C.sys.k (s 0).bw C.sys.maxw ws = some sel := e1
    rw [h3] at h2
    cases h2
    rfl
  · rintro rfl
    exact ⟨ws, (w1 _).2 rfl, sel, e1, rfl⟩
  · by_cases hx : ∃ w ∈ sel.map (splitOwner C.sys.N), w.1 = r ∧ w.2.id = c.id
    · obtain ⟨w, hw, h1, h2⟩ := hx
      obtain ⟨_, _, _, _, _, _, _, _, h5⟩ := hwin w hw
      exact .inr ⟨w.2.to, h5, fun u hu => p2 w hw u (by rw [h1, h2]; exact hu)⟩
    · refine .inl fun u hu => p3 u fun w hw h => hx ⟨w, hw, ?_⟩
      obtain ⟨r', hr', c0, h0, h1, h2, -⟩ := hwin w hw
      rw [h1, h2] at h
      have hrr : r' = r := (((M.move r' hr' c0 h0).node u h).2.1).symm.trans ((M.move r hr c hc').node u hu).2.1
      subst hrr
      exact ⟨h1, h2.trans (D _ _ _ _ h hu)⟩
  · obtain ⟨r, hr, c0, h0, h1, h2, -⟩ := hwin w hw
    rw [h1, h2] at h
    exact hu r hr c0 h0 h
  · have hall : ∀ c ∈ ws, 0 < c.weight ∧ C.sys.maxw c.from < blockWeight C.sys P c.from ∧ c.from ≠ c.to := by
      intro c hc'
      obtain ⟨r, hr, c0, h0, rfl⟩ := hmem c hc'
      exact ⟨(hfit r hr c0 h0).1, (hfit r hr c0 h0).2.1, (hfit r hr c0 h0).2.2.1⟩
    have hsel : sel = ws := forall₂_kept e2 fun c hc' => (hall c hc').2.2
    have hws' : ws ≠ [] := w5 (fun r hr c hc' => by
        obtain ⟨c, h0, rfl⟩ := List.mem_map.1 hc'
        refine .inr ?_
        show (s 0).bw c.to + c.weight ≤ C.sys.maxw c.to
        rw [hbw _ (M.move r hr c h0).target]
        exact (hfit r hr c h0).2.2.2) (by
        obtain ⟨r, hr, h⟩ := hne
        exact ⟨r, hr, fun e => h (List.map_eq_nil_iff.1 e)⟩)
    obtain ⟨c, hcw⟩ := List.exists_mem_of_ne_nil ws hws'
    obtain ⟨a1, a2, a3⟩ := hall c hcw
    have hcf := (hws c hcw).1
    refine ⟨c.from, hcf, ?_, a2⟩
    rw [hW _ hcf, hsel, netW_eq]
    have ho := outW_ge (fun x hx => (hws x hx).2.2) hcw a3
    have hi : inW ws c.from = 0 := by
      refine inW_eq_zero fun x hx h => ?_
      have h3 := w3 c.from ⟨x, hx, h⟩
      dsimp only at h3
      rw [hbw _ hcf] at h3
      have : 0 ≤ inW ws c.from := inW_nonneg fun z hz => (hws z hz).2.2
      omega
    omega

end

/-! ## Sequences of rounds -/

/-- The states that any sequence of rounds can reach; the clusters can be built anew before each round, `rebuild_clusters`. -/
inductive CRun (S : Sys) (adj : Nat → List Nat) (accept : Bool) (s0 : Nat → Rank) : (Nat → Rank) → Prop
  | refl : CRun S adj accept s0 s0
  | seq {s s' : Nat → Rank} (h : CRun S adj accept s0 s) (nodes : Nat → Nat → List Nat) (D : CSys.Disjoint ⟨S, adj, nodes⟩) (maxNodes : Nat)
      (sort : List Cand → List Cand) (hs : ∀ l, sort l ~ l) (picks : Nat → List Cand)
      (M : ∀ P, Consistent S P s → ClusterMoves ⟨S, adj, nodes⟩ P picks) (hf : ∀ r, r < S.N → ∀ c ∈ picks r, c.from < S.k ∧ 0 ≤ c.weight)
      (hid : ∀ r, r < S.N → ∀ c ∈ picks r, c.id * S.N + r < kInvalid) (hr : SequentialRound ⟨S, adj, nodes⟩ maxNodes sort picks s s') :
      CRun S adj accept s0 s'
  | par {s s' : Nat → Rank} (h : CRun S adj accept s0 s) (nodes : Nat → Nat → List Nat) (D : CSys.Disjoint ⟨S, adj, nodes⟩) (tries : Nat)
      (rnd : Nat → Nat → Nat → Bool) (picks : Nat → List Cand) (M : ∀ P, Consistent S P s → ClusterMoves ⟨S, adj, nodes⟩ P picks)
      (hr : parallelRound? ⟨S, adj, nodes⟩ tries accept rnd picks s = some s') : CRun S adj accept s0 s'

/-- **C91, all rounds.**  After every sequence of sequential and parallel rounds, with any clusters in each round, all processes agree on a partition
and its block weights; and if only balanced moves are accepted, every block that was within its limit still is.  What is missing is the same as in
`C91_sequential_partial`. -/
theorem C91_rounds_partial {S : Sys} {adj : Nat → List Nat} {P : Nat → Nat} (hN : 0 < S.N) (hk : S.k < 2 ^ 32)
    (hg : ∀ r u, S.known r u = true → S.owner u ≠ r → ∃ v ∈ adj u, S.owner v = r) {accept : Bool} {s0 s : Nat → Rank} (hc : Consistent S P s0)
    (h : CRun S adj accept s0 s) :
    ∃ P', Consistent S P' s ∧ (accept = false → ∀ b, b < S.k → blockWeight S P b ≤ S.maxw b → blockWeight S P' b ≤ S.maxw b) := by
  induction h with
  | refl => exact ⟨P, hc, fun _ _ _ h => h⟩
  | seq _ nodes D maxNodes sort hs picks M hf hid hr ih =>
    obtain ⟨Q, hQ, hl⟩ := ih
    obtain ⟨s', P', h0, h1, -, -, h2, -⟩ := C91_sequential_partial (C := ⟨S, adj, nodes⟩) hN hk hg D hQ (M Q hQ) hf hid maxNodes hs
    obtain rfl := (h0 _).1 hr
    refine ⟨P', h1, fun ha b hb h => ?_⟩
    have h3 := hl ha b hb h
    have h4 : blockWeight S P' b ≤ max (blockWeight S Q b) (S.maxw b) := h2 b hb
    omega
  | par _ nodes D tries rnd picks M hr ih =>
    obtain ⟨Q, hQ, hl⟩ := ih
    obtain ⟨s', P', chosen, h0, h1, -, -, -, h2⟩ := C90_parallel (C := ⟨S, adj, nodes⟩) hN hg D hQ (M Q hQ) tries accept rnd
    rw [h0] at hr
    cases hr
    exact ⟨P', h1, fun ha b hb h => h2 ha b hb (hl ha b hb h)⟩

/-! ## A concrete case -/

namespace SequentialExample
open RoundExample

/-- The candidate of process 0 has a target, that of process 1 has none. -/
def cands : Nat → List Cand := fun r => if r = 0 then [⟨0, 0, 1, 2, 0⟩] else [⟨0, 0, 0, 1, 0⟩]

theorem move (r : Nat) (hr : r < 2) : ∀ c ∈ cands r, ClusterMove C P r c := by
  rcases (by omega : r = 0 ∨ r = 1) with rfl | rfl
  · intro c hc
    rw [show cands 0 = [⟨0, 0, 1, 2, 0⟩] from rfl, List.mem_singleton] at hc
    subst hc
    exact ⟨by decide, by decide, by decide, by decide⟩
  · intro c hc
    rw [show cands 1 = [⟨0, 0, 0, 1, 0⟩] from rfl, List.mem_singleton] at hc
    subst hc
    exact ⟨by decide, by decide, by decide, by decide⟩

/-- The other hypotheses are met as in `RoundExample`. -/
example : ClusterMoves C P cands ∧ (∀ r, r < 2 → ∀ c ∈ cands r, c.from < C.sys.k ∧ 0 ≤ c.weight) ∧
    ∀ r, r < 2 → ∀ c ∈ cands r, c.id * C.sys.N + r < kInvalid :=
  ⟨⟨move, fun r _ => by unfold cands; split <;> simp⟩, by decide, by decide⟩

/-- The hypotheses of the last part are met by the candidates of `RoundExample`. -/
example : (∃ r, r < 2 ∧ picks r ≠ []) ∧ ∀ r, r < 2 → ∀ c ∈ picks r, 0 < c.weight ∧ C.sys.maxw c.from < blockWeight C.sys P c.from ∧
    c.from ≠ c.to ∧ blockWeight C.sys P c.to + c.weight ≤ C.sys.maxw c.to := by decide +kernel

/-- The candidate without a target gets block 1, which has room for it. -/
example : select? 2 (s 0).bw (fun _ => 4) [⟨0, 0, 1, 2, 0⟩, ⟨1, 0, 0, 1, 0⟩] = some [⟨0, 0, 1, 2, 0⟩, ⟨1, 0, 1, 1, 0⟩] := by decide +kernel

/-- If there is no room, it keeps its block. -/
example : select? 2 (s 0).bw (fun _ => 3) [⟨0, 0, 1, 2, 0⟩, ⟨1, 0, 0, 1, 0⟩] = some [⟨0, 0, 1, 2, 0⟩, ⟨1, 0, 0, 1, 0⟩] := by decide +kernel

/-- The moves of both. -/
example : (fun s' : Nat → Rank => ((List.range 4).map (s' 0).part, [2, 3, 4, 5].map (s' 1).part, (s' 0).bw 0, (s' 1).bw 1))
    (sequentialMoves C ([⟨0, 0, 1, 2, 0⟩, ⟨1, 0, 1, 1, 0⟩].map (splitOwner 2)) s) = ([0, 1, 1, 1], [1, 1, 0, 1], 2, 4) := by decide +kernel

/-- A parallel round is a sequence of rounds; the proposals are right for every partition that the processes can agree on, since the processes know
all nodes of their clusters. -/
example : ∃ s', CRun C.sys C.adj false s s' ∧ (s' 0).bw 1 = 4 := by
  obtain ⟨s', hs'⟩ : ∃ s', parallelRound? C 1 false (fun _ _ _ => true) picks s = some s' :=
    Option.isSome_iff_exists.1 (by decide +kernel)
  have h4 : (parallelRound? C 1 false (fun _ _ _ => true) picks s).map (fun s' => (s' 0).bw 1) = some 4 := by decide +kernel
  rw [hs'] at h4
  refine ⟨s', .par .refl C.nodes disjoint 1 (fun _ _ _ => true) picks (fun Q hQ => ?_) hs', Option.some.inj h4⟩
  refine ⟨fun r hr c hc => ?_, fun r _ => by unfold picks; split <;> simp⟩
  have m := RoundExample.move r hr c hc
  refine ⟨m.target, m.weight, m.once, fun u hu => ⟨(m.node u hu).1, (m.node u hu).2.1, ?_⟩⟩
  have hown : C.sys.owner u = r := (m.node u hu).2.1
  have hkn : C.sys.known r u = true := by
    have h : u / 3 = r := hown
    show (u / 3 == r || (r == 0 && u == 3) || (r == 1 && u == 2)) = true
    simp [h]
  rw [← hQ.part r hr u (m.node u hu).1 hkn]
  exact (m.node u hu).2.2

end SequentialExample

end Verif.ClusterBalancer

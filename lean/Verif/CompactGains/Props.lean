import Verif.CompactGains.LayoutLemmas
import Verif.SparseGains.Props

/-!
# C72: the compact hashing gain cache

Model: `Verif/CompactGains/Model.lean`; specification: `Verif/SparseGains/Spec.lean` (moves, interleavings and listed
gains) and `Graph.conn` (the connection of a node to a block).
-/

namespace Verif.CompactGains
open Verif.CompactMap Verif.Math Verif.SparseGains Verif.PrefixSum Verif.Gains

/-- **C72**.  The graph is symmetric with positive edge weights, no node has more than `2^28` neighbours, and a graph
with one node has no edges; `1 ≤ k < 2^32` and block IDs need `bits` bits.  Weighted degrees fit into `W - 1` bits and
into the 64 bits of the largest entry together with a block ID.  The offsets fit into `E` bits.

Then the initialisation (whatever the arrays held before, for every schedule of the prefix sum and every order of the
loop over the nodes, whatever `ceil2(0)` is) succeeds; the entries of a node are aligned, inside of the array, disjoint
from those of other nodes and enough for all blocks or for all neighbours.  After any history of moves, with the
updates of different threads in any interleaving, all loops terminate and all connections, gains, listed gains (in the
order of the table if only adjacent blocks are listed) and border flags are those of the current partition. -/
theorem C72_compact (g : Graph) (hg : g.WF) (hs : g.Symm) (hpos : ∀ u, u < g.n → ∀ e ∈ g.adj u, 0 < e.2)
    (W E c0 k threads : Nat) (hk : 0 < k) (hk' : k < 2 ^ 32) (hW : W ≤ 64)
    (bits : Nat) (hbits : k ≤ 2 ^ bits) (hmin : ∀ j, k ≤ 2 ^ j → bits ≤ j)
    (hfit : ∀ u, u < g.n → wdegOf g u < 2 ^ (W - 1)) (hfitTab : ∀ u, u < g.n → wdegOf g u < 2 ^ (64 - bits))
    (hdeg : ∀ u, u < g.n → (g.adj u).length ≤ 2 ^ 28) (h1n : g.n = 1 → g.adj 0 = [])
    (hE : 16 * ((List.range g.n).map fun u => (g.adj u).length).sum + 14 * g.n < 2 ^ E)
    (ht : 0 < threads) (calls1 calls2 : List (Nat × Nat × Nat))
    (h1 : calls1.Perm (deterministicForCalls threads 0 (g.n - 1))) (h2 : calls2.Perm (deterministicForCalls threads 0 (g.n - 1)))
    (part : Nat → Nat) (hpart : ∀ u, u < g.n → part u < k)
    (old : Old) (order : List Nat) (ho : order.Perm (List.range g.n)) :
    ∃ L mem size, init? W E c0 k threads calls1 calls2 old g part order = some (L, mem, size) ∧
      (∀ u, u < g.n → ∃ w a m, region? L u = some (w, a, m) ∧ (w = 0 ∨ w = 1 ∨ w = 2 ∨ w = 4 ∨ w = 8) ∧ (w > 0 → w ∣ a) ∧
        a + w * m ≤ size ∧ (m = k ∨ (g.adj u).length ≤ m) ∧
        ∀ v, v < g.n → v ≠ u → ∃ w' a' m', region? L v = some (w', a', m') ∧ (a + w * m ≤ a' ∨ a' + w' * m' ≤ a)) ∧
      ∀ ms evs, ValidMoves g.n k part ms → Interleaved g ms evs →
        ∃ mem', evs.foldlM (step? g L) mem = some mem' ∧
          ∀ q, q = applyMoves part ms → ∀ u, u < g.n →
            (∀ b, b < k → conn? L mem' u b = some (g.conn u fun v => q v = b)) ∧
            (∀ a b, a < k → b < k →
              gain? L mem' u a b = some (g.conn u (fun v => q v = b) - g.conn u (fun v => q v = a))) ∧
            (∀ exact a, a < k → gains? true exact L mem' u a = some (gainsSpec g q k exact u a) ∧
              ∃ l, gains? false exact L mem' u a = some l ∧
                l.Perm ((gainsSpec g q k exact u a).filter fun e => g.conn u (fun v => q v = e.1) > 0)) ∧
            ∃ r, isBorder? L mem' u (q u) = some r ∧ (r = true ↔ ∃ e ∈ g.adj u, q e.1 ≠ q u) := by
  obtain ⟨L, total, e1, e2, e3⟩ := layout_ok (c0 := c0) (old := old) hpos hk hk' hW hfit
    (fun b hb hb' => by
      have : b = bits := Nat.le_antisymm (hb' bits hbits) (hmin b hb)
      rw [this]; exact hfitTab) hdeg h1n hE ht h1 h2
  obtain ⟨hash, w, p, lay, hreg⟩ := e3 (max old.size (8 * ((total + 7) / 8))) (by omega)
  have h : Ctx g k L _ hash w p := ⟨lay, hg, hs, hpos⟩
  have hmem : ∀ u, u ∈ order ↔ u < g.n := fun u => by rw [ho.mem_iff, List.mem_range]
  obtain ⟨mem, a1, ls, a2, a3⟩ := recompute_all h hpart order
    (fun i => if i < max old.size (8 * ((total + 7) / 8)) then 0 else old.mem i) (fun _ => [])
    (fun u hu => (hmem u).1 hu) (ho.nodup_iff.2 List.nodup_range) (fun _ _ => rfl)
    (fun v hv hn => absurd ((hmem v).2 hv) hn) (minv_zero lay _)
  have hm0 : MInv g L hash w p mem (mv g (finalSide part)) := by
    refine MInv.congr a2 ?_
    intro v b hv
    rw [a3 v hv, blockSum_full]
    exact mv_conn hg hs hv (fun _ _ => rfl) b
  refine ⟨L, mem, max old.size (8 * ((total + 7) / 8)), ?_, ?_, ?_⟩
  · unfold init?
    rw [e1]
    simp only [Option.bind_some]
    rw [a1]; rfl
  · intro u hu
    obtain ⟨r1, r2, m, r3, r4, r5⟩ := hreg u hu
    have hl := lay.last u hu
    refine ⟨w u, L.off u, m, r3, r1, r2, by omega, r5, ?_⟩
    intro v hv hne
    obtain ⟨_, _, m', q3, q4, _⟩ := hreg v hv
    refine ⟨w v, L.off v, m', q3, ?_⟩
    rcases Nat.lt_or_gt_of_ne hne with hlt | hgt
    · have := lay.mono v u hlt hu; omega
    · have := lay.mono u v hgt hv; omega
  · intro ms evs hms hevs
    obtain ⟨t, t1, t2⟩ := interleaved_steps hms hevs
    have hside : ∀ q b, finalSide part q = some b → q.1 < g.n → b < k := by
      intro q b hq hn; cases hq; exact hpart _ hn
    obtain ⟨mem', c1, c2⟩ := steps_ok h evs _ t mem hside hm0 t1
    refine ⟨mem', c1, ?_⟩
    intro q hq u hu
    subst hq
    have hlt := applyMoves_lt hms hpart
    have hval : ∀ v b, v < g.n → (g.conn v fun x => applyMoves part ms x = b) = mv g t v b := by
      intro v b hv
      refine (mv_conn hg hs hv (part := applyMoves part ms) ?_ b).symm
      intro q hq
      exact t2 q (mem_inc.1 hq).2.1
    have hm := MInv.congr c2 hval
    have hM : Allowed g L hash w p fun v b => g.conn v fun x => applyMoves part ms x = b := by
      have h1 := h.allowed (side := finalSide (applyMoves part ms)) (by intro q b hq hn; cases hq; exact hlt _ hn)
      intro v hv hh h0
      refine (h1 v hv hh h0).congr ?_
      intro b
      exact (mv_conn hg hs hv (fun _ _ => rfl) b).symm
    have hc := fun b hb => conn_ok h hM hm hu (b := b) hb
    refine ⟨hc, ?_, ?_, ?_⟩
    · intro a b ha hb
      unfold gain?
      rw [hc b hb, hc a ha]; rfl
    · intro exact a ha
      exact gains_ok h hM hm hu ha exact
    · refine ⟨wdegOf g u != g.conn u fun v => applyMoves part ms v = applyMoves part ms u, ?_, ?_⟩
      · unfold isBorder?
        rw [hc _ (hlt u hu), Option.map_some]
        congr 2
        have c := (conn_le_wdeg (hpos u hu) part 0)
        exact toSigned_small (by omega) (lay.fitW u hu) (lay.wdeg u hu)
      · rw [bne_iff_ne]
        exact border_iff g (applyMoves part ms) u (applyMoves part ms u) (hpos u hu)

/-- **C72**, the default build with 32-bit weights: that block ID and weighted degree fit into an entry need not be
assumed. -/
theorem C72_fit32 (g : Graph) (k bits : Nat) (hk : k < 2 ^ 32) (hmin : ∀ j, k ≤ 2 ^ j → bits ≤ j)
    (hfit : ∀ u, u < g.n → wdegOf g u < 2 ^ (32 - 1)) : ∀ u, u < g.n → wdegOf g u < 2 ^ (64 - bits) := by
  intro u hu
  have h1 := hmin 32 (Nat.le_of_lt hk)
  have h2 := hfit u hu
  have h3 : (2 : Int) ^ (32 - 1) ≤ 2 ^ (64 - bits) := by
    exact_mod_cast Nat.pow_le_pow_right (by decide : 0 < 2) (by omega)
  omega

/-- **C72**, the locks: `lock` and `unlock` (`compact_hashing_gain_cache.h:300-320`) are the functions of the sparse
gain cache: for the word of one node that starts as its weighted degree `d`, and threads that execute them in any
interleaving of their accesses, at most one thread holds the lock, the weighted degree that others read is never
changed, and when no thread holds the lock, the word is `d`. -/
theorem C72_lock (W d : Nat) (hd : d < 2 ^ (W - 1)) (sched : List Nat) :
    ∀ s, s = sched.foldl (LockSt.step W) ⟨d, fun _ => .idle⟩ →
      (∀ t t', (s.pc t).holds = true → (s.pc t').holds = true → t = t') ∧ s.x % 2 ^ (W - 1) = d ∧
      ((∀ t, (s.pc t).holds = false) → s.x = d) := C35_lock W d hd sched

/-! ### A concrete case -/

/-- Five nodes: node 0 has the neighbours 1, 2, 3 with weights 300, 2, 3, and 2 and 3 are adjacent with weight 4; node 4
is isolated.  With 4 blocks, nodes 0, ..., 3 have tables or entries for all blocks and entries of one or two bytes. -/
def exG : Graph :=
  { n := 5, w := fun _ => 1
    adj := fun u => if u = 0 then [(1, 300), (2, 2), (3, 3)] else if u = 1 then [(0, 300)]
      else if u = 2 then [(0, 2), (3, 4)] else if u = 3 then [(0, 3), (2, 4)] else [] }

theorem exG_cases {P : Nat → Prop} (h0 : P 0) (h1 : P 1) (h2 : P 2) (h3 : P 3) (h4 : P 4) : ∀ u, u < exG.n → P u := by
  intro u hu
  have : u = 0 ∨ u = 1 ∨ u = 2 ∨ u = 3 ∨ u = 4 := by simp only [exG] at hu; omega
  rcases this with rfl | rfl | rfl | rfl | rfl <;> assumption

/-- Nodes 0 and 2 move at the same time. -/
def exMs : List Move := [⟨0, 0, 3⟩, ⟨2, 2, 1⟩]

def exEvs : List Step :=
  [⟨0, 0, false, 0⟩, ⟨2, 0, false, 2⟩, ⟨2, 0, true, 1⟩, ⟨0, 0, true, 3⟩, ⟨2, 1, false, 2⟩, ⟨0, 1, false, 0⟩, ⟨0, 1, true, 3⟩,
   ⟨2, 1, true, 1⟩, ⟨0, 2, false, 0⟩, ⟨0, 2, true, 3⟩]

/-- All hypotheses of `C72_compact` hold. -/
example : exG.WF ∧ exG.Symm ∧ (∀ u, u < exG.n → ∀ e ∈ exG.adj u, 0 < e.2) ∧
    (4 ≤ 2 ^ 2 ∧ ∀ j, 4 ≤ 2 ^ j → 2 ≤ j) ∧ (∀ u, u < exG.n → wdegOf exG u < 2 ^ (32 - 1)) ∧
    (∀ u, u < exG.n → wdegOf exG u < 2 ^ (64 - 2)) ∧ (∀ u, u < exG.n → (exG.adj u).length ≤ 2 ^ 28) ∧ (exG.n = 1 → exG.adj 0 = []) ∧
    16 * ((List.range exG.n).map fun u => (exG.adj u).length).sum + 14 * exG.n < 2 ^ 32 ∧
    [(2, 4, 1), (0, 2, 0)].Perm (deterministicForCalls 2 0 (exG.n - 1)) ∧
    (∀ u, u < exG.n → u % 4 < 4) ∧ [3, 1, 0, 4, 2].Perm (List.range exG.n) ∧
    ValidMoves exG.n 4 (fun u => u % 4) exMs ∧ Interleaved exG exMs exEvs := by
  refine ⟨exG_cases (by decide) (by decide) (by decide) (by decide) (by decide), ?_,
    exG_cases (by decide) (by decide) (by decide) (by decide) (by decide), ⟨by decide, ?_⟩,
    exG_cases (by decide) (by decide) (by decide) (by decide) (by decide),
    exG_cases (by decide) (by decide) (by decide) (by decide) (by decide),
    exG_cases (by decide) (by decide) (by decide) (by decide) (by decide), by decide, by decide, by decide,
    fun u _ => Nat.mod_lt _ (by decide), by decide, by decide, ?_⟩
  · intro u v c hu hv
    revert v
    revert u
    refine exG_cases ?_ ?_ ?_ ?_ ?_ <;> refine exG_cases ?_ ?_ ?_ ?_ ?_ <;> simp [exG, List.count_cons, List.count_nil]
  · intro j hj
    rcases j with _ | _ | j
    · simp at hj
    · simp at hj
    · omega
  · intro u
    by_cases h2 : u = 0
    · subst h2; decide
    · by_cases h3 : u = 2
      · subst h3; decide
      · simp [exEvs, exMs, Ne.symm h2, Ne.symm h3]

/-- The model computes on this case: the entries of the nodes, and the connections of nodes 0 and 3 after the moves. -/
example : ((init? 32 32 17 4 2 [(2, 4, 1), (0, 2, 0)] [(0, 2, 0), (2, 4, 1)] ⟨fun _ => 77, 9, fun _ => 5, fun _ => 3⟩ exG (fun u => u % 4)
      [3, 1, 0, 4, 2]).bind fun r =>
    (exEvs.foldlM (step? exG r.1) r.2.1).bind fun c =>
      ((List.range 5).mapM (region? r.1)).bind fun rs =>
      ([(0, 0), (0, 1), (0, 3), (3, 1), (3, 2), (3, 3)].mapM fun q => conn? r.1 c q.1 q.2).map fun l => (rs, r.2.2, l)) =
    some ([(2, 0, 4), (2, 8, 1), (1, 10, 8), (1, 18, 2), (0, 20, 0)], 24, [0, 302, 3, 4, 0, 3]) := by decide +kernel

/-- **C72**, why block ID and weighted degree must fit into 64 bits: with 64-bit weights and 4 blocks, the entries of a
node with one edge of weight `2^62` would have 16 bytes.  There is no such type, and the cache reports no connection
to the only adjacent block and no gain of moving there; the node is a border node all the same. -/
theorem C72_wide_weight_lost :
    let g : Graph := { n := 2, w := fun _ => 1, adj := fun u => if u = 0 then [(1, 2 ^ 62)] else [(0, 2 ^ 62)] }
    g.conn 0 (fun v => v = 1) = 2 ^ 62 ∧
    (init? 64 64 0 4 1 [(0, 1, 0)] [(0, 1, 0)] ⟨fun _ => 0, 0, fun _ => 0, fun _ => 0⟩ g (fun u => u) [0, 1]).bind (fun r =>
      (conn? r.1 r.2.1 0 1).bind fun x => (gain? r.1 r.2.1 0 0 1).map fun y => (r.1.width? 0 true, x, y)) = some (some 16, 0, 0) := by
  decide +kernel

end Verif.CompactGains

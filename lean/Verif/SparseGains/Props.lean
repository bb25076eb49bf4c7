import Verif.SparseGains.Init
import Verif.SparseGains.Lock

/-!
# C35: the sparse gain cache

Model: `Verif/SparseGains/Model.lean`, `Lock.lean`; specification: `Verif/SparseGains/Spec.lean`.
-/

namespace Verif.SparseGains
open Verif.CompactMap Verif.Math Verif.Gains

section
variable {g : Graph} {k : Nat} {L : Layout} {gc : Nat} {start p : Nat → Nat}

theorem toSigned_small {W x : Nat} {c : Int} (h0 : 0 ≤ c) (hc : c < 2 ^ (W - 1)) (hx : (x : Int) = c) : toSigned W x = c := by
  unfold toSigned
  rw [if_pos, hx]
  have : (x : Int) < ((2 ^ (W - 1) : Nat) : Int) := by push_cast; omega
  exact_mod_cast this

theorem pow_pred_le (W : Nat) : (2 : Int) ^ (W - 1) ≤ 2 ^ W := by
  exact_mod_cast Nat.pow_le_pow_right (by decide : 0 < 2) (Nat.sub_le W 1)

theorem conn_ok (h : Ctx g k L gc start p) {part : Nat → Nat} {cache : Nat → Nat} (hM : Allowed L p fun v b => g.conn v fun u => part u = b)
    (hm : MInv g L start p cache fun v b => g.conn v fun u => part u = b) {u b : Nat} (hu : u < g.n) (hb : b < k) :
    conn? L cache u b = some (g.conn u fun v => part v = b) := by
  obtain ⟨c0, c1⟩ := conn_le_wdeg (h.pos u hu) part b
  have c2 := h.fit u hu
  unfold conn?
  by_cases hs : u ≥ L.thr
  · rw [if_pos hs]
    have := hm.sp u b hs hu (by rw [h.lay.kk]; exact hb)
    rw [Int.emod_eq_of_lt c0 (by have := pow_pred_le L.W; omega)] at this
    rw [toSigned_small c0 (by omega) this]
  · rw [if_neg hs, h.lay.idx u (by omega)]
    have hut : u < L.thr := by omega
    have hroom : (wrapper L (2 ^ p u)).room = 2 ^ p u - 1 := by
      show 2 ^ Nat.log2 (2 ^ p u) - 1 = _
      rw [Nat.log2_two_pow]
    have hl := (hM u hut).live
    rw [← hroom] at hl
    have := get_ok (c := wrapper L (2 ^ p u)) h.bits (hm.tab u hut) b ((hm.tab u hut).empty_or hl)
    simp only [Option.bind_eq_bind, Option.bind_some, this]
    rw [toSigned_small c0 (by omega) (by omega)]

theorem gains_ok (h : Ctx g k L gc start p) {part : Nat → Nat} {cache : Nat → Nat} (hM : Allowed L p fun v b => g.conn v fun u => part u = b)
    (hm : MInv g L start p cache fun v b => g.conn v fun u => part u = b) {u a : Nat} (hu : u < g.n) (ha : a < k) (exact : Bool) :
    gains? true exact L cache u a = some (gainsSpec g part k exact u a) ∧
    ∃ l, gains? false exact L cache u a = some l ∧
      l.Perm ((gainsSpec g part k exact u a).filter fun e => g.conn u (fun v => part v = e.1) > 0) := by
  have hc := fun b hb => conn_ok h hM hm hu (b := b) hb
  have hfilt : (gainsSpec g part k exact u a).filter (fun e => g.conn u (fun v => part v = e.1) > 0) =
      (List.range k).filterMap fun b => if a = b then none else if g.conn u (fun v => part v = b) > 0 then
        some (b, g.conn u (fun v => part v = b) - if exact then g.conn u (fun v => part v = a) else 0) else none := by
    unfold gainsSpec
    rw [List.filter_filterMap]
    apply List.filterMap_congr
    intro b _
    by_cases hab : a = b
    · rw [if_pos hab, if_pos hab.symm]; rfl
    · rw [if_neg hab, if_neg (Ne.symm hab)]
      simp [Option.filter]
  rw [hfilt]
  unfold conn? at hc
  unfold gains?
  by_cases hs : u ≥ L.thr
  · simp only [if_pos hs] at hc ⊢
    have hc : ∀ b, b < k → toSigned L.W (cache (indexSparse L u b)) = g.conn u fun v => part v = b :=
      fun b hb => Option.some.inj (hc b hb)
    rw [h.lay.kk, hc a ha]
    constructor
    · unfold gainsSpec
      congr 1
      apply List.filterMap_congr
      intro b hb
      rw [hc b (List.mem_range.1 hb)]
      by_cases hab : a = b
      · rw [if_pos hab, if_pos hab.symm]
      · rw [if_neg hab, if_neg (Ne.symm hab)]; rfl
    · refine ⟨_, rfl, List.Perm.of_eq ?_⟩
      apply List.filterMap_congr
      intro b hb
      rw [hc b (List.mem_range.1 hb)]
      simp
  · simp only [if_neg hs] at hc ⊢
    have hut : u < L.thr := by omega
    rw [h.lay.idx u hut] at hc ⊢
    simp only [Option.bind_eq_bind, Option.bind_some] at hc ⊢
    have hinv := hm.tab u hut
    have hroom : (wrapper L (2 ^ p u)).room = 2 ^ p u - 1 := by
      show 2 ^ Nat.log2 (2 ^ p u) - 1 = _
      rw [Nat.log2_two_pow]
    have hl := (hM u hut).live
    rw [← hroom] at hl
    have hget := fun b => get_ok (c := wrapper L (2 ^ p u)) h.bits hinv b (hinv.empty_or hl)
    have hsg : ∀ b, toSigned L.W (g.conn u fun v => part v = b).toNat = g.conn u fun v => part v = b := by
      intro b
      obtain ⟨c0, c1⟩ := conn_le_wdeg (h.pos u hu) part b
      have c2 := h.fit u hu
      exact toSigned_small c0 (by omega) (by omega)
    rw [hget a]
    simp only [Option.map_some, hsg]
    obtain ⟨f1, f2, _⟩ := forEach_ok (c := wrapper L (2 ^ p u)) h.bits hinv
    generalize hfe : (wrapper L (2 ^ p u)).forEach (win cache (start u)) = fe at f1 f2
    have f3 : ∀ e ∈ fe, toSigned L.W e.2 = g.conn u (fun v => part v = e.1) ∧ 0 < g.conn u (fun v => part v = e.1) := by
      intro e he
      obtain ⟨g1, g2⟩ := (f2 e.1 e.2).1 he
      rw [← g2] at g1
      rw [← g2, hsg]
      exact ⟨rfl, by omega⟩
    have f4 : ∀ b, 0 < g.conn u (fun v => part v = b) → ∃ e ∈ fe, e.1 = b :=
      fun b hb => ⟨(b, (g.conn u fun v => part v = b).toNat), (f2 _ _).2 ⟨by omega, rfl⟩, rfl⟩
    constructor
    · -- the buffer holds the connections
      have hbuf : ∀ (l : List (Nat × Nat)) (m : Nat → Int), (∀ e ∈ l, toSigned L.W e.2 = g.conn u (fun v => part v = e.1)) →
          (∀ b, m b = g.conn u (fun v => part v = b) ∨ m b = 0 ∧ (0 < g.conn u (fun v => part v = b) → ∃ e ∈ l, e.1 = b)) →
          ∀ b, (l.map fun e => (e.1, toSigned L.W e.2)).foldl (fun (m : Nat → Int) e => upd m e.1 e.2) m b =
            g.conn u fun v => part v = b := by
        intro l
        induction l with
        | nil =>
          intro m _ hm b
          rcases hm b with h1 | ⟨h1, h2⟩
          · exact h1
          · have := (conn_le_wdeg (h.pos u hu) part b).1
            rcases Int.lt_or_eq_of_le this with h3 | h3
            · obtain ⟨e, he, _⟩ := h2 h3; nomatch he
            · show m b = _
              rw [h1]; exact h3
        | cons e l ih =>
          intro m h1 h2 b
          rw [List.map_cons, List.foldl_cons]
          apply ih
          · exact fun x hx => h1 x (List.mem_cons_of_mem _ hx)
          · intro c
            by_cases hce : c = e.1
            · rw [hce, upd_same]; exact Or.inl (h1 e List.mem_cons_self)
            · rw [upd_ne _ _ hce]
              rcases h2 c with h3 | ⟨h3, h4⟩
              · exact Or.inl h3
              · refine Or.inr ⟨h3, fun h5 => ?_⟩
                obtain ⟨x, hx, hx2⟩ := h4 h5
                rcases List.mem_cons.1 hx with rfl | hx
                · exact absurd hx2.symm hce
                · exact ⟨x, hx, hx2⟩
      have hbuf := hbuf fe (fun _ => 0) (fun e he => (f3 e he).1) (fun b => Or.inr ⟨rfl, f4 b⟩)
      unfold gainsSpec
      rw [if_pos trivial, h.lay.kk]
      congr 1
      apply List.filterMap_congr
      intro b hb
      rw [hbuf b]
      by_cases hab : a = b
      · rw [if_neg (by simpa using hab), if_pos hab.symm]
      · rw [if_pos hab, if_neg (Ne.symm hab)]
    · refine ⟨_, rfl, ?_⟩
      rw [if_neg (by decide), List.filterMap_map]
      have key : List.filterMap ((fun e : Nat × Int => if e.1 ≠ a then some (e.1, e.2 -
            if exact = true then g.conn u fun v => part v = a else 0) else none) ∘ fun e => (e.1, toSigned L.W e.2)) fe =
          (fe.map Prod.fst).filterMap fun b => if a = b then none else if g.conn u (fun v => part v = b) > 0 then
        some (b, g.conn u (fun v => part v = b) - if exact then g.conn u (fun v => part v = a) else 0) else none := by
        rw [List.filterMap_map]
        apply List.filterMap_congr
        intro e he
        obtain ⟨g1, g2⟩ := f3 e he
        simp only [Function.comp, g1]
        by_cases hea : a = e.1
        · rw [if_neg (by simpa using hea.symm), if_pos hea]
        · rw [if_pos (Ne.symm hea), if_neg hea, if_pos g2]
      rw [key]
      -- both lists of blocks contain the same adjacent blocks
      have hperm : (fe.map Prod.fst).Perm ((List.range k).filter fun b => 0 < g.conn u fun v => part v = b) := by
        rw [List.perm_ext_iff_of_nodup f1 (List.nodup_range.filter _)]
        intro b
        rw [List.mem_filter, List.mem_map, List.mem_range, decide_eq_true_eq]
        constructor
        · rintro ⟨e, he, rfl⟩
          obtain ⟨g1, g2⟩ := f3 e he
          refine ⟨?_, g2⟩
          rw [← h.lay.kk]
          exact (hM u hut).lt (b := e.1) (Int.ne_of_gt g2)
        · rintro ⟨_, h2⟩
          exact f4 b h2
      refine (hperm.filterMap _).trans (List.Perm.of_eq ?_)
      rw [List.filterMap_filter]
      apply List.filterMap_congr
      intro b _
      by_cases hb : 0 < g.conn u fun v => part v = b
      · rw [if_pos (by simpa using hb)]
      · rw [if_neg (by simpa using hb)]
        by_cases hab : a = b
        · rw [if_pos hab]
        · rw [if_neg hab, if_neg hb]

end

/-- **C35**.  The graph is symmetric with positive edge weights, `2 ≤ k < 2^32`; block IDs need `bits` bits of the
`W` bits of an entry.  If the graph claims to be sorted, its degree buckets are right.  Weighted degrees fit into
`W - 1` bits and those of nodes with few neighbours also into the value bits of an entry.

Then the initialisation (whatever the arrays held before, the loop over the nodes in any order) succeeds; the entries
of different nodes are disjoint and inside of the array, and tables have more entries than the node has edges.  After
any history of moves, with the updates of different threads in any interleaving, all loops terminate and all
connections, gains, listed gains (in the order of the table if only adjacent blocks are listed) and border flags are
those of the current partition. -/
theorem C35_sparse (g : Graph) (hg : g.WF) (hs : g.Symm) (hpos : ∀ u, u < g.n → ∀ e ∈ g.adj u, 0 < e.2)
    (W k threshold : Nat) (hk : 2 ≤ k) (hk' : k < 2 ^ 32) (sorted : Bool) (bsize : Nat → Nat) (nb : Nat)
    (hsorted : sorted = true → Sorted g.n (fun u => (g.adj u).length) bsize nb)
    (bits : Nat) (hbits : k ≤ 2 ^ bits) (hmin : ∀ j, k ≤ 2 ^ j → bits ≤ j) (hW : bits ≤ W)
    (hfit : ∀ u, u < g.n → wdegOf g u < 2 ^ (W - 1))
    (hfitTab : ∀ u, u < g.n → (g.adj u).length < 2 * threshold → wdegOf g u < 2 ^ (W - bits))
    (part : Nat → Nat) (hpart : ∀ u, u < g.n → part u < k)
    (oldOff : Nat → Nat) (old : St) (order : List Nat) (ho : order.Perm (List.range g.n)) :
    ∃ L s, init? W k threshold sorted bsize nb oldOff old g part order = some (L, s) ∧
      (∀ u, u < g.n → ∃ a m, region? L u = some (a, m) ∧ a + m ≤ s.size ∧ (m = k ∨ (g.adj u).length < m) ∧
        ∀ v, v < g.n → v ≠ u → ∃ a' m', region? L v = some (a', m') ∧ (a + m ≤ a' ∨ a' + m' ≤ a)) ∧
      ∀ ms evs, ValidMoves g.n k part ms → Interleaved g ms evs →
        ∃ cache, evs.foldlM (step? g L) s.cache = some cache ∧
          ∀ q, q = applyMoves part ms → ∀ u, u < g.n →
            (∀ b, b < k → conn? L cache u b = some (g.conn u fun v => q v = b)) ∧
            (∀ a b, a < k → b < k →
              gain? L cache u a b = some (g.conn u (fun v => q v = b) - g.conn u (fun v => q v = a))) ∧
            (∀ exact a, a < k → gains? true exact L cache u a = some (gainsSpec g q k exact u a) ∧
              ∃ l, gains? false exact L cache u a = some l ∧
                l.Perm ((gainsSpec g q k exact u a).filter fun e => g.conn u (fun v => q v = e.1) > 0)) ∧
            ∃ r, isBorder? L { s with cache } u (q u) = some r ∧ (r = true ↔ ∃ e ∈ g.adj u, q e.1 ≠ q u) := by
  obtain ⟨L, gc, start, p, e1, lay, e2, e3, e4, e5⟩ := initLayout_ok (W := W) (k := k) (threshold := threshold) (sorted := sorted)
    (bsize := bsize) (nb := nb) (oldOff := oldOff) (g := g) (by omega) hk' hsorted
  have hb : L.bits = bits := Nat.le_antisymm (e4 bits hbits) (hmin _ e3)
  have h : Ctx g k L gc start p :=
    { lay := lay
      bits := by rw [e2, hb]; exact hW
      kbits := by rw [lay.kk]; exact e3
      wf := hg, symm := hs, pos := hpos
      fit := by rw [e2]; exact hfit
      fitTab := by
        intro u hu
        rw [e2, hb]
        exact hfitTab u (Nat.lt_of_lt_of_le hu lay.thr) (e5 u hu) }
  have hmem : ∀ u, u ∈ order ↔ u < g.n := fun u => by rw [ho.mem_iff, List.mem_range]
  have hsize : gc ≤ max old.size gc := by omega
  obtain ⟨s, a1, a2, ls, a3, a4⟩ := recompute_all h hpart order
    { cache := fun i => if i < max old.size gc then 0 else old.cache i, size := max old.size gc, wdeg := old.wdeg } (fun _ => [])
    (fun u hu => (hmem u).1 hu) (ho.nodup_iff.2 List.nodup_range) (fun _ _ => rfl)
    (fun v hv hn => absurd ((hmem v).2 hv) hn) (minv_zero h hsize _)
  have hwd : ∀ u, u < g.n → (s.wdeg u : Int) = wdegOf g u := by
    intro u hu
    rw [(a4 u hu).2]
    have h3 : ((full g part u).map Prod.snd).sum = wdegOf g u := by
      unfold full wdegOf
      rw [List.map_map]; rfl
    rw [h3]
    have c := (conn_le_wdeg (hpos u hu) part 0)
    have c2 := h.fit u hu
    exact Int.emod_eq_of_lt (by omega) (by have := pow_pred_le L.W; omega)
  have hm0 : MInv g L start p s.cache (mv g (finalSide part)) := by
    refine MInv.congr a3 lay.thr ?_
    intro v b hv
    rw [(a4 v hv).1, blockSum_full]
    exact mv_conn hg hs hv (fun _ _ => rfl) b
  refine ⟨L, s, ?_, ?_, ?_⟩
  · unfold init?
    rw [e1]
    simp only [Option.bind_eq_bind, Option.bind_some]
    rw [a1]; rfl
  · have hreg : ∀ u, u < g.n → ∃ a m, region? L u = some (a, m) ∧ a + m ≤ s.size ∧ (m = k ∨ (g.adj u).length < m) ∧
        ((u < L.thr ∧ a = start u ∧ m = 2 ^ p u) ∨ (L.thr ≤ u ∧ a = indexSparse L u 0 ∧ m = k)) := by
      intro u hu
      have hsz : s.size = max old.size gc := a2
      have h4 := lay.size
      unfold region?
      by_cases hut : u < L.thr
      · rw [if_pos hut, lay.idx u hut]
        have h5 := lay.below u hut
        exact ⟨_, _, rfl, by omega, Or.inr (lay.room u hut), Or.inl ⟨hut, rfl, rfl⟩⟩
      · rw [if_neg hut, lay.kk]
        have h5 : (u - L.thr) * k + k ≤ (g.n - L.thr) * k := by
          rw [show (u - L.thr) * k + k = (u - L.thr + 1) * k by rw [Nat.add_mul]; omega]
          exact Nat.mul_le_mul_right _ (by omega)
        refine ⟨_, _, rfl, ?_, Or.inl rfl, Or.inr ⟨by omega, rfl, rfl⟩⟩
        unfold indexSparse
        rw [lay.kk]; omega
    intro u hu
    obtain ⟨a, m, r1, r2, r3, r4⟩ := hreg u hu
    refine ⟨a, m, r1, r2, r3, ?_⟩
    intro v hv hne
    obtain ⟨a', m', q1, q2, q3, q4⟩ := hreg v hv
    refine ⟨a', m', q1, ?_⟩
    have hsp : ∀ x, L.thr ≤ x → L.sparseOff ≤ indexSparse L x 0 := fun x _ => by unfold indexSparse; omega
    rcases r4 with ⟨t1, t2, t3⟩ | ⟨t1, t2, t3⟩ <;> rcases q4 with ⟨w1, w2, w3⟩ | ⟨w1, w2, w3⟩
    · rcases Nat.lt_or_gt_of_ne hne with hlt | hgt
      · have := lay.disj v u hlt t1; omega
      · have := lay.disj u v hgt w1; omega
    · have := lay.below u t1; have := hsp v w1; omega
    · have := lay.below v w1; have := hsp u t1; omega
    · unfold indexSparse at t2 w2
      rw [lay.kk] at t2 w2
      rcases Nat.lt_or_gt_of_ne hne with hlt | hgt
      · right
        have : (v - L.thr + 1) * k ≤ (u - L.thr) * k := Nat.mul_le_mul_right _ (by omega)
        rw [Nat.add_mul] at this; omega
      · left
        have : (u - L.thr + 1) * k ≤ (v - L.thr) * k := Nat.mul_le_mul_right _ (by omega)
        rw [Nat.add_mul] at this; omega
  · intro ms evs hms hevs
    obtain ⟨t, t1, t2⟩ := interleaved_steps hms hevs
    have hside : ∀ q b, finalSide part q = some b → q.1 < g.n → b < k := by
      intro q b hq hn; cases hq; exact hpart _ hn
    obtain ⟨cache, c1, c2⟩ := steps_ok h evs _ t s.cache hside hm0 t1
    refine ⟨cache, c1, ?_⟩
    intro q hq u hu
    subst hq
    have hlt := applyMoves_lt hms hpart
    have hval : ∀ v b, v < g.n → (g.conn v fun x => applyMoves part ms x = b) = mv g t v b := by
      intro v b hv
      refine (mv_conn hg hs hv (part := applyMoves part ms) ?_ b).symm
      intro q hq
      exact t2 q (mem_inc.1 hq).2.1
    have hm := MInv.congr c2 lay.thr hval
    have hM : Allowed L p fun v b => g.conn v fun x => applyMoves part ms x = b := by
      have h1 := h.allowed (side := finalSide (applyMoves part ms)) (by intro q b hq hn; cases hq; exact hlt _ hn)
      intro v hv
      refine (h1 v hv).congr ?_
      intro b
      exact (mv_conn hg hs (Nat.lt_of_lt_of_le hv lay.thr) (fun _ _ => rfl) b).symm
    have hc := fun b hb => conn_ok h hM hm hu (b := b) hb
    refine ⟨hc, ?_, ?_, ?_⟩
    · intro a b ha hb
      unfold gain?
      rw [hc b hb, hc a ha]; rfl
    · intro exact a ha
      exact gains_ok h hM hm hu ha exact
    · refine ⟨wdegOf g u != g.conn u fun v => applyMoves part ms v = applyMoves part ms u, ?_, ?_⟩
      · unfold isBorder?
        simp only
        rw [hc _ (hlt u hu)]
        simp only [Option.bind_eq_bind, Option.bind_some]
        congr 2
        unfold weightedDegree
        have c := (conn_le_wdeg (hpos u hu) part 0)
        have c2 := h.fit u hu
        have hx := hwd u hu
        have : s.wdeg u < 2 ^ (L.W - 1) := by
          have : (s.wdeg u : Int) < ((2 ^ (L.W - 1) : Nat) : Int) := by push_cast; omega
          exact_mod_cast this
        rw [Nat.mod_eq_of_lt this]
        exact toSigned_small (by omega) c2 hx
      · rw [bne_iff_ne]
        exact border_iff g (applyMoves part ms) u (applyMoves part ms u) (hpos u hu)

/-! ### A concrete case -/

/-- A path 0-2-3-1 with weights 2, 3, 4, sorted by degree. -/
def exS : Graph :=
  { n := 4, w := fun _ => 1
    adj := fun u => if u = 0 then [(2, 2)] else if u = 1 then [(3, 4)]
      else if u = 2 then [(0, 2), (3, 3)] else if u = 3 then [(2, 3), (1, 4)] else [] }

theorem exS_cases {P : Nat → Prop} (h0 : P 0) (h1 : P 1) (h2 : P 2) (h3 : P 3) : ∀ u, u < exS.n → P u := by
  intro u hu
  have : u = 0 ∨ u = 1 ∨ u = 2 ∨ u = 3 := by simp only [exS] at hu; omega
  rcases this with rfl | rfl | rfl | rfl <;> assumption

/-- Number of nodes per degree bucket. -/
def exB : Nat → Nat := fun b => if b = 1 ∨ b = 2 then 2 else 0

theorem exS_sorted : Sorted exS.n (fun u => (exS.adj u).length) exB 3 := by
  refine ⟨?_, ?_, ?_, ?_⟩
  · intro u v huv hv
    have key : ∀ v, v < 4 → ∀ u, u < 4 → u ≤ v → CsrGraph.bucketIdx ((exS.adj u).length) ≤ CsrGraph.bucketIdx ((exS.adj v).length) := by
      decide
    exact key v hv u (by simp only [exS] at hv; omega) huv
  · intro b
    show exB b = ([0, 1, 2, 3] : List Nat).countP fun u => CsrGraph.bucketIdx ((exS.adj u).length) = b
    have d : ∀ u, u < exS.n → CsrGraph.bucketIdx ((exS.adj u).length) = if u < 2 then 1 else 2 := exS_cases (by decide) (by decide) (by decide) (by decide)
    simp only [List.countP_cons, List.countP_nil, d 0 (by decide), d 1 (by decide), d 2 (by decide), d 3 (by decide), exB]
    by_cases h1 : b = 1
    · subst h1; decide
    · by_cases h2 : b = 2
      · subst h2; decide
      · have := Ne.symm h1; have := Ne.symm h2; simp [*]
  · exact exS_cases (by decide) (by decide) (by decide) (by decide)
  · exact exS_cases (by decide) (by decide) (by decide) (by decide)

/-- Nodes 2 and 3 move at the same time; their updates are interleaved and the tables of nodes 0 and 1 and the
entries of nodes 2 and 3 change. -/
def exMs : List Move := [⟨2, 0, 2⟩, ⟨3, 1, 0⟩]

def exEvs : List Step :=
  [⟨3, 0, false, 1⟩, ⟨2, 0, false, 0⟩, ⟨2, 0, true, 2⟩, ⟨3, 0, true, 0⟩, ⟨2, 1, false, 0⟩, ⟨3, 1, false, 1⟩, ⟨3, 1, true, 0⟩, ⟨2, 1, true, 2⟩]

/-- All hypotheses of `C35_sparse` hold, with tables for nodes 0 and 1 and 8-bit entries. -/
example : exS.WF ∧ exS.Symm ∧ (∀ u, u < exS.n → ∀ e ∈ exS.adj u, 0 < e.2) ∧
    Sorted exS.n (fun u => (exS.adj u).length) exB 3 ∧ (∀ u, u < exS.n → wdegOf exS u < 2 ^ (8 - 1)) ∧
    (∀ u, u < exS.n → (exS.adj u).length < 2 * 2 → wdegOf exS u < 2 ^ (8 - 2)) ∧
    (3 ≤ 2 ^ 2 ∧ ∀ j, 3 ≤ 2 ^ j → 2 ≤ j) ∧
    ValidMoves exS.n 3 (fun u => u % 2) exMs ∧ Interleaved exS exMs exEvs := by
  refine ⟨exS_cases (by decide) (by decide) (by decide) (by decide), ?_, exS_cases (by decide) (by decide) (by decide) (by decide),
    exS_sorted, exS_cases (by decide) (by decide) (by decide) (by decide), exS_cases (by decide) (by decide) (by decide) (by decide),
    ⟨by decide, ?_⟩, by decide, ?_⟩
  · intro u v c hu hv
    revert v
    revert u
    refine exS_cases ?_ ?_ ?_ ?_ <;> refine exS_cases ?_ ?_ ?_ ?_ <;> simp [exS, List.count_cons, List.count_nil]
  · intro j hj
    rcases j with _ | _ | j
    · simp at hj
    · simp at hj
    · omega
  · intro u
    by_cases h2 : u = 2
    · subst h2; decide
    · by_cases h3 : u = 3
      · subst h3; decide
      · simp [exEvs, exMs, Ne.symm h2, Ne.symm h3]

/-- The model computes on this case: connections of nodes 0 (table) and 3 (no table) to the blocks 0, 1, 2. -/
example : ((init? 8 3 2 true exB 3 (fun _ => 0) ⟨fun _ => 77, 2, fun _ => 5⟩ exS (fun u => u % 2) [2, 0, 1, 3]).bind fun r =>
    (exEvs.foldlM (step? exS r.1) r.2.cache).bind fun c =>
      ([(0, 0), (0, 1), (0, 2), (3, 0), (3, 1), (3, 2)].mapM fun q => conn? r.1 c q.1 q.2).map fun l => (r.1.thr, r.2.size, l)) =
    some (2, 10, [0, 0, 2, 0, 4, 3]) := by decide +kernel

/-- The weighted degrees must fit into the value bits: with 8-bit entries and 3 blocks, a node with one edge of weight
64 is reported to have no connection to its only adjacent block. -/
theorem C35_heavy_edge_lost :
    let g : Graph := { n := 2, w := fun _ => 1, adj := fun u => if u = 0 then [(1, 64)] else [(0, 64)] }
    g.conn 0 (fun v => v = 1) = 64 ∧
    ((init? 8 3 2 true (fun b => if b = 1 then 2 else 0) 2 (fun _ => 0) ⟨fun _ => 0, 0, fun _ => 0⟩ g (fun u => u) [0, 1]).bind fun r =>
      conn? r.1 r.2.cache 0 1) ≠ some 64 := by
  decide +kernel

/-- **C35**, the locks: for the word of one node that starts as its weighted degree `d`, and threads that execute
`lock` and `unlock` in any interleaving of their accesses, at most one thread holds the lock, the weighted degree
that others read is never changed, and when no thread holds the lock, the word is `d`. -/
theorem C35_lock (W d : Nat) (hd : d < 2 ^ (W - 1)) (sched : List Nat) :
    ∀ s, s = sched.foldl (LockSt.step W) ⟨d, fun _ => .idle⟩ →
      (∀ t t', (s.pc t).holds = true → (s.pc t').holds = true → t = t') ∧ s.x % 2 ^ (W - 1) = d ∧
      ((∀ t, (s.pc t).holds = false) → s.x = d) := by
  intro s hs
  have h : LockInv W d s := by
    rw [hs]
    apply lock_run hd
    exact ⟨Or.inl ⟨rfl, fun _ => rfl⟩, fun _ _ h => (nomatch h), fun _ _ h => (nomatch h)⟩
  rcases h.word with ⟨h1, h2⟩ | ⟨h1, t0, h2, h3⟩
  · refine ⟨fun t _ h _ => ?_, ?_, fun _ => h1⟩
    · rw [h2 t] at h; cases h
    · rw [h1]; exact Nat.mod_eq_of_lt hd
  · refine ⟨fun t t' a b => (h3 t a).trans (h3 t' b).symm, ?_, fun h => ?_⟩
    · rw [h1, Nat.add_mod_right]; exact Nat.mod_eq_of_lt hd
    · rw [h t0] at h2; cases h2

/-- Two threads compete: the second one reads the unlocked word, fails to exchange it and spins until the first one
has finished. -/
example : let s := [0, 1, 0, 1, 1, 0, 0, 1, 1].foldl (LockSt.step 8) ⟨5, fun _ => .idle⟩
    s.x = 133 ∧ (s.pc 1).holds = true ∧ (s.pc 0).holds = false := by decide

end Verif.SparseGains

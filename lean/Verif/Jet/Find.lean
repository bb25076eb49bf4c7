import Verif.Jet.Lemmas

namespace Verif.Jet
open Verif.Partitioned (Op weightOf replay)
open Verif.Gains (Move applyMoves ValidMoves)
open Verif.SparseGains (Layout Interleaved)
open Finset (range mem_range)

/-- The gain of moving `u` from its block to `b`. -/
def gainTo (g : Graph) (p : Nat → Nat) (u b : Nat) : Int := g.conn u (fun v => p v = b) - g.conn u (fun v => p v = p u)

/-- The gain cache agrees with the partition. -/
structure Exact (c : Cfg) (p : Nat → Nat) (L : Layout) (gc : SparseGains.St) : Prop where
  conn : ∀ u, u < c.g.n → ∀ b, b < c.k → SparseGains.conn? L gc.cache u b = some (c.g.conn u fun v => p v = b)
  gain : ∀ u, u < c.g.n → ∀ a b, a < c.k → b < c.k → SparseGains.gain? L gc.cache u a b =
    some (c.g.conn u (fun v => p v = b) - c.g.conn u (fun v => p v = a))
  border : ∀ u, u < c.g.n → ∃ r, SparseGains.isBorder? L gc u (p u) = some r ∧ (r = true ↔ ∃ e ∈ c.g.adj u, p e.1 ≠ p u)

/-- What the loop over the blocks computes. -/
theorem bestMove_fold (G : Nat → Int) (g? : Nat → Option Int) (fr : Nat) : ∀ (l : List Nat) (b : Int × Nat), (∀ x ∈ l, x ≠ fr → g? x = some (G x)) →
    ∃ r, l.foldlM (fun b x => if x = fr then some b else (g? x).map fun gain => if gain > b.1 then (gain, x) else b) b = some r ∧
      (r = b ∨ r.2 ∈ l ∧ r.2 ≠ fr ∧ r.1 = G r.2 ∧ b.1 < r.1) ∧ b.1 ≤ r.1 ∧ ∀ x ∈ l, x ≠ fr → G x ≤ r.1
  | [], b, _ => ⟨b, rfl, Or.inl rfl, le_refl _, fun _ h => (nomatch h)⟩
  | x :: l, b, h => by
    rw [List.foldlM_cons]
    by_cases e : x = fr
    · rw [if_pos e]
      obtain ⟨r, h1, h2, h3, h4⟩ := bestMove_fold G g? fr l b fun y hy => h y (List.mem_cons_of_mem _ hy)
      refine ⟨r, h1, h2.imp_right fun h => ⟨List.mem_cons_of_mem _ h.1, h.2⟩, h3, fun y hy hne => ?_⟩
      rcases List.mem_cons.1 hy with rfl | hy
      · exact absurd e hne
      · exact h4 y hy hne
    · rw [if_neg e, h x List.mem_cons_self e, Option.map_some]
      obtain ⟨r, h1, h2, h3, h4⟩ := bestMove_fold G g? fr l (if G x > b.1 then (G x, x) else b) fun y hy => h y (List.mem_cons_of_mem _ hy)
      refine ⟨r, h1, ?_, ?_, fun y hy hne => ?_⟩
      · by_cases hg : G x > b.1
        · rw [if_pos hg] at h2
          right
          rcases h2 with h2 | h2
          · rw [h2]; exact ⟨List.mem_cons_self, e, rfl, hg⟩
          · exact ⟨List.mem_cons_of_mem _ h2.1, h2.2.1, h2.2.2.1, lt_trans hg h2.2.2.2⟩
        · rw [if_neg hg] at h2
          exact h2.imp_right fun h => ⟨List.mem_cons_of_mem _ h.1, h.2⟩
      · by_cases hg : G x > b.1
        · rw [if_pos hg] at h3
          exact le_trans (le_of_lt hg) h3
        · rw [if_neg hg] at h3; exact h3
      · rcases List.mem_cons.1 hy with rfl | hy
        · by_cases hg : G y > b.1
          · rw [if_pos hg] at h3; exact h3
          · rw [if_neg hg] at h3; omega
        · exact h4 y hy hne

theorem bestMove_ok {c : Cfg} {s : St} (he : Exact c (blk s.part) s.L s.gc) {u : Nat} (hu : u < c.g.n) (hb : blk s.part u < c.k)
    (hk : 2 ≤ c.k) (hfit : ∀ b, b < c.k → -2 ^ (c.W - 1) < gainTo c.g (blk s.part) u b) :
    ∃ b, bestMove? c s u (blk s.part u) = some (gainTo c.g (blk s.part) u b, b) ∧ b < c.k ∧ b ≠ blk s.part u ∧
      ∀ b', b' < c.k → b' ≠ blk s.part u → gainTo c.g (blk s.part) u b' ≤ gainTo c.g (blk s.part) u b := by
  obtain ⟨r, h1, h2, h3, h4⟩ := bestMove_fold (gainTo c.g (blk s.part) u) (fun x => SparseGains.gain? s.L s.gc.cache u (blk s.part u) x)
    (blk s.part u) (List.range c.k) (-2 ^ (c.W - 1), blk s.part u)
    fun x hx _ => he.gain u hu _ _ hb (List.mem_range.1 hx)
  have hex : ∃ x, x < c.k ∧ x ≠ blk s.part u := by
    by_cases e : blk s.part u = 0
    · exact ⟨1, by omega, by omega⟩
    · exact ⟨0, by omega, Ne.symm e⟩
  obtain ⟨x, hx, hxne⟩ := hex
  have hxle := h4 x (List.mem_range.2 hx) hxne
  have hxlt := hfit x hx
  rcases h2 with h2 | ⟨h2, h5, h6, h7⟩
  · rw [h2] at hxle
    exact absurd hxle (not_le.2 hxlt)
  · refine ⟨r.2, ?_, List.mem_range.1 h2, h5, fun b' hb' hne => ?_⟩
    · rw [← h6]; exact h1
    · rw [← h6]; exact h4 b' (List.mem_range.2 hb') hne

/-- The specification of the selection: a node that is not locked and has a neighbour in another block chooses a block of
largest gain if the gain is accepted; all other nodes stay. -/
def Chooses (c : Cfg) (r : Nat) (p : Nat → Nat) (lock : Bool) (u x : Nat) : Prop :=
  x < c.k ∧
  if lock = false ∧ ∃ e ∈ c.g.adj u, p e.1 ≠ p u then
    ∃ b, b < c.k ∧ b ≠ p u ∧ (∀ b', b' < c.k → b' ≠ p u → gainTo c.g p u b' ≤ gainTo c.g p u b) ∧
      x = if c.accept r (gainTo c.g p u b) (c.g.conn u fun v => p v = p u) then b else p u
  else x = p u

theorem find_ok {c : Cfg} {r : Nat} {s : St} (he : Exact c (blk s.part) s.L s.gc) {u : Nat} (hu : u < c.g.n) (hb : blk s.part u < c.k)
    (hk : 2 ≤ c.k) (hfit : ∀ b, b < c.k → -2 ^ (c.W - 1) < gainTo c.g (blk s.part) u b) :
    ∃ x, findMove? c r s u = some x ∧ Chooses c r (blk s.part) (s.lock u) u x := by
  unfold findMove?
  simp only
  by_cases hl : s.lock u
  · rw [if_pos hl]
    refine ⟨_, rfl, hb, ?_⟩
    rw [if_neg]
    rw [hl]
    exact fun h => Bool.noConfusion h.1
  · rw [if_neg hl]
    have hl : s.lock u = false := by simpa using hl
    obtain ⟨bd, hbd, hiff⟩ := he.border u hu
    rw [hbd]
    simp only [Option.bind_eq_bind, Option.bind_some]
    cases bd with
    | false =>
      refine ⟨_, rfl, hb, ?_⟩
      rw [if_neg]
      exact fun h => Bool.noConfusion (hiff.2 h.2)
    | true =>
      obtain ⟨b, h1, h2, h3, h4⟩ := bestMove_ok he hu hb hk hfit
      rw [h1, he.conn u hu _ hb]
      refine ⟨_, rfl, ?_, ?_⟩
      · show (if _ then _ else _) < _
        split
        · exact h2
        · exact hb
      · rw [if_pos ⟨hl, hiff.1 rfl⟩]
        exact ⟨b, h2, h3, h4, rfl⟩

/-- The block in which the filter assumes `v` to be: the moves of nodes with higher gain, or the same gain and a smaller
ID, are assumed to be executed. -/
def assumed (g : Graph) (p next : Nat → Nat) (u v : Nat) : Nat :=
  if next v ≠ p v ∧ (gainTo g p v (next v) > gainTo g p u (next u) ∨
    gainTo g p v (next v) = gainTo g p u (next u) ∧ v < u) then next v else p v

theorem filter_fold (tt fr : Nat) (hne : tt ≠ fr) (a? : Nat → Option Nat) (a : Nat → Nat) : ∀ (l : List (Nat × Int)) (x : Int),
    (∀ e ∈ l, a? e.1 = some (a e.1)) →
    l.foldlM (fun (gain : Int) e => (a? e.1).map fun b => if tt = b then gain + e.2 else if fr = b then gain - e.2 else gain) x =
      some (x + (l.map fun e => if a e.1 = tt then e.2 else 0).sum - (l.map fun e => if a e.1 = fr then e.2 else 0).sum)
  | [], x, _ => by simp
  | e :: l, x, h => by
    rw [List.foldlM_cons, h e List.mem_cons_self, Option.map_some]
    simp only [Option.bind_eq_bind, Option.bind_some]
    rw [filter_fold tt fr hne a? a l _ fun e he => h e (List.mem_cons_of_mem _ he)]
    simp only [List.map_cons, List.sum_cons]
    congr 1
    by_cases h1 : tt = a e.1
    · rw [if_pos h1, if_pos h1.symm, if_neg (by rw [← h1]; exact hne)]; omega
    · rw [if_neg h1, if_neg (Ne.symm h1)]
      by_cases h2 : fr = a e.1
      · rw [if_pos h2, if_pos h2.symm]; omega
      · rw [if_neg h2, if_neg (Ne.symm h2)]; omega

/-- The specification of the filter: a move is executed iff it improves the cut when the moves with priority are executed. -/
def Filters (g : Graph) (p next : Nat → Nat) (u : Nat) (l : Bool) : Prop :=
  l = true ↔ next u ≠ p u ∧ g.conn u (fun v => assumed g p next u v = p u) < g.conn u (fun v => assumed g p next u v = next u)

theorem filter_ok {c : Cfg} (hg : c.g.WF) {s : St} (he : Exact c (blk s.part) s.L s.gc) {next : Nat → Nat}
    (hlt : ∀ u, u < c.g.n → blk s.part u < c.k) (hn : ∀ u, u < c.g.n → next u < c.k) {u : Nat} (hu : u < c.g.n) :
    ∃ l, filterMove? c s next u = some l ∧ Filters c.g (blk s.part) next u l := by
  unfold filterMove?
  simp only
  by_cases e : blk s.part u = next u
  · rw [if_pos e]
    exact ⟨_, rfl, ⟨fun h => Bool.noConfusion h, fun h => absurd e.symm h.1⟩⟩
  · rw [if_neg e, he.gain u hu _ _ (hlt u hu) (hn u hu)]
    simp only [Option.bind_eq_bind, Option.bind_some]
    rw [filter_fold (next u) (blk s.part u) (Ne.symm e) _ (assumed c.g (blk s.part) next u)]
    · refine ⟨_, rfl, ?_⟩
      unfold Filters Graph.conn
      beta_reduce
      rw [decide_eq_true_iff]
      constructor
      · intro h; exact ⟨Ne.symm e, by omega⟩
      · intro h; have := h.2; omega
    · intro x hx
      have hx' := hg u hu x hx
      unfold assumedBlock? assumed
      by_cases e' : blk s.part x.1 = next x.1
      · rw [if_neg (not_not.2 e'), if_neg]
        exact fun h => h.1 e'.symm
      · rw [if_pos e', he.gain x.1 hx' _ _ (hlt _ hx') (hn _ hx')]
        rw [Option.map_some]
        congr 1
        by_cases e2 : gainTo c.g (blk s.part) x.1 (next x.1) > gainTo c.g (blk s.part) u (next u) ∨
            gainTo c.g (blk s.part) x.1 (next x.1) = gainTo c.g (blk s.part) u (next u) ∧ x.1 < u
        · exact (if_pos e2).trans (if_pos ⟨Ne.symm e', e2⟩).symm
        · exact (if_neg e2).trans (if_neg fun h => e2 h.2).symm

end Verif.Jet

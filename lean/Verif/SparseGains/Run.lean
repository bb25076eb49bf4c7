import Verif.SparseGains.Mem
import Verif.Gains.Lemmas

namespace Verif.SparseGains
open Verif.CompactMap Verif.Math Verif.Gains

/-! # Edges into a node and the blocks of their sources -/

/-- Target and weight of edge `i` of `u`. -/
def edge (g : Graph) (q : Nat × Nat) : Nat × Int := ((g.adj q.1)[q.2]?).getD (0, 0)

/-- The edges into `v`. -/
def inc (g : Graph) (v : Nat) : List (Nat × Nat) :=
  (List.range g.n).flatMap fun u =>
    ((List.range (g.adj u).length).filter fun i => (edge g (u, i)).1 = v).map fun i => (u, i)

theorem mem_inc {g : Graph} {v : Nat} {q : Nat × Nat} :
    q ∈ inc g v ↔ q.1 < g.n ∧ q.2 < (g.adj q.1).length ∧ (edge g q).1 = v := by
  unfold inc
  simp only [List.mem_flatMap, List.mem_range, List.mem_map, List.mem_filter, decide_eq_true_eq]
  constructor
  · rintro ⟨u, hu, i, ⟨hi, he⟩, rfl⟩
    exact ⟨hu, hi, he⟩
  · rintro ⟨h1, h2, h3⟩
    exact ⟨q.1, h1, q.2, ⟨h2, h3⟩, rfl⟩

theorem inc_nodup (g : Graph) (v : Nat) : (inc g v).Nodup := by
  unfold inc
  rw [List.nodup_flatMap]
  refine ⟨?_, ?_⟩
  · intro u _
    apply List.Nodup.map
    · intro a b h; exact (Prod.mk.inj h).2
    · exact List.nodup_range.filter _
  · refine List.Pairwise.imp ?_ List.nodup_range
    intro a b hab q h1 h2
    simp only [List.mem_map] at h1 h2
    obtain ⟨i, _, rfl⟩ := h1
    obtain ⟨j, _, h⟩ := h2
    exact hab (Prod.mk.inj h).1.symm

theorem range_map_edge (g : Graph) (u : Nat) : (List.range (g.adj u).length).map (fun i => edge g (u, i)) = g.adj u := by
  apply List.ext_getElem
  · simp
  · intro i h1 h2
    simp [edge, h2]

/-- The edges into `v` are the edges out of `v`, in another order. -/
theorem inc_perm {g : Graph} (hg : g.WF) (hs : g.Symm) {v : Nat} (hv : v < g.n) :
    ((inc g v).map fun q => (q.1, (edge g q).2)).Perm (g.adj v) := by
  have h1 : ((inc g v).map fun q => (q.1, (edge g q).2)) =
      (List.range g.n).flatMap fun u => ((g.adj u).filter fun e => e.1 = v).map fun e => (u, e.2) := by
    unfold inc
    rw [List.map_flatMap]
    congr 1
    funext u
    rw [List.map_map]
    conv => rhs; rw [← range_map_edge g u]
    rw [List.filter_map, List.map_map]
    rfl
  rw [h1, List.perm_iff_count]
  intro ⟨u, c⟩
  have hcount : ∀ x, (((g.adj x).filter fun e => e.1 = v).map fun e => (x, e.2)).count (u, c) =
      if x = u then (g.adj x).count (v, c) else 0 := by
    intro x
    induction g.adj x with
    | nil => simp
    | cons e l ih =>
      rw [List.filter_cons]
      obtain ⟨y, d⟩ := e
      by_cases hy : y = v
      · rw [if_pos (by simpa using hy), List.map_cons, List.count_cons, ih, List.count_cons]
        by_cases hx : x = u
        · rw [if_pos hx, if_pos hx]
          simp [hx, hy]
        · rw [if_neg hx, if_neg hx]
          simp [hx]
      · rw [if_neg (by simpa using hy), ih, List.count_cons]
        simp [hy]
  rw [List.count_flatMap]
  have h2 : (List.map (List.count (u, c) ∘ fun u => ((g.adj u).filter fun e => e.1 = v).map fun e => (u, e.2)) (List.range g.n)) =
      (List.range g.n).map fun x => if x = u then (g.adj u).count (v, c) else 0 := by
    apply List.map_congr_left
    intro x _
    simp only [Function.comp, hcount]
    by_cases hx : x = u
    · rw [if_pos hx, if_pos hx, hx]
    · rw [if_neg hx, if_neg hx]
  rw [h2]
  have h3 : ∀ n A, ((List.range n).map fun x => if x = u then A else 0).sum = if u < n then A else 0 := by
    intro n A
    induction n with
    | zero => rfl
    | succ n ih =>
      rw [List.range_succ, List.map_append, List.sum_append, ih]
      simp only [List.map_cons, List.map_nil, List.sum_cons, List.sum_nil]
      by_cases h : u < n
      · have h1 : u < n + 1 := by omega
        have h2 : ¬ n = u := by omega
        simp [h, h1, h2]
      · by_cases h' : n = u
        · have h1 : u < n + 1 := by omega
          simp [h, h1, h']
        · have h1 : ¬ u < n + 1 := by omega
          simp [h, h1, h']
  rw [h3]
  by_cases hu : u < g.n
  · rw [if_pos hu]; exact hs u v c hu hv
  · rw [if_neg hu]
    symm
    rw [List.count_eq_zero]
    intro hm
    exact hu (hg v hv _ hm)

/-- The value of node `v` and block `b` if the edges count for the blocks `side`; while an edge is between two
blocks it counts for none. -/
def mv (g : Graph) (side : Nat × Nat → Option Nat) (v b : Nat) : Int :=
  ((inc g v).map fun q => if side q = some b then (edge g q).2 else 0).sum

theorem sum_upd_not_mem {α : Type} (F : Nat × Nat → α → Int) (side : Nat × Nat → α) (q : Nat × Nat) (x : α) :
    ∀ l : List (Nat × Nat), q ∉ l → (l.map fun r => F r (upd side q x r)).sum = (l.map fun r => F r (side r)).sum := by
  intro l h
  congr 1
  apply List.map_congr_left
  intro r hr
  have : r ≠ q := fun e => h (by rw [← e]; exact hr)
  rw [upd_ne _ _ this]

theorem sum_upd_mem {α : Type} (F : Nat × Nat → α → Int) (side : Nat × Nat → α) (q : Nat × Nat) (x : α) :
    ∀ l : List (Nat × Nat), l.Nodup → q ∈ l →
      (l.map fun r => F r (upd side q x r)).sum = (l.map fun r => F r (side r)).sum - F q (side q) + F q x
  | [], _, h => nomatch h
  | r :: l, hnd, h => by
    rw [List.map_cons, List.sum_cons, List.map_cons, List.sum_cons]
    obtain ⟨h1, h2⟩ := List.nodup_cons.1 hnd
    by_cases hr : r = q
    · subst hr
      rw [upd_same, sum_upd_not_mem F side r x l h1]; omega
    · have hq : q ∈ l := by
        rcases List.mem_cons.1 h with h | h
        · exact absurd h.symm hr
        · exact h
      rw [upd_ne _ _ hr, sum_upd_mem F side q x l h2 hq]; omega

theorem mv_upd {g : Graph} {side : Nat × Nat → Option Nat} {q : Nat × Nat} (h1 : q.1 < g.n) (h2 : q.2 < (g.adj q.1).length)
    (x : Option Nat) (v b : Nat) : mv g (upd side q x) v b = mv g side v b -
      (if (edge g q).1 = v ∧ side q = some b then (edge g q).2 else 0) + if (edge g q).1 = v ∧ x = some b then (edge g q).2 else 0 := by
  unfold mv
  by_cases hv : (edge g q).1 = v
  · rw [sum_upd_mem (fun r s => if s = some b then (edge g r).2 else 0) side q x _ (inc_nodup g v) (mem_inc.2 ⟨h1, h2, hv⟩)]
    simp only [hv, true_and]
  · rw [sum_upd_not_mem (fun r s => if s = some b then (edge g r).2 else 0) side q x _ (fun h => hv (mem_inc.1 h).2.2)]
    simp [hv]

theorem inc_pos {g : Graph} (hpos : ∀ u, u < g.n → ∀ e ∈ g.adj u, 0 < e.2) {v : Nat} {q : Nat × Nat} (h : q ∈ inc g v) : 0 < (edge g q).2 := by
  obtain ⟨h1, h2, _⟩ := mem_inc.1 h
  apply hpos q.1 h1
  unfold edge
  rw [List.getElem?_eq_getElem h2]
  exact List.getElem_mem h2

theorem mv_list (g : Graph) (side : Nat × Nat → Option Nat) (b : Nat) : ∀ l : List (Nat × Nat),
    blockSum (l.filterMap fun q => (side q).map fun b => (b, (edge g q).2)) b =
      (l.map fun q => if side q = some b then (edge g q).2 else 0).sum
  | [] => rfl
  | q :: l => by
    have ih := mv_list g side b l
    rw [List.map_cons, List.sum_cons, ← ih, List.filterMap_cons]
    cases hq : side q with
    | none => simp
    | some c =>
      simp only [Option.map_some]
      unfold blockSum
      rw [List.map_cons, List.sum_cons]
      simp

theorem total_le (g : Graph) (side : Nat × Nat → Option Nat) : ∀ l : List (Nat × Nat), (∀ q ∈ l, 0 < (edge g q).2) →
    (((l.filterMap fun q => (side q).map fun b => (b, (edge g q).2)).map Prod.snd).sum ≤ (l.map fun q => (edge g q).2).sum)
  | [], _ => by simp
  | q :: l, h => by
    have ih := total_le g side l fun x hx => h x (List.mem_cons_of_mem _ hx)
    have hq := h q List.mem_cons_self
    rw [List.map_cons, List.sum_cons, List.filterMap_cons]
    cases side q with
    | none => simp only [Option.map_none]; omega
    | some c =>
      simp only [Option.map_some]
      rw [List.map_cons, List.sum_cons]
      omega

theorem mv_tab {g : Graph} (hg : g.WF) (hs : g.Symm) (hpos : ∀ u, u < g.n → ∀ e ∈ g.adj u, 0 < e.2)
    {side : Nat × Nat → Option Nat} {k : Nat} (hside : ∀ q b, side q = some b → q.1 < g.n → b < k) {v : Nat} (hv : v < g.n)
    {room : Nat} (hr : (g.adj v).length ≤ room) {bound : Int} (hb : wdegOf g v < bound) :
    TabOk k room bound (mv g side v) := by
  have hp := inc_perm hg hs hv
  refine ⟨(inc g v).filterMap fun q => (side q).map fun b => (b, (edge g q).2), ?_, ?_, ?_, ?_⟩
  · have := hp.length_eq
    rw [List.length_map] at this
    exact Nat.le_trans (List.length_filterMap_le _ _) (by omega)
  · intro e he
    obtain ⟨q, hq, h⟩ := List.mem_filterMap.1 he
    cases hc : side q with
    | none => rw [hc] at h; cases h
    | some c =>
      rw [hc] at h
      cases h
      exact ⟨hside q c hc (mem_inc.1 hq).1, inc_pos hpos hq⟩
  · have h1 := total_le g side (inc g v) fun q hq => inc_pos hpos hq
    have h2 : ((inc g v).map fun q => (edge g q).2).sum = wdegOf g v := by
      have := (hp.map Prod.snd).sum_eq
      rw [List.map_map] at this
      exact this
    omega
  · intro b
    rw [mv_list]; rfl

theorem mv_conn {g : Graph} (hg : g.WF) (hs : g.Symm) {v : Nat} (hv : v < g.n) {side : Nat × Nat → Option Nat} {part : Nat → Nat}
    (h : ∀ q, q ∈ inc g v → side q = some (part q.1)) (b : Nat) : mv g side v b = g.conn v fun u => part u = b := by
  have := ((inc_perm hg hs hv).map fun e => if part e.1 = b then e.2 else 0).sum_eq
  rw [conn_block, ← this, List.map_map]
  unfold mv
  congr 1
  apply List.map_congr_left
  intro q hq
  rw [h q hq]
  simp

theorem conn_le_wdeg {g : Graph} {v : Nat} (hpos : ∀ e ∈ g.adj v, 0 < e.2) (part : Nat → Nat) (b : Nat) :
    0 ≤ g.conn v (fun u => part u = b) ∧ g.conn v (fun u => part u = b) ≤ wdegOf g v := by
  rw [conn_block]
  unfold wdegOf
  revert hpos
  induction g.adj v with
  | nil => intro _; simp
  | cons e l ih =>
    intro hpos
    have he := hpos e List.mem_cons_self
    have ih := ih fun x hx => hpos x (List.mem_cons_of_mem _ hx)
    rw [List.map_cons, List.sum_cons, List.map_cons, List.sum_cons]
    split <;> omega

/-! ## Interleavings -/

/-- What one edge goes through. -/
def run1 : Option Nat → List Step → Option (Option Nat)
  | s, [] => some s
  | s, e :: es => if e.add then (if s = none then run1 (some e.block) es else none)
    else (if s = some e.block then run1 none es else none)

theorem filter_moveSteps (g : Graph) (u i a b : Nat) (hi : i < (g.adj u).length) :
    (moveSteps g u a b).filter (fun e => e.i = i) = [⟨u, i, false, a⟩, ⟨u, i, true, b⟩] := by
  unfold moveSteps
  rw [List.filter_flatMap]
  have : ∀ n, (List.range n).flatMap (fun j => ([⟨u, j, false, a⟩, ⟨u, j, true, b⟩] : List Step).filter fun e => e.i = i) =
      if i < n then [⟨u, i, false, a⟩, ⟨u, i, true, b⟩] else [] := by
    intro n
    induction n with
    | zero => rfl
    | succ n ih =>
      rw [List.range_succ, List.flatMap_append, ih]
      by_cases h : i < n
      · rw [if_pos h, if_pos (by omega)]
        have : ¬ n = i := by omega
        simp [this]
      · rw [if_neg h]
        by_cases h' : n = i
        · subst h'; simp
        · rw [if_neg (by omega)]; simp [h']
  rw [this, if_pos hi]

theorem run1_moves {n k u i : Nat} : ∀ (ms : List Move) (part : Nat → Nat), ValidMoves n k part ms →
    run1 (some (part u)) ((ms.filter fun m => m.node = u).flatMap fun m => [⟨u, i, false, m.from⟩, ⟨u, i, true, m.to⟩]) =
      some (some (applyMoves part ms u))
  | [], part, _ => rfl
  | m :: ms, part, ⟨_, h2, _, h4⟩ => by
    have ih := run1_moves (u := u) (i := i) ms _ h4
    show _ = some (some (applyMoves (upd part m.node m.to) ms u))
    rw [List.filter_cons]
    by_cases hm : m.node = u
    · rw [if_pos (by simpa using hm), List.flatMap_cons]
      subst hm
      rw [upd_same] at ih
      simp only [List.cons_append, List.nil_append, run1, h2, if_true, if_false, Bool.false_eq_true]
      exact ih
    · rw [if_neg (by simpa using hm)]
      rw [upd_ne _ _ (Ne.symm hm)] at ih
      exact ih

/-- The edge and its state before and after a step. -/
def key (e : Step) : Nat × Nat := (e.u, e.i)

/-- Every step finds its edge in the right state. -/
def Steps (g : Graph) (k : Nat) : (Nat × Nat → Option Nat) → List Step → (Nat × Nat → Option Nat) → Prop
  | s, [], t => ∀ q, s q = t q
  | s, e :: es, t => e.u < g.n ∧ e.i < (g.adj e.u).length ∧ (e.add = true → s (key e) = none ∧ e.block < k) ∧
      (e.add = false → s (key e) = some e.block) ∧ Steps g k (upd s (key e) (if e.add then some e.block else none)) es t

theorem steps_of_run1 {g : Graph} {k : Nat} : ∀ (evs : List Step) (s t : Nat × Nat → Option Nat),
    (∀ e ∈ evs, e.u < g.n ∧ e.i < (g.adj e.u).length ∧ (e.add = true → e.block < k)) →
    (∀ q, run1 (s q) (evs.filter fun e => key e = q) = some (t q)) → Steps g k s evs t
  | [], s, t, _, h => fun q => Option.some.inj (h q)
  | e :: es, s, t, h1, h => by
    obtain ⟨a1, a2, a3⟩ := h1 e List.mem_cons_self
    have hk := h (key e)
    rw [List.filter_cons, if_pos (by simp)] at hk
    have hrest : ∀ q, q ≠ key e → run1 (s q) (es.filter fun e => key e = q) = some (t q) := by
      intro q hq
      have := h q
      rw [List.filter_cons, if_neg (by simpa using Ne.symm hq)] at this
      exact this
    have hnext : ∀ x, run1 x (es.filter fun e' => key e' = key e) = some (t (key e)) →
        ∀ q, run1 (upd s (key e) x q) (es.filter fun e => key e = q) = some (t q) := by
      intro x hx q
      by_cases hq : q = key e
      · rw [hq, upd_same]; exact hx
      · rw [upd_ne _ _ hq]; exact hrest q hq
    have hin := fun x hx => h1 x (List.mem_cons_of_mem _ hx)
    cases he : e.add with
    | true =>
      simp only [run1, he, if_true] at hk
      by_cases hs : s (key e) = none
      · rw [if_pos hs] at hk
        refine ⟨a1, a2, fun _ => ⟨hs, a3 he⟩, fun h => (by rw [he] at h; cases h), ?_⟩
        rw [he]
        exact steps_of_run1 es _ t hin (hnext _ hk)
      · rw [if_neg hs] at hk; cases hk
    | false =>
      simp only [run1, he, Bool.false_eq_true, if_false] at hk
      by_cases hs : s (key e) = some e.block
      · rw [if_pos hs] at hk
        refine ⟨a1, a2, fun h => by (rw [he] at h; cases h), fun _ => hs, ?_⟩
        rw [he]
        exact steps_of_run1 es _ t hin (hnext _ hk)
      · rw [if_neg hs] at hk; cases hk

theorem validMoves_mem {n k : Nat} : ∀ {ms : List Move} {part : Nat → Nat}, ValidMoves n k part ms → ∀ m ∈ ms, m.node < n ∧ m.to < k
  | [], _, _, _, h => nomatch h
  | _ :: _, _, ⟨h1, _, h3, h4⟩, x, h => by
    rcases List.mem_cons.1 h with rfl | h
    · exact ⟨h1, h3⟩
    · exact validMoves_mem h4 x h

/-- Where the edges end. -/
def finalSide (part : Nat → Nat) : Nat × Nat → Option Nat := fun q => some (part q.1)

theorem interleaved_steps {g : Graph} {k : Nat} {part : Nat → Nat} {ms : List Move} {evs : List Step}
    (hms : ValidMoves g.n k part ms) (h : Interleaved g ms evs) :
    ∃ t, Steps g k (finalSide part) evs t ∧ ∀ q, q.2 < (g.adj q.1).length → t q = some (applyMoves part ms q.1) := by
  have hev : ∀ e ∈ evs, e.u < g.n ∧ e.i < (g.adj e.u).length ∧ (e.add = true → e.block < k) := by
    intro e he
    have : e ∈ evs.filter (fun x => x.u = e.u) := List.mem_filter.2 ⟨he, by simp⟩
    rw [h e.u] at this
    obtain ⟨m, hm, hm2⟩ := List.mem_flatMap.1 this
    obtain ⟨hm1, hmu⟩ := List.mem_filter.1 hm
    obtain ⟨hn, ht⟩ := validMoves_mem hms m hm1
    have hmu : m.node = e.u := by simpa using hmu
    unfold moveSteps at hm2
    obtain ⟨i, hi, hm3⟩ := List.mem_flatMap.1 hm2
    have hi := List.mem_range.1 hi
    simp only [List.mem_cons, List.not_mem_nil, or_false] at hm3
    refine ⟨hmu ▸ hn, ?_, ?_⟩
    · rcases hm3 with h3 | h3 <;> (have := congrArg Step.i h3; simp only at this; omega)
    · intro ha
      rcases hm3 with h3 | h3
      · have := congrArg Step.add h3; rw [ha] at this; cases this
      · have := congrArg Step.block h3; simp only at this; omega
  refine ⟨fun q => if q.2 < (g.adj q.1).length then some (applyMoves part ms q.1) else some (part q.1), ?_, ?_⟩
  · apply steps_of_run1 evs _ _ hev
    intro q
    have h1 : evs.filter (fun e => key e = q) = (evs.filter fun e => e.u = q.1).filter fun e => e.i = q.2 := by
      rw [List.filter_filter]
      apply List.filter_congr
      intro e _
      simp [key, Prod.ext_iff, Bool.and_comm]
    by_cases hq : q.2 < (g.adj q.1).length
    · rw [if_pos hq, h1, h q.1, List.filter_flatMap]
      have : ∀ m : Move, List.filter (fun e => e.i = q.2) (moveSteps g q.1 m.from m.to) = [⟨q.1, q.2, false, m.from⟩, ⟨q.1, q.2, true, m.to⟩] :=
        fun m => filter_moveSteps g q.1 q.2 m.from m.to hq
      simp only [this]
      exact run1_moves ms part hms
    · rw [if_neg hq]
      have : evs.filter (fun e => key e = q) = [] := by
        rw [List.filter_eq_nil_iff]
        intro e he hk
        have hk : key e = q := by simpa using hk
        have := (hev e he).2.1
        rw [← hk] at hq
        exact hq this
      rw [this]; rfl
  · intro q hq
    exact if_pos hq

section
variable {g : Graph} {k : Nat} {L : Layout} {gc : Nat} {start p : Nat → Nat}

/-- What the theorems need to know about layout and graph. -/
structure Ctx (g : Graph) (k : Nat) (L : Layout) (gc : Nat) (start p : Nat → Nat) : Prop where
  lay : Lay g k L gc start p
  bits : L.bits ≤ L.W
  kbits : L.k ≤ 2 ^ L.bits
  wf : g.WF
  symm : g.Symm
  pos : ∀ u, u < g.n → ∀ e ∈ g.adj u, 0 < e.2
  fit : ∀ u, u < g.n → wdegOf g u < 2 ^ (L.W - 1)
  fitTab : ∀ u, u < L.thr → wdegOf g u < 2 ^ (L.W - L.bits)

theorem Ctx.allowed (h : Ctx g k L gc start p) {side : Nat × Nat → Option Nat} (hside : ∀ q b, side q = some b → q.1 < g.n → b < k) :
    Allowed L p (mv g side) := by
  intro v hv
  have hvn : v < g.n := Nat.lt_of_lt_of_le hv h.lay.thr
  refine mv_tab h.wf h.symm h.pos (by rw [h.lay.kk]; exact hside) hvn ?_ (h.fitTab v hv)
  have := h.lay.room v hv
  omega

theorem edge_le {l : List (Nat × Int)} (h : ∀ e ∈ l, 0 < e.2) : ∀ e ∈ l, e.2 ≤ (l.map Prod.snd).sum := by
  induction l with
  | nil => intro e he; nomatch he
  | cons a l ih =>
    intro e he
    rw [List.map_cons, List.sum_cons]
    have ha := h a List.mem_cons_self
    have hl : 0 ≤ (l.map Prod.snd).sum := by
      have : ∀ l : List (Nat × Int), (∀ e ∈ l, 0 < e.2) → 0 ≤ (l.map Prod.snd).sum := by
        intro l
        induction l with
        | nil => intro _; simp
        | cons a l ih =>
          intro h
          rw [List.map_cons, List.sum_cons]
          have := h a List.mem_cons_self
          have := ih fun x hx => h x (List.mem_cons_of_mem _ hx)
          omega
      exact this l fun x hx => h x (List.mem_cons_of_mem _ hx)
    rcases List.mem_cons.1 he with rfl | he
    · omega
    · have := ih (fun x hx => h x (List.mem_cons_of_mem _ hx)) e he
      omega

theorem Ctx.weight (h : Ctx g k L gc start p) {u : Nat} (hu : u < g.n) {e : Nat × Int} (he : e ∈ g.adj u) : 0 < e.2 ∧ e.2 < 2 ^ L.W := by
  refine ⟨h.pos u hu e he, ?_⟩
  have h1 := edge_le (h.pos u hu) e he
  have h2 := h.fit u hu
  unfold wdegOf at h2
  have h3 : (2 : Int) ^ (L.W - 1) ≤ 2 ^ L.W := by
    exact_mod_cast Nat.pow_le_pow_right (by decide : 0 < 2) (Nat.sub_le L.W 1)
  omega

theorem steps_ok (h : Ctx g k L gc start p) : ∀ (evs : List Step) (side t : Nat × Nat → Option Nat) (cache : Nat → Nat),
    (∀ q b, side q = some b → q.1 < g.n → b < k) → MInv g L start p cache (mv g side) → Steps g k side evs t →
    ∃ cache', evs.foldlM (step? g L) cache = some cache' ∧ MInv g L start p cache' (mv g t)
  | [], side, t, cache, _, hm, hs => by
    have : side = t := funext hs
    subst this
    exact ⟨cache, rfl, hm⟩
  | e :: es, side, t, cache, hside, hm, ⟨h1, h2, h3, h4, h5⟩ => by
    have hside' : ∀ q b, upd side (key e) (if e.add then some e.block else none) q = some b → q.1 < g.n → b < k := by
      intro q b hq hn
      by_cases hk : q = key e
      · rw [hk, upd_same] at hq
        cases ha : e.add with
        | true => rw [ha] at hq; cases hq; exact (h3 ha).2
        | false => rw [ha] at hq; cases hq
      · rw [upd_ne _ _ hk] at hq; exact hside q b hq hn
    have hget : (g.adj e.u)[e.i]? = some (edge g (key e)) := by
      unfold edge key
      rw [List.getElem?_eq_getElem h2]; rfl
    have hmem : edge g (key e) ∈ g.adj e.u := List.mem_of_getElem? hget
    obtain ⟨w0, w1⟩ := h.weight h1 hmem
    have hv := h.wf e.u h1 _ hmem
    have hup := fun v b => mv_upd (g := g) (side := side) (q := key e) h1 h2 (if e.add then some e.block else none) v b
    have hstep : ∃ cache', step? g L cache e = some cache' ∧
        MInv g L start p cache' (mv g (upd side (key e) (if e.add then some e.block else none))) := by
      unfold step?
      rw [hget]
      simp only [Option.bind_eq_bind, Option.bind_some]
      cases ha : e.add with
      | true =>
        rw [ha] at hup hside'
        obtain ⟨a1, a2⟩ := h3 ha
        simp only [if_true] at hup hside' ⊢
        refine add_ok h.lay h.bits h.kbits hm (h.allowed hside) (h.allowed hside') hv (by rw [h.lay.kk]; exact a2) w0 w1 ?_ ?_
        · rw [hup, a1]; simp
        · intro v' b' hne
          rw [hup, a1]
          have : ¬ ((edge g (key e)).1 = v' ∧ some e.block = some b') := by
            rintro ⟨r1, r2⟩
            have r2 := Option.some.inj r2
            rcases hne with hne | hne
            · exact hne r1.symm
            · exact hne r2.symm
          rw [if_neg this]; simp
      | false =>
        rw [ha] at hup hside'
        have a1 := h4 ha
        simp only [Bool.false_eq_true, if_false] at hup hside' ⊢
        have a2 := hside _ _ a1 h1
        refine sub_ok h.lay h.bits hm (h.allowed hside) (h.allowed hside') hv (by rw [h.lay.kk]; exact a2) w0 w1 ?_ ?_
        · rw [hup, a1]; simp
        · intro v' b' hne
          rw [hup, a1]
          have : ¬ ((edge g (key e)).1 = v' ∧ some e.block = some b') := by
            rintro ⟨r1, r2⟩
            have r2 := Option.some.inj r2
            rcases hne with hne | hne
            · exact hne r1.symm
            · exact hne r2.symm
          rw [if_neg this]; simp
    obtain ⟨c1, e1, e2⟩ := hstep
    obtain ⟨c2, f1, f2⟩ := steps_ok h es _ t c1 hside' e2 h5
    exact ⟨c2, by rw [List.foldlM_cons, e1]; exact f1, f2⟩

end

end Verif.SparseGains

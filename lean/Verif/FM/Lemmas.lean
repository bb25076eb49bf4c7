import Verif.FM.Model
import Verif.Gains.Lemmas
import Verif.Gains.Props

/-! # Lemmas about the FM search: gains, priority queues, the delta partition -/

namespace Verif.FM
open Finset Verif.DynMaps Verif.Maps Verif.Delta Verif.Gains

/-! ## Gains -/

theorem exact_conn {g : Graph} {p : Nat → Nat} {k : Nat} {s : Dense} (h : Exact g p k s) {u b : Nat} (hu : u < g.n)
    (hb : b < k) : s.conn u b = g.conn u fun v => p v = b := by
  unfold Dense.conn
  rw [h.kk]; exact h.conn u b hu hb

theorem exact_gains {g : Graph} {p : Nat → Nat} {k : Nat} {s : Dense} (h : Exact g p k s) {u a : Nat} (hu : u < g.n)
    (ha : a < k) (exact : Bool) : s.gains true exact u a = gainsSpec g p k exact u a := by
  unfold Dense.gains gainsSpec
  rw [h.kk]
  apply List.filterMap_congr
  intro b hb
  have hb := List.mem_range.1 hb
  by_cases hab : a = b
  · rw [if_pos hab, if_pos hab.symm]
  · rw [if_neg hab, if_neg (Ne.symm hab), exact_conn h hu hb, exact_conn h hu ha]
    rfl

theorem delta_gain {g : Graph} {p v : Nat → Nat} {k : Nat} {s : Dense} (h : Exact g p k s) {t : Table} {used : List Nat}
    (ht : LInv g k p v t used) {u a b : Nat} (hu : u < g.n) (ha : a < k) (hb : b < k) :
    deltaGain? s t u a b = some (g.conn u (fun x => v x = b) - g.conn u (fun x => v x = a)) := by
  unfold deltaGain? Dense.gain
  rw [connDelta_ok ht.good, connDelta_ok ht.good, h.kk, ht.diff u b hu hb, ht.diff u a hu ha, exact_conn h hu ha,
    exact_conn h hu hb]
  simp only [Option.bind_eq_bind, Option.bind_some]
  congr 1; omega

theorem delta_gains {g : Graph} {p v : Nat → Nat} {k : Nat} {s : Dense} (h : Exact g p k s) {t : Table} {used : List Nat}
    (ht : LInv g k p v t used) {u a : Nat} (hu : u < g.n) (ha : a < k) (exact : Bool) :
    deltaGains? exact s t u a = some (gainsSpec g v k exact u a) := by
  have hd : ∀ b, b < k → connDelta? s.k t u b = some (g.conn u (fun x => v x = b) - g.conn u (fun x => p x = b)) := by
    intro b hb
    rw [connDelta_ok ht.good, h.kk, ht.diff u b hu hb]
  have hcf : deltaFrom? exact s.k t u a =
      some (if exact then g.conn u (fun x => v x = a) - g.conn u (fun x => p x = a) else 0) := by
    cases exact
    · rfl
    · exact hd a ha
  unfold deltaGains?
  rw [hcf]
  simp only [Option.bind_eq_bind, Option.bind_some]
  rw [mapM_some _ (fun q => (q.1, q.2 + (g.conn u (fun x => v x = q.1) - g.conn u (fun x => p x = q.1)) -
    (if exact then g.conn u (fun x => v x = a) - g.conn u (fun x => p x = a) else 0)))]
  · unfold Dense.gains gainsSpec
    rw [h.kk, List.map_filterMap]
    congr 1
    apply List.filterMap_congr
    intro b hb
    have hb := List.mem_range.1 hb
    by_cases hab : a = b
    · rw [if_pos hab, if_pos hab.symm]; rfl
    · rw [if_neg hab, if_neg (Ne.symm hab), exact_conn h hu hb, exact_conn h hu ha]
      simp only [if_true, Option.map_some]
      cases exact
      · simp only [Bool.false_eq_true, if_false]; congr 2; omega
      · simp only [if_true]; congr 2; omega
  · intro q hq
    unfold Dense.gains at hq
    rw [List.mem_filterMap] at hq
    obtain ⟨b, hb, hq⟩ := hq
    rw [List.mem_range, h.kk] at hb
    by_cases hab : a = b
    · rw [if_pos hab] at hq; cases hq
    · rw [if_neg hab, if_pos rfl] at hq
      cases hq
      rw [hd b hb]; rfl

theorem mem_gainsSpec {g : Graph} {p : Nat → Nat} {k : Nat} {exact : Bool} {u a : Nat} {e : Nat × Int}
    (h : e ∈ gainsSpec g p k exact u a) : e.1 < k ∧ e.1 ≠ a ∧
      e.2 = g.conn u (fun v => p v = e.1) - if exact then g.conn u (fun v => p v = a) else 0 := by
  unfold gainsSpec at h
  rw [List.mem_filterMap] at h
  obtain ⟨b, hb, hq⟩ := h
  rw [List.mem_range] at hb
  by_cases hab : b = a
  · rw [if_pos hab] at hq; cases hq
  · rw [if_neg hab] at hq
    cases hq
    exact ⟨hb, hab, rfl⟩

theorem pickBest_cases (c : Cfg) (bw : Nat → Int) (w : Int) (start : Int × Nat × Int) : ∀ (l : List (Nat × Int))
    (r : Int × Nat × Int), pickBest c bw w r l = r ∨
      ∃ e ∈ l, (pickBest c bw w r l).1 = e.2 ∧ (pickBest c bw w r l).2.1 = e.1
  | [], r => Or.inl rfl
  | e :: l, r => by
    unfold pickBest
    rw [List.foldl_cons]
    by_cases h : c.maxW e.1 - (bw e.1 + w) < min r.2.2 0
    · rw [if_pos h]
      rcases pickBest_cases c bw w start l r with h1 | ⟨x, h1, h2⟩
      · exact Or.inl h1
      · exact Or.inr ⟨x, List.mem_cons_of_mem _ h1, h2⟩
    · rw [if_neg h]
      split
      · rcases pickBest_cases c bw w start l (e.2, e.1, c.maxW e.1 - (bw e.1 + w)) with h1 | ⟨x, h1, h2⟩
        · unfold pickBest at h1
          exact Or.inr ⟨e, List.mem_cons_self, by rw [h1], by rw [h1]⟩
        · exact Or.inr ⟨x, List.mem_cons_of_mem _ h1, h2⟩
      · rcases pickBest_cases c bw w start l r with h1 | ⟨x, h1, h2⟩
        · exact Or.inl h1
        · exact Or.inr ⟨x, List.mem_cons_of_mem _ h1, h2⟩

/-- What is known about the result of `find_best_gain` for a partition `p`. -/
structure Best (c : Cfg) (p : Nat → Nat) (u t : Nat) (gain : Int) : Prop where
  lt : t < c.k
  none : t = p u → gain = c.minGain
  gain : t ≠ p u → gain = c.g.conn u (fun x => p x = t) - c.g.conn u (fun x => p x = p u)

theorem findBest_ok {c : Cfg} {s : State} (h : Exact c.g s.sh.part c.k s.cache) (hp : ∀ u, u < c.g.n → s.sh.part u < c.k)
    {u : Nat} (hu : u < c.g.n) : Best c s.sh.part u (findBest c s u).1 (findBest c s u).2 := by
  unfold findBest
  simp only
  rw [exact_gains h hu (hp u hu)]
  generalize hr : pickBest c _ _ _ _ = r
  have hc := pickBest_cases c s.sh.bw (c.g.w u) (c.minGain, s.sh.part u, c.maxW (s.sh.part u) - s.sh.bw (s.sh.part u))
    (gainsSpec c.g s.sh.part c.k c.exact u (s.sh.part u))
    (c.minGain, s.sh.part u, c.maxW (s.sh.part u) - s.sh.bw (s.sh.part u))
  rw [hr] at hc
  by_cases hb : r.2.1 = s.sh.part u
  · rw [if_pos hb]
    exact ⟨by rw [hb]; exact hp u hu, fun _ => rfl, fun hn => absurd hb hn⟩
  · rw [if_neg hb]
    rcases hc with hc | ⟨e, he, h1, h2⟩
    · rw [hc] at hb; exact absurd rfl hb
    · obtain ⟨h3, h4, h5⟩ := mem_gainsSpec he
      split
      · rename_i hex
        refine ⟨by rw [h2]; exact h3, fun hn => absurd hn hb, fun _ => ?_⟩
        show r.1 = _
        rw [h1, h2, h5, if_pos hex]
      · refine ⟨by rw [h2]; exact h3, fun hn => absurd hn hb, fun _ => ?_⟩
        show s.cache.gain u _ r.2.1 = _
        unfold Dense.gain
        rw [h2, exact_conn h hu h3, exact_conn h hu (hp u hu)]

theorem findBestDelta_ok {c : Cfg} {s : State} (h : Exact c.g s.sh.part c.k s.cache) {v : Nat → Nat}
    (hv : ∀ u, u < c.g.n → v u < c.k) {d : Local} {used used' : List Nat} (hd : Delta.Inv c.g.n c.g.w s.sh.part v d.delta used)
    (ht : LInv c.g c.k s.sh.part v d.tab used') {u : Nat} (hu : u < c.g.n) :
    ∃ t gain, findBestDelta? c s d u = some (t, gain) ∧ Best c v u t gain := by
  unfold findBestDelta?
  rw [hd.block u]
  simp only [Option.bind_eq_bind, Option.bind_some]
  rw [delta_gains h ht hu (hv u hu)]
  simp only [Option.bind_some]
  generalize hr : pickBest c _ _ _ _ = r
  have hc := pickBest_cases c (d.delta.blockWeight s.sh.bw) (c.g.w u)
    (c.minGain, v u, c.maxW (v u) - d.delta.blockWeight s.sh.bw (v u))
    (gainsSpec c.g v c.k c.exact u (v u))
    (c.minGain, v u, c.maxW (v u) - d.delta.blockWeight s.sh.bw (v u))
  rw [hr] at hc
  unfold finalGain?
  by_cases hb : r.2.1 = v u
  · rw [if_pos hb]
    exact ⟨_, _, rfl, by rw [hb]; exact hv u hu, fun _ => rfl, fun hn => absurd hb hn⟩
  · rw [if_neg hb]
    rcases hc with hc | ⟨e, he, h1, h2⟩
    · rw [hc] at hb; exact absurd rfl hb
    · obtain ⟨h3, h4, h5⟩ := mem_gainsSpec he
      split
      · rename_i hex
        refine ⟨_, _, rfl, by rw [h2]; exact h3, fun hn => absurd hn hb, fun _ => ?_⟩
        rw [h1, h2, h5, if_pos hex]
      · rw [delta_gain h ht hu (hv u hu) (by rw [h2]; exact h3)]
        exact ⟨_, _, rfl, by rw [h2]; exact h3, fun hn => absurd hn hb, fun _ => rfl⟩

/-! ## Queues -/

theorem push_ok {pq : Nat → Nat → Option Int} {b u : Nat} (h : pq b u = none) (key : Int) :
    push? pq b u key = some (upd pq b (upd (pq b) u (some key))) := by
  unfold push?; rw [h]

theorem change_ok {pq : Nat → Nat → Option Int} {b u : Nat} {x : Int} (h : pq b u = some x) (key : Int) :
    change? pq b u key = some (upd pq b (upd (pq b) u (some key))) := by
  unfold change?; rw [h]

theorem upd2 {α : Type} (pq : Nat → Nat → α) (b u : Nat) (x : α) (b' u' : Nat) :
    upd pq b (upd (pq b) u x) b' u' = if b' = b ∧ u' = u then x else pq b' u' := by
  by_cases h1 : b' = b
  · subst h1
    rw [upd_same]
    by_cases h2 : u' = u
    · subst h2; rw [upd_same, if_pos ⟨rfl, rfl⟩]
    · rw [upd_ne _ _ h2, if_neg (by rintro ⟨_, h⟩; exact h2 h)]
  · rw [upd_ne _ _ h1, if_neg (by rintro ⟨h, _⟩; exact h1 h)]

/-! ## The delta partition -/

theorem delta_set {n : Nat} {w : Nat → Int} {part v : Nat → Nat} {d : Delta} {used : List Nat}
    (h : Delta.Inv n w part v d used) {u : Nat} (hu : u < n) (b : Nat) :
    ∃ d' used', d.setBlock? w part u b = some d' ∧ Delta.Inv n w part (upd v u b) d' used' ∧
      (d'.tab.stamp = d.tab.stamp ∨ d'.tab.stamp = 1) ∧ d'.tab.abs = upd d.tab.abs u (some (b : Int)) := by
  obtain ⟨d', used', h1, h2, h3⟩ := h.set hu b
  refine ⟨d', used', h1, h2, h3, ?_⟩
  obtain ⟨t', _, g1, _, _, g4⟩ := Flat.modify_ok h.good u fun _ => (b : Int)
  have : d'.tab = t' := by
    unfold Delta.setBlock? at h1
    rw [h.block u] at h1
    have h1 : (Flat.modify? d.tab u _ >>= _) = some d' := h1
    rw [g1] at h1
    cases h1; rfl
  rw [this, g4]

theorem delta_clear {n : Nat} {w : Nat → Int} {part v : Nat → Nat} {d : Delta} {used : List Nat}
    (h : Delta.Inv n w part v d used) (hs : d.tab.stamp + 1 < 2 ^ 64) (q : Nat → Nat) :
    Delta.Inv n w q q d.clear [] ∧ d.clear.tab.abs = (fun _ => none) ∧ d.clear.tab.stamp = d.tab.stamp + 1 := by
  obtain ⟨h1, h2, h3⟩ := Flat.clear_ok h.good hs
  refine ⟨⟨h1, ?_, ?_, ?_, ?_⟩, h2, h3⟩
  · show 1 ≤ (Flat.clear d.tab).stamp; omega
  · intro u
    show (match (Flat.clear d.tab).abs u with | some b => b.toNat | none => q u) = _
    rw [h2]
  · intro u b hb
    have hb : (Flat.clear d.tab).abs u = some b := hb
    rw [h2] at hb; cases hb
  · intro b; show 0 = _; omega

theorem tab_clear {g : Graph} {k : Nat} {part v : Nat → Nat} {t : Table} {used : List Nat}
    (h : LInv g k part v t used) (hw : t.stamp + 1 < 2 ^ 64) (q : Nat → Nat) :
    LInv g k q q (Flat.clear t) [] ∧ (Flat.clear t).stamp = t.stamp + 1 := by
  obtain ⟨h1, h2, h3⟩ := Flat.clear_ok h.good hw
  refine ⟨⟨h1, by omega, ?_⟩, h3⟩
  intro u b _ _
  rw [h2]; simp

theorem mem_forEach {n : Nat} {w : Nat → Int} {part v : Nat → Nat} {d : Delta} {used : List Nat}
    (h : Delta.Inv n w part v d used) : (d.forEach.map Prod.fst).Nodup ∧
      ∀ u b, (u, b) ∈ d.forEach ↔ d.tab.abs u = some (b : Int) := by
  have hlists := Flat.lists h.good
  constructor
  · have : d.forEach.map Prod.fst = (Flat.forEach d.tab).map Prod.fst := by
      unfold Delta.forEach; rw [List.map_map]; rfl
    rw [this]; exact hlists.1
  · intro u b
    unfold Delta.forEach
    rw [List.mem_map]
    constructor
    · rintro ⟨⟨u', c⟩, h3, h4⟩
      have h5 := (hlists.2 u' c).1 h3
      have h6 := h.nonneg u' c h5
      cases h4
      rw [h5]; congr 1; simp; omega
    · intro h3
      exact ⟨(u, b), (hlists.2 u b).2 h3, by simp⟩

/-! ## The shared state -/

/-- The shared data structures agree with the partition. -/
structure SInv (c : Cfg) (s : State) : Prop where
  lt : ∀ u, u < c.g.n → s.sh.part u < c.k
  bw : ∀ b, b < c.k → s.sh.bw b = weight c.g.n c.g.w s.sh.part b
  cache : Exact c.g s.sh.part c.k s.cache

theorem setBlock_bw {n k : Nat} {w : Nat → Int} {s : Shared} (hb : ∀ b, b < k → s.bw b = weight n w s.part b)
    (hp : ∀ u, u < n → s.part u < k) {u t : Nat} (hu : u < n) (ht : t < k) :
    ∀ b, b < k → (s.setBlock w (u, t)).bw b = weight n w (s.setBlock w (u, t)).part b := by
  intro c hc
  show upd (upd s.bw (s.part u) (s.bw (s.part u) - w u)) t _ c = weight n w (upd s.part u t) c
  rw [weight_upd w s.part hu]
  have h5 := hb c hc
  have h6 := hb (s.part u) (hp u hu)
  by_cases hcb : c = t
  · subst hcb
    rw [upd_same]
    by_cases hcv : c = s.part u
    · rw [hcv, upd_same]; simp; omega
    · rw [upd_ne _ _ hcv]; simp [Ne.symm hcv]; omega
  · rw [upd_ne _ _ hcb]
    by_cases hcv : c = s.part u
    · subst hcv; rw [upd_same]; simp [Ne.symm hcb]; omega
    · rw [upd_ne _ _ hcv]; simp [Ne.symm hcb, Ne.symm hcv]; omega

theorem sinv_move {c : Cfg} (hs : c.g.Symm) {s s' : State} (h : SInv c s) {u t : Nat} (hu : u < c.g.n) (ht : t < c.k)
    (h1 : s'.sh = s.sh.setBlock c.g.w (u, t)) (h2 : s'.cache = s.cache.move c.g ⟨u, s.sh.part u, t⟩) : SInv c s' := by
  have hp : s'.sh.part = upd s.sh.part u t := by rw [h1]; rfl
  refine ⟨?_, ?_, ?_⟩
  · rw [hp]; exact upd_lt h.lt ht
  · rw [h1]; exact setBlock_bw h.bw h.lt hu ht
  · rw [hp, h2]
    have := move_exact hs h.lt h.cache (ms := [⟨u, s.sh.part u, t⟩]) ⟨hu, rfl, ht, trivial⟩
      (ops := moveOps c.g s.cache.k ⟨u, s.sh.part u, t⟩) (by rw [h.cache.kk]; simp)
    exact this

/-- Applying a list of moves of different nodes to the shared partition. -/
theorem apply_ok {c : Cfg} (hs : c.g.Symm) : ∀ (l : List (Nat × Nat)) (s : State), SInv c s → (l.map Prod.fst).Nodup →
    (∀ e ∈ l, e.1 < c.g.n ∧ e.2 < c.k) →
    let r := l.foldl (applyOne c.g) s
    SInv c r ∧ (∀ e ∈ l, r.sh.part e.1 = e.2) ∧ (∀ u, u ∉ l.map Prod.fst → r.sh.part u = s.sh.part u) ∧
      (∀ u, r.owner u = if u ∈ l.map Prod.fst then movedGlobally else s.owner u) ∧ r.target = s.target
  | [], s, h, _, _ => ⟨h, fun e he => absurd he List.not_mem_nil, fun _ _ => rfl, by simp, rfl⟩
  | e :: l, s, h, hn, hl => by
    rw [List.map_cons, List.nodup_cons] at hn
    have he := hl e List.mem_cons_self
    have hi : SInv c (applyOne c.g s e) := sinv_move hs h he.1 he.2 rfl rfl
    obtain ⟨h1, h2, h3, h4, h5⟩ := apply_ok hs l (applyOne c.g s e) hi hn.2 fun x hx => hl x (List.mem_cons_of_mem _ hx)
    refine ⟨h1, ?_, ?_, ?_, h5⟩
    · intro x hx
      rcases List.mem_cons.1 hx with rfl | hx
      · rw [List.foldl_cons, h3 _ hn.1]
        show upd s.sh.part x.1 x.2 x.1 = _
        rw [upd_same]
      · exact h2 x hx
    · intro u hu
      rw [List.map_cons, List.mem_cons, not_or] at hu
      rw [List.foldl_cons, h3 u hu.2]
      show upd s.sh.part e.1 e.2 u = _
      rw [upd_ne _ _ hu.1]
    · intro u
      rw [List.foldl_cons, h4 u]
      show (if u ∈ l.map Prod.fst then movedGlobally else upd s.owner e.1 movedGlobally u) = _
      by_cases hu : u = e.1
      · subst hu; rw [upd_same]; simp
      · rw [upd_ne _ _ hu]
        by_cases hm : u ∈ l.map Prod.fst
        · rw [if_pos hm, if_pos (by rw [List.map_cons]; exact List.mem_cons_of_mem _ hm)]
        · rw [if_neg hm, if_neg (by rw [List.map_cons, List.mem_cons, not_or]; exact ⟨hu, hm⟩)]

end Verif.FM

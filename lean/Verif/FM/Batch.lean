import Verif.FM.Loop

/-! # Batches, iterations and the refiner -/

namespace Verif.FM
open Finset Verif.DynMaps Verif.Maps Verif.Delta Verif.Gains

/-! ## The end of a batch -/

/-- What unlocking the nodes of `l` does with the tracker. -/
structure Unlocks (id : Int) (l : List Nat) (o o' : Nat → Int) : Prop where
  same : ∀ x, x ∉ l → o' x = o x
  free : ∀ x, x ∈ l → o' x ≠ id ∧ o' x ≠ movedLocally
  glob : ∀ x, o x = movedGlobally → o' x = movedGlobally
  val : ∀ x, o' x = o x ∨ o' x = unlocked ∨ o' x = movedGlobally

theorem Unlocks.append {id : Int} (hid : 1 ≤ id) {l l' : List Nat} {o o' o'' : Nat → Int} (h : Unlocks id l o o')
    (h' : Unlocks id l' o' o'') : Unlocks id (l ++ l') o o'' := by
  refine ⟨?_, ?_, fun x hx => h'.glob x (h.glob x hx), ?_⟩
  · intro x hx
    rw [List.mem_append, not_or] at hx
    rw [h'.same x hx.2, h.same x hx.1]
  · intro x hx
    by_cases hx' : x ∈ l'
    · exact h'.free x hx'
    · rw [h'.same x hx']
      rcases List.mem_append.1 hx with h1 | h1
      · exact h.free x h1
      · exact absurd h1 hx'
  · intro x
    rcases h'.val x with h1 | h1 | h1
    · rw [h1]; exact h.val x
    · exact Or.inr (Or.inl h1)
    · exact Or.inr (Or.inr h1)

theorem unlocks_fold {id : Int} (hid : 1 ≤ id) {f : (Nat → Int) → Nat → Nat → Int}
    (hf : ∀ o u, Unlocks id [u] o (f o u)) : ∀ (l : List Nat) (o : Nat → Int), Unlocks id l o (l.foldl f o)
  | [], o => ⟨fun _ _ => rfl, fun x hx => absurd hx List.not_mem_nil, fun _ h => h, fun _ => Or.inl rfl⟩
  | u :: l, o => (hf o u).append hid (unlocks_fold hid hf l (f o u))

theorem unlocks_upd {id : Int} (hid : 1 ≤ id) (o : Nat → Int) (u : Nat) {x : Int} (hx : x = unlocked ∨ x = movedGlobally)
    (hg : o u = movedGlobally → x = movedGlobally) : Unlocks id [u] o (upd o u x) := by
  refine ⟨?_, ?_, ?_, ?_⟩
  · intro y hy
    rw [List.mem_singleton] at hy
    rw [upd_ne _ _ hy]
  · intro y hy
    rw [List.mem_singleton] at hy
    rw [hy, upd_same]
    unfold unlocked movedGlobally at hx
    unfold movedLocally
    omega
  · intro y hy
    by_cases h : y = u
    · rw [h, upd_same]; exact hg (h ▸ hy)
    · rw [upd_ne _ _ h]; exact hy
  · intro y
    by_cases h : y = u
    · rw [h, upd_same]; exact Or.inr hx
    · rw [upd_ne _ _ h]; exact Or.inl rfl

theorem unlockTouched_ok (c : Cfg) {id : Int} (hid : 1 ≤ id) (o : Nat → Int) (u : Nat) :
    Unlocks id [u] o (unlockTouched c id o u) := by
  unfold unlockTouched
  split
  · rename_i h
    split
    · exact unlocks_upd hid o u (Or.inl rfl) (by rw [h]; intro h; exact absurd h (by decide))
    · exact unlocks_upd hid o u (Or.inr rfl) fun _ => rfl
  · rename_i h1
    split
    · rename_i h
      refine unlocks_upd hid o u (Or.inl rfl) ?_
      rw [h]; intro h2; unfold movedGlobally at h2; omega
    · rename_i h2
      refine ⟨fun _ _ => rfl, ?_, fun _ h => h, fun _ => Or.inl rfl⟩
      intro x hx
      rw [List.mem_singleton] at hx
      rw [hx]; exact ⟨h2, h1⟩

theorem unlockSeed_ok (c : Cfg) {id : Int} (hid : 1 ≤ id) (o : Nat → Int) (u : Nat) :
    Unlocks id [u] o (unlockSeed c id o u) := by
  unfold unlockSeed
  split
  · exact unlocks_upd hid o u (Or.inr rfl) fun _ => rfl
  · exact unlockTouched_ok c hid o u

/-- A worker between two batches. -/
structure Idle (c : Cfg) (s : State) (w : Worker) : Prop where
  sinv : SInv c s
  d : ∃ used, Delta.Inv c.g.n c.g.w s.sh.part s.sh.part w.loc.delta used
  t : ∃ used, LInv c.g c.k s.sh.part s.sh.part w.loc.tab used
  empty : w.loc.delta.tab.abs = fun _ => none
  pq : ∀ b u, w.pq b u = none
  touched : w.touched = []
  idpos : 1 ≤ w.id
  id0 : ∀ u, u < c.g.n → s.owner u ≠ w.id

theorem Idle.start {c : Cfg} {s : State} {w : Worker} (h : Idle c s w) :
    J c s.sh.part s.owner s.sh.part s { w with seeds := [], cur := 0, best := 0 } := by
  refine { sinv := h.sinv, d := h.d, t := h.t, vlt := h.sinv.lt, idpos := h.idpos, pq := ?_, owned := ?_, ent := ?_,
           mem := ?_, vals := ?_, changed := ?_, id0 := h.id0, cutS := ?_, cutV := ?_, best0 := Int.le_refl _, balS := ?_,
           balV := ?_, moved := ?_ }
  · intro b u key hk
    have hk : w.pq b u = some key := hk
    rw [h.pq] at hk; cases hk
  · intro u hu ho
    exact absurd ho (h.id0 u hu)
  · intro u x hx
    have hx : w.loc.delta.tab.abs u = some x := hx
    rw [h.empty] at hx; cases hx
  · intro u hu
    rw [h.touched] at hu; exact absurd hu List.not_mem_nil
  · intro u hu
    rw [h.touched] at hu; exact absurd hu List.not_mem_nil
  · intro u hu; exact absurd rfl hu
  · exact (Int.sub_zero _).symm
  · exact (Int.sub_zero _).symm
  · intro b _; exact Int.le_max_left _ _
  · intro b _; exact Int.le_max_left _ _
  · intro u hu; exact absurd rfl hu

theorem finish_ok {c : Cfg} {p0 : Nat → Nat} {o0 : Nat → Int} {v : Nat → Nat} {s : State} {w : Worker}
    (h : J c p0 o0 v s w) {m : Nat} (hr : Room w (m + 1)) :
    Idle c (finish c s w).1 (finish c s w).2 ∧ (finish c s w).1.sh = s.sh ∧ (finish c s w).2.best = w.best ∧
      (finish c s w).2.id = w.id ∧ Room (finish c s w).2 m ∧
      ∀ u, (s.sh.part u ≠ p0 u → (finish c s w).1.owner u = movedGlobally) ∧
        ((finish c s w).1.owner u = o0 u ∨ (u < c.g.n ∧ o0 u = unlocked ∧ (finish c s w).1.owner u = movedGlobally)) := by
  obtain ⟨used, hd⟩ := h.d
  obtain ⟨used', ht⟩ := h.t
  unfold Room at hr
  obtain ⟨e1, e2, e3⟩ := delta_clear hd (by omega) s.sh.part
  obtain ⟨k1, k2⟩ := tab_clear ht (by omega) s.sh.part
  have hu := (unlocks_fold h.idpos (unlockSeed_ok c h.idpos) w.seeds s.owner).append h.idpos
    (unlocks_fold h.idpos (unlockTouched_ok c h.idpos) w.touched (w.seeds.foldl (unlockSeed c w.id) s.owner))
  have hid : ∀ u, u < c.g.n → (finish c s w).1.owner u ≠ w.id := by
    intro u hun
    by_cases hm : u ∈ w.seeds ++ w.touched
    · exact (hu.free u hm).1
    · have h1 : (finish c s w).1.owner u = s.owner u := hu.same u hm
      rw [h1]
      intro h2
      exact hm (h.changed u (by rw [h2]; exact Ne.symm (h.id0 u hun)))
  refine ⟨⟨⟨h.sinv.lt, h.sinv.bw, h.sinv.cache⟩, ⟨_, e1⟩, ⟨_, k1⟩, e2, fun _ _ => rfl, rfl, h.idpos, hid⟩, rfl, rfl, rfl, ?_, ?_⟩
  · unfold Room
    constructor
    · show w.loc.delta.clear.tab.stamp + m < _; omega
    · show (Flat.clear w.loc.tab).stamp + m < _; omega
  · intro u
    constructor
    · intro hp
      exact hu.glob u (h.moved u hp).1
    · by_cases hm : u ∈ w.seeds ++ w.touched
      · obtain ⟨h1, h2⟩ := h.mem u hm
        by_cases hc : s.owner u = o0 u
        · rcases hu.val u with h3 | h3 | h3
          · left; exact h3.trans hc
          · left; rw [h2]; exact h3
          · right; exact ⟨h1, h2, h3⟩
        · rcases hu.val u with h3 | h3 | h3
          · obtain ⟨f1, f2⟩ := hu.free u hm
            rcases h.vals u hm with h4 | h4 | h4
            · rw [h3] at f1; exact absurd h4 f1
            · rw [h3] at f2; exact absurd h4 f2
            · right; exact ⟨h1, h2, h3.trans h4⟩
          · left; rw [h2]; exact h3
          · right; exact ⟨h1, h2, h3⟩
      · left
        have h1 : (finish c s w).1.owner u = s.owner u := hu.same u hm
        rw [h1]
        apply Classical.byContradiction
        intro hn
        exact hm (h.changed u hn)

/-! ## Polling seed nodes -/

theorem pollNode_ok {c : Cfg} {p0 : Nat → Nat} {o0 : Nat → Int} {v : Nat → Nat} {s : State} {w : Worker}
    (h : J c p0 o0 v s w) (ht : Targets c s w) (polled : Nat) {u : Nat} (hu : u < c.g.n) :
    ∃ s' w' polled', pollNode? c (s, w, polled) u = some (s', w', polled') ∧ J c p0 o0 v s' w' ∧ Targets c s' w' ∧
      s'.sh = s.sh ∧ w'.loc = w.loc ∧ w'.touched = w.touched ∧ w'.id = w.id := by
  unfold pollNode?
  simp only
  split
  · rename_i ho
    have hb := findBest_ok (s := { s with owner := upd s.owner u w.id }) h.sinv.cache h.sinv.lt hu
    unfold insertSeed?
    simp only
    rw [push_ok (h.pq_none (by rw [ho]; exact Ne.symm h.id_ne.2.2))]
    refine ⟨_, _, _, rfl, h.lock hu ho _ _ ?_, targets_insert h ht hb.lt _, rfl, rfl, rfl, rfl⟩
    intro x
    simp only [List.mem_append, List.mem_singleton]
    constructor
    · rintro ((h | h) | h)
      · exact Or.inl (Or.inl h)
      · exact Or.inr h
      · exact Or.inl (Or.inr h)
    · rintro ((h | h) | h)
      · exact Or.inl (Or.inl h)
      · exact Or.inr h
      · exact Or.inl (Or.inr h)
  · exact ⟨s, w, polled, rfl, h, ht, rfl, rfl, rfl, rfl⟩

theorem pollNodes_ok {c : Cfg} {p0 : Nat → Nat} {o0 : Nat → Int} {v : Nat → Nat} : ∀ (l : List Nat) (s : State) (w : Worker)
    (polled : Nat), J c p0 o0 v s w → Targets c s w → (∀ u ∈ l, u < c.g.n) →
    ∃ s' w' polled', l.foldlM (pollNode? c) (s, w, polled) = some (s', w', polled') ∧ J c p0 o0 v s' w' ∧ Targets c s' w' ∧
      s'.sh = s.sh ∧ w'.loc = w.loc ∧ w'.touched = w.touched ∧ w'.id = w.id
  | [], s, w, polled, h, ht, _ => ⟨s, w, polled, rfl, h, ht, rfl, rfl, rfl, rfl⟩
  | u :: l, s, w, polled, h, ht, hl => by
    obtain ⟨s1, w1, q1, h1, h2, h3, h4, h5, h6, h7⟩ := pollNode_ok h ht polled (hl u List.mem_cons_self)
    obtain ⟨s2, w2, q2, k1, k2, k3, k4, k5, k6, k7⟩ := pollNodes_ok l s1 w1 q1 h2 h3 fun x hx => hl x (List.mem_cons_of_mem _ hx)
    exact ⟨s2, w2, q2, by rw [List.foldlM_cons, h1]; exact k1, k2, k3, k4.trans h4, k5.trans h5, k6.trans h6, k7.trans h7⟩

theorem poll_ok {c : Cfg} {p0 : Nat → Nat} {o0 : Nat → Int} {v : Nat → Nat} {border : List Nat}
    (hb : ∀ u ∈ border, u < c.g.n) : ∀ (fuel next : Nat) (s : State) (w : Worker) (polled : Nat), J c p0 o0 v s w →
    Targets c s w → border.length < fuel + next → 0 < fuel →
    ∃ next' s' w', poll? c border fuel next (s, w, polled) = some (next', s', w') ∧ J c p0 o0 v s' w' ∧ Targets c s' w' ∧
      s'.sh = s.sh ∧ w'.loc = w.loc ∧ w'.touched = w.touched ∧ w'.id = w.id ∧ next ≤ next' ∧
      (polled < c.numSeeds → next < border.length → next < next')
  | 0, next, s, w, polled, _, _, hf, h0 => absurd h0 (by omega)
  | fuel + 1, next, s, w, polled, h, ht, hf, _ => by
    unfold poll?
    simp only
    split
    · rename_i hc
      obtain ⟨s1, w1, q1, h1, h2, h3, h4, h5, h6, h7⟩ := pollNodes_ok ((border.drop next).take (c.numSeeds - polled)) s w polled
        h ht fun u hu => hb u (List.mem_of_mem_drop (List.mem_of_mem_take hu))
      obtain ⟨n2, s2, w2, k1, k2, k3, k4, k5, k6, k7, k8, _⟩ := poll_ok hb fuel (next + (c.numSeeds - polled)) s1 w1 q1 h2 h3
        (by omega) (by omega)
      refine ⟨n2, s2, w2, by rw [h1]; exact k1, k2, k3, k4.trans h4, k5.trans h5, k6.trans h6, k7.trans h7, by omega, fun _ _ => by omega⟩
    · rename_i hc
      exact ⟨next, s, w, rfl, h, ht, rfl, rfl, rfl, rfl, Nat.le_refl _, fun h1 h2 => absurd ⟨h1, h2⟩ hc⟩

/-- What a batch does. -/
structure BatchSpec (c : Cfg) (s s' : State) (w' : Worker) (gain : Int) : Prop where
  idle : Idle c s' w'
  nonneg : 0 ≤ gain
  cut : c.g.cut s'.sh.part = c.g.cut s.sh.part - gain
  bal : ∀ b, b < c.k → weight c.g.n c.g.w s'.sh.part b ≤ max (weight c.g.n c.g.w s.sh.part b) (c.maxW b)
  moved : ∀ u, s'.sh.part u ≠ s.sh.part u → s.owner u = unlocked ∧ s'.owner u = movedGlobally
  owner : ∀ u, s'.owner u = s.owner u ∨ (s.owner u = unlocked ∧ s'.owner u = movedGlobally)

theorem batch_ok {c : Cfg} (hc : Ok c) (strat : Strategy) (steps : Nat) {border : List Nat} (hb : ∀ u ∈ border, u < c.g.n)
    {next : Nat} {s : State} {w : Worker} (h : Idle c s w) {m : Nat} (hr : Room w (steps + (m + 1))) :
    ∃ next' s' w' gain, runBatch? c strat steps border next s w = some (next', s', w', gain) ∧
      BatchSpec c s s' w' gain ∧ Room w' m ∧ next ≤ next' ∧
      (0 < c.numSeeds → next < border.length → next < next') := by
  have ht0 : Targets c s { w with seeds := [], cur := 0, best := 0 } := by
    intro b u key hk
    have hk : w.pq b u = some key := hk
    rw [h.pq] at hk; cases hk
  obtain ⟨next', s1, w1, h1, h2, h3, h4, h5, h6, h7, h8, h9⟩ := poll_ok hb (border.length + 1) next s _ 0 h.start ht0 (by omega) (by omega)
  have hr1 : Room w1 (steps + (m + 1)) := by
    unfold Room at hr ⊢
    rw [h5]; exact hr
  obtain ⟨v, s2, w2, k1, k2, k3, k4⟩ := search_ok hc strat steps _ s1 w1 (m + 1) h2 h3 hr1
  obtain ⟨f1, f2, f3, f4, f5, f6⟩ := finish_ok k2 k4
  unfold runBatch?
  simp only [h1, Option.bind_eq_bind, Option.bind_some, k1]
  refine ⟨next', _, _, _, rfl, ⟨f1, ?_, ?_, ?_, ?_, ?_⟩, f5, h8, h9⟩
  · rw [f3]; exact k2.best0
  · rw [f2, f3]; exact k2.cutS
  · rw [f2]; exact k2.balS
  · intro u hu
    rw [f2] at hu
    exact ⟨(k2.mem u (k2.moved u hu).2).2, (f6 u).1 hu⟩
  · intro u
    rcases (f6 u).2 with h | ⟨_, h⟩
    · exact Or.inl h
    · exact Or.inr h

/-! ## Iterations -/

/-- What a sequence of batches does. -/
structure RoundSpec (c : Cfg) (p p' : Nat → Nat) (gain : Int) : Prop where
  nonneg : 0 ≤ gain
  cut : c.g.cut p' = c.g.cut p - gain
  bal : ∀ b, b < c.k → weight c.g.n c.g.w p' b ≤ max (weight c.g.n c.g.w p b) (c.maxW b)

theorem RoundSpec.refl (c : Cfg) (p : Nat → Nat) : RoundSpec c p p 0 :=
  ⟨Int.le_refl _, (Int.sub_zero _).symm, fun _ _ => Int.le_max_left _ _⟩

theorem RoundSpec.trans {c : Cfg} {p p' p'' : Nat → Nat} {a b : Int} (h : RoundSpec c p p' a) (h' : RoundSpec c p' p'' b) :
    RoundSpec c p p'' (a + b) := by
  refine ⟨by have := h.nonneg; have := h'.nonneg; omega, ?_, ?_⟩
  · rw [h'.cut, h.cut]; omega
  · intro b hb
    have h1 := h.bal b hb
    have h2 := h'.bal b hb
    omega

theorem batches_ok {c : Cfg} (hc : Ok c) (h0 : 0 < c.numSeeds) (strat : Nat → Strategy) (steps : Nat) {border : List Nat}
    (hb : ∀ u ∈ border, u < c.g.n) : ∀ (fuel next : Nat) (s : State) (w : Worker) (total : Int) (m : Nat), Idle c s w →
    Room w (fuel * (steps + 1) + m) → border.length ≤ fuel + next →
    ∃ s' w' gain, batches? c strat steps border fuel next s w total = some (s', w', total + gain) ∧ Idle c s' w' ∧
      RoundSpec c s.sh.part s'.sh.part gain ∧ Room w' m
  | 0, next, s, w, total, m, h, hr, hf => by
    refine ⟨s, w, 0, ?_, h, RoundSpec.refl c _, by unfold Room at hr ⊢; omega⟩
    unfold batches?
    rw [if_neg (by omega), Int.add_zero]
  | fuel + 1, next, s, w, total, m, h, hr, hf => by
    rw [Nat.add_mul, Nat.one_mul] at hr
    generalize hx : fuel * (steps + 1) = x at hr
    unfold batches?
    split
    · rename_i hn
      obtain ⟨n1, s1, w1, g1, h1, h2, h3, h4, h5⟩ := batch_ok hc (strat fuel) steps hb (next := next) h (m := x + m)
        (by unfold Room at hr ⊢; omega)
      obtain ⟨s2, w2, g2, k1, k2, k3, k4⟩ := batches_ok hc h0 strat steps hb fuel n1 s1 w1 (total + g1) m h2.idle
        (by rw [hx]; exact h3) (by have := h5 h0 hn; omega)
      refine ⟨s2, w2, g1 + g2, ?_, k2, ?_, k4⟩
      · simp only [h1, Option.bind_eq_bind, Option.bind_some, k1]
        congr 3; omega
      · exact RoundSpec.trans ⟨h2.nonneg, h2.cut, h2.bal⟩ k3
    · refine ⟨s, w, 0, by rw [Int.add_zero], h, RoundSpec.refl c _, by unfold Room at hr ⊢; omega⟩

theorem owner_reset : ∀ (l : List Nat) (o : Nat → Int) (u : Nat), u ∈ l ∨ o u = unlocked →
    l.foldl (fun o u => upd o u unlocked) o u = unlocked
  | [], o, u, h => by
    rcases h with h | h
    · exact absurd h List.not_mem_nil
    · exact h
  | x :: l, o, u, h => by
    refine owner_reset l (upd o x unlocked) u ?_
    by_cases hu : u = x
    · right; rw [hu, upd_same]
    · rw [upd_ne _ _ hu]
      rcases h with h | h
      · rcases List.mem_cons.1 h with h | h
        · exact absurd h hu
        · exact Or.inl h
      · exact Or.inr h

/-- The nodes are visited in some order, and the border nodes are shuffled. -/
def Iteration.ok (n : Nat) (it : Iteration) : Prop :=
  it.order.Perm (List.range n) ∧ ∀ l, (it.shuffle l).Perm l

theorem iteration_ok {c : Cfg} (hc : Ok c) (h0 : 0 < c.numSeeds) (steps : Nat) {it : Iteration} (hi : it.ok c.g.n)
    {s : State} {w : Worker} {m : Nat} (h : Idle c s w) (hr : Room w (c.g.n * (steps + 1) + m)) :
    ∃ s' w' gain, iteration? c steps it s w = some (s', w', gain) ∧ Idle c s' w' ∧
      RoundSpec c s.sh.part s'.sh.part gain ∧ Room w' m := by
  have hmem : ∀ u, u ∈ it.order ↔ u < c.g.n := fun u => by rw [hi.1.mem_iff, List.mem_range]
  have hbord : ∀ u ∈ it.shuffle (initBorder s it.order).2, u < c.g.n := by
    intro u hu
    rw [(hi.2 _).mem_iff] at hu
    exact (hmem u).1 (List.mem_filter.1 hu).1
  have hlen : (it.shuffle (initBorder s it.order).2).length ≤ c.g.n := by
    rw [(hi.2 _).length_eq]
    calc (initBorder s it.order).2.length ≤ it.order.length := List.length_filter_le _ _
      _ = c.g.n := by rw [hi.1.length_eq, List.length_range]
  have hidle : Idle c (initBorder s it.order).1 w := by
    refine ⟨⟨h.sinv.lt, h.sinv.bw, h.sinv.cache⟩, h.d, h.t, h.empty, h.pq, h.touched, h.idpos, ?_⟩
    intro u hu
    have : (initBorder s it.order).1.owner u = unlocked := owner_reset it.order s.owner u (Or.inl ((hmem u).2 hu))
    rw [this]
    have := h.idpos
    unfold unlocked
    omega
  unfold iteration?
  simp only
  have hm : (it.shuffle (initBorder s it.order).2).length * (steps + 1) ≤ c.g.n * (steps + 1) := Nat.mul_le_mul_right _ hlen
  obtain ⟨s', w', gain, h1, h2, h3, h4⟩ := batches_ok hc h0 it.strat steps hbord
    (it.shuffle (initBorder s it.order).2).length 0 (initBorder s it.order).1 w 0 m hidle
    (by unfold Room at hr ⊢; omega) (by omega)
  exact ⟨s', w', gain, by rw [h1, Int.zero_add], h2, h3, h4⟩

theorem iterations_ok {c : Cfg} (hc : Ok c) (h0 : 0 < c.numSeeds) (steps : Nat) : ∀ (its : List Iteration) (s : State)
    (w : Worker) (total : Int), (∀ it ∈ its, it.ok c.g.n) → Idle c s w → Room w (its.length * (c.g.n * (steps + 1))) →
    ∃ s' w' gain, iterations? c steps its s w total = some (s', w', total + gain) ∧ Idle c s' w' ∧
      RoundSpec c s.sh.part s'.sh.part gain
  | [], s, w, total, _, h, _ => ⟨s, w, 0, by unfold iterations?; rw [Int.add_zero], h, RoundSpec.refl c _⟩
  | it :: its, s, w, total, hi, h, hr => by
    rw [List.length_cons, Nat.add_mul, Nat.one_mul, Nat.add_comm] at hr
    obtain ⟨s1, w1, g1, h1, h2, h3, h4⟩ := iteration_ok hc h0 steps (hi it List.mem_cons_self) h hr
    unfold iterations?
    simp only [h1, Option.bind_eq_bind, Option.bind_some]
    cases it.stop with
    | true => exact ⟨s1, w1, g1, rfl, h2, h3⟩
    | false =>
      obtain ⟨s2, w2, g2, k1, k2, k3⟩ := iterations_ok hc h0 steps its s1 w1 (total + g1)
        (fun x hx => hi x (List.mem_cons_of_mem _ hx)) h2 h4
      refine ⟨s2, w2, g1 + g2, ?_, k2, h3.trans k3⟩
      simp only [Bool.false_eq_true, if_false, k1]
      congr 3; omega

end Verif.FM

import Verif.Jet.Model
import Verif.SparseGains.Props
import Verif.Balancer.Props
import Verif.Metrics.Props

namespace Verif.Jet
open Verif.Partitioned (Op weightOf replay)
open Verif.Gains (Move applyMoves ValidMoves)
open Verif.SparseGains (Layout Interleaved)
open Finset (range mem_range)

theorem cut_congr {g : Graph} {p q : Nat → Nat} (h : ∀ u, u < g.n → p u = q u) : g.cut p = g.cut q := by
  unfold Graph.cut
  refine Finset.sum_congr rfl fun u hu => Finset.sum_congr rfl fun v hv => ?_
  have hu := mem_range.1 hu
  have hv := mem_range.1 hv
  rw [h u hu, h v (by omega)]

theorem weightOf_congr {n : Nat} {w : Nat → Int} {p q : Nat → Option Nat} (h : ∀ u, u < n → p u = q u) (b : Nat) :
    weightOf n w p b = weightOf n w q b := by
  unfold weightOf
  refine Finset.sum_congr rfl fun u hu => ?_
  rw [h u (mem_range.1 hu)]

theorem conn_congr' {g : Graph} (hg : g.WF) {p q : Nat → Nat} (h : ∀ u, u < g.n → p u = q u) {u : Nat} (hu : u < g.n) (b : Nat) :
    (g.conn u fun v => p v = b) = g.conn u fun v => q v = b :=
  Gains.conn_congr g u (fun e he => h _ (hg u hu e he)) b

/-! ## Moves -/

theorem validMoves_append {n k : Nat} : ∀ (ms ms' : List Move) (p : Nat → Nat),
    ValidMoves n k p (ms ++ ms') ↔ ValidMoves n k p ms ∧ ValidMoves n k (applyMoves p ms) ms'
  | [], ms', p => by simp [ValidMoves, applyMoves]
  | m :: ms, ms', p => by
    rw [List.cons_append]
    simp only [ValidMoves]
    rw [validMoves_append ms ms']
    simp only [applyMoves, List.foldl_cons]
    tauto

theorem applyMoves_append (p : Nat → Nat) (ms ms' : List Move) : applyMoves p (ms ++ ms') = applyMoves (applyMoves p ms) ms' := by
  unfold applyMoves
  rw [List.foldl_append]

/-- Only the blocks of existing nodes matter. -/
theorem validMoves_congr {n k : Nat} : ∀ (ms : List Move) (p q : Nat → Nat), (∀ u, u < n → p u = q u) → ValidMoves n k p ms →
    ValidMoves n k q ms ∧ ∀ u, u < n → applyMoves p ms u = applyMoves q ms u
  | [], p, q, h, _ => ⟨trivial, h⟩
  | m :: ms, p, q, h, ⟨h1, h2, h3, h4⟩ => by
    have := validMoves_congr ms (upd p m.node m.to) (upd q m.node m.to) (fun u hu => by
      by_cases e : u = m.node
      · rw [e, upd_same, upd_same]
      · rw [upd_ne _ _ e, upd_ne _ _ e]; exact h u hu) h4
    exact ⟨⟨h1, h2.trans (h _ h1), h3, this.1⟩, this.2⟩

theorem interleaved_append {g : Graph} {ms ms' : List Move} {evs evs' : List SparseGains.Step} (h : Interleaved g ms evs)
    (h' : Interleaved g ms' evs') : Interleaved g (ms ++ ms') (evs ++ evs') := by
  intro u
  rw [List.filter_append, List.filter_append, List.flatMap_append, h u, h' u]

theorem interleaved_nil (g : Graph) : Interleaved g [] [] := fun _ => rfl

/-- Moving distinct nodes. -/
theorem valid_distinct {n k : Nat} {f t : Nat → Nat} : ∀ (us : List Nat) (p : Nat → Nat), us.Nodup → (∀ u ∈ us, u < n ∧ t u < k ∧ f u = p u) →
    ValidMoves n k p (us.map fun u => ⟨u, f u, t u⟩) ∧
      ∀ v, applyMoves p (us.map fun u => ⟨u, f u, t u⟩) v = if v ∈ us then t v else p v
  | [], p, _, _ => ⟨trivial, fun v => by simp [applyMoves]⟩
  | u :: us, p, hn, h => by
    rw [List.nodup_cons] at hn
    have hu := h u List.mem_cons_self
    have ih := valid_distinct (f := f) (t := t) us (upd p u (t u)) hn.2 fun v hv => by
      have := h v (List.mem_cons_of_mem _ hv)
      refine ⟨this.1, this.2.1, ?_⟩
      rw [upd_ne _ _ (by rintro rfl; exact hn.1 hv)]
      exact this.2.2
    refine ⟨⟨hu.1, hu.2.2, hu.2.1, ih.1⟩, fun v => ?_⟩
    rw [List.map_cons]
    show applyMoves (upd p u (t u)) _ v = _
    rw [ih.2 v]
    by_cases e : v = u
    · subst e
      rw [if_neg hn.1, upd_same, if_pos List.mem_cons_self]
    · rw [upd_ne _ _ e]
      by_cases hv : v ∈ us
      · rw [if_pos hv, if_pos (List.mem_cons_of_mem _ hv)]
      · rw [if_neg hv, if_neg (by rw [List.mem_cons]; tauto)]

/-! ## Parallel calls of `set_block` -/

/-- A call of `set_block` always succeeds. -/
theorem next_hist (w : Nat → Int) (s : Partitioned.State) (t : Nat) :
    (s.next w t).hist = s.hist ∨
      (∃ u d, (s.next w t).hist = s.hist ++ [(.setBlock u d, true)]) ∨
      (∃ u a d m, s.pc t = .moveStore u a d m ∧ (s.next w t).hist = s.hist ++ [(.move u a d m, true)]
        ∧ (s.next w t).part = upd s.part u (some d)) ∨
      (∃ u a d m, (s.next w t).hist = s.hist ++ [(.move u a d m, false)]) := by
  unfold Partitioned.State.next
  split
  · exact Or.inl rfl
  · exact Or.inl rfl
  · split
    · split
      · exact Or.inl rfl
      · exact Or.inl rfl
    · exact Or.inr (Or.inr (Or.inr ⟨_, _, _, _, rfl⟩))
  · exact Or.inl rfl
  · rename_i heq
    exact Or.inr (Or.inr (Or.inl ⟨_, _, _, _, heq, rfl, rfl⟩))
  · split <;> exact Or.inl rfl
  · exact Or.inl rfl
  · exact Or.inl rfl
  · exact Or.inr (Or.inl ⟨_, _, rfl⟩)

theorem set_true {n k T : Nat} {w : Nat → Int} {A : Op → Prop} {s s' : Partitioned.State} (h0 : s.hist = [])
    (hr : Partitioned.Reach n k T w A s s') : ∀ u d x, (Op.setBlock u d, x) ∈ s'.hist → x = true := by
  induction hr with
  | refl => intro u d x h; rw [h0] at h; cases h
  | step _ hs ih =>
    cases hs with
    | call => exact ih
    | next t =>
      rename_i s1 _ _ _
      intro u d x h
      rcases next_hist w s1 t with e | ⟨_, _, e⟩ | ⟨_, _, _, _, _, e, _⟩ | ⟨_, _, _, _, e⟩ <;> rw [e] at h
      · exact ih u d x h
      all_goals
        rcases List.mem_append.1 h with h | h
        · exact ih u d x h
        · rw [List.mem_singleton] at h
          cases h
          try rfl

theorem replay_sets : ∀ (l : List (Op × Bool)) (us : List Nat) (f : Nat → Nat) (p : Nat → Option Nat), us.Nodup →
    l = us.map (fun u => (Op.setBlock u (f u), true)) → ∀ v, replay p l v = if v ∈ us then some (f v) else p v
  | _, [], f, p, _, h => fun v => by rw [h]; simp [replay]
  | _, u :: us, f, p, hn, h => fun v => by
    rw [List.nodup_cons] at hn
    rw [h, List.map_cons]
    show replay (upd p u (some (f u))) _ v = _
    rw [replay_sets _ us f _ hn.2 rfl v]
    by_cases e : v = u
    · subst e
      rw [if_neg hn.1, upd_same, if_pos List.mem_cons_self]
    · rw [upd_ne _ _ e]
      by_cases hv : v ∈ us
      · rw [if_pos hv, if_pos (List.mem_cons_of_mem _ hv)]
      · rw [if_neg hv, if_neg (by rw [List.mem_cons]; tauto)]

/-- A valid partition with its block weights. -/
structure Valid (c : Cfg) (part : Nat → Option Nat) (bw : Nat → Int) : Prop where
  assigned : ∀ u, u < c.g.n → ∃ b, part u = some b ∧ b < c.k
  weights : ∀ b, bw b = weightOf c.g.n c.g.w part b

theorem Valid.init {c : Cfg} {part : Nat → Option Nat} {bw : Nat → Int} (h : Valid c part bw) (T : Nat) :
    Partitioned.Init c.g.n c.k T c.g.w (quiet part bw) :=
  ⟨fun _ _ => rfl, rfl, fun u b hu hp => by
    obtain ⟨b', e, hb⟩ := h.assigned u hu
    have hp : part u = some b := hp
    rw [e] at hp; cases hp; exact hb, h.weights⟩

theorem Valid.blk_lt {c : Cfg} {part : Nat → Option Nat} {bw : Nat → Int} (h : Valid c part bw) {u : Nat} (hu : u < c.g.n) : blk part u < c.k := by
  obtain ⟨b, e, hb⟩ := h.assigned u hu
  unfold blk
  rw [e]
  exact hb

theorem Valid.some {c : Cfg} {part : Nat → Option Nat} {bw : Nat → Int} (h : Valid c part bw) {u : Nat} (hu : u < c.g.n) : part u = some (blk part u) := by
  obtain ⟨b, e, hb⟩ := h.assigned u hu
  unfold blk
  rw [e]
  rfl

theorem exec_sets {c : Cfg} {part : Nat → Option Nat} {bw : Nat → Int} (hv : Valid c part bw) {us : List Nat} (hn : us.Nodup) {f : Nat → Nat}
    (hf : ∀ u ∈ us, u < c.g.n → f u < c.k) {p : Partitioned.State} (h : Exec c (setOps us f) (quiet part bw) p) :
    Valid c p.part p.bw ∧ ∀ u, p.part u = if u ∈ us then some (f u) else part u := by
  obtain ⟨hr, hidle, hperm⟩ := h
  obtain ⟨h1, h2, h3⟩ := Partitioned.C17_block_weights _ _ _ _ _ _ _ (hv.init c.T) hr hidle
  have htrue := set_true rfl hr
  obtain ⟨us', hus, hmap⟩ : ∃ us' : List Nat, us.Perm us' ∧ p.hist = us'.map fun u => (Op.setBlock u (f u), true) := by
    have : ∀ (l : List (Op × Bool)) (us : List Nat), (l.map Prod.fst).Perm (setOps us f) → (∀ u d x, (Op.setBlock u d, x) ∈ l → x = true) →
        ∃ us' : List Nat, us.Perm us' ∧ l = us'.map fun u => (Op.setBlock u (f u), true) := by
      intro l
      induction l with
      | nil =>
        intro us h _
        have : us = [] := by
          have := h.length_eq
          unfold setOps at this
          rw [List.map_nil, List.length_nil, List.length_map] at this
          exact List.length_eq_zero_iff.1 this.symm
        exact ⟨[], by rw [this], rfl⟩
      | cons a l ih =>
        intro us h ht
        have hmem : a.1 ∈ setOps us f := h.subset (by simp)
        obtain ⟨u, hu, he⟩ := List.mem_map.1 hmem
        have hp := List.perm_cons_erase hu
        have h' : (l.map Prod.fst).Perm (setOps (us.erase u) f) := by
          have h1 : (setOps us f).Perm (.setBlock u (f u) :: setOps (us.erase u) f) := hp.map _
          have h2 := h.trans h1
          rw [List.map_cons, ← he] at h2
          exact h2.cons_inv
        obtain ⟨us', q1, q2⟩ := ih _ h' fun u d x hx => ht u d x (List.mem_cons_of_mem _ hx)
        refine ⟨u :: us', hp.trans (q1.cons _), ?_⟩
        rw [List.map_cons, ← q2]
        obtain ⟨a1, a2⟩ := a
        have he : Op.setBlock u (f u) = a1 := he
        subst he
        rw [ht u (f u) a2 List.mem_cons_self]
    exact this _ _ hperm htrue
  have hpart : ∀ u, p.part u = if u ∈ us then some (f u) else part u := by
    intro u
    rw [h2, replay_sets _ us' f _ (hus.nodup_iff.1 hn) hmap u]
    simp only [hus.mem_iff]
    rfl
  refine ⟨⟨fun u hu => ?_, h1⟩, hpart⟩
  rw [hpart u]
  by_cases e : u ∈ us
  · rw [if_pos e]; exact ⟨_, rfl, hf u e hu⟩
  · rw [if_neg e]; exact hv.assigned u hu

/-! ## The balancer -/

/-- Without calls of `set_block`, the successful moves lead from the first to the last partition. -/
theorem moves_valid {n k T : Nat} {w : Nat → Int} {A : Op → Prop} (hA : ∀ u d, ¬ A (.setBlock u d)) {s s' : Partitioned.State}
    (h0 : Partitioned.Init n k T w s) (hass : ∀ u, u < n → ∃ b, s.part u = some b) (hr : Partitioned.Reach n k T w A s s') :
    ValidMoves n k (blk s.part) (movesOf s'.hist) ∧ (∀ u, u < n → s'.part u = some (applyMoves (blk s.part) (movesOf s'.hist) u)) ∧
      ∀ t u d, t < T → s'.pc t ≠ .setLoad u d ∧ ∀ x, s'.pc t ≠ .setInc u x d ∧ s'.pc t ≠ .setStore u x d ∧ ∀ y, s'.pc t ≠ .setDec u y d := by
  induction hr with
  | refl =>
    rw [h0.hist]
    refine ⟨trivial, fun u hu => ?_, fun t u d ht => ?_⟩
    · obtain ⟨b, e⟩ := hass u hu
      show s.part u = some ((s.part u).getD 0)
      rw [e]
      rfl
    · rw [h0.idle t ht]
      exact ⟨(nomatch ·), fun x => ⟨(nomatch ·), (nomatch ·), fun y => (nomatch ·)⟩⟩
  | step hr hs ih =>
    obtain ⟨i1, i2, i3⟩ := ih
    cases hs with
    | call t op ht hidle hAop hok hfree =>
      refine ⟨i1, i2, fun t' u d ht' => ?_⟩
      show upd _ t _ t' ≠ _ ∧ ∀ x, upd _ t _ t' ≠ _ ∧ upd _ t _ t' ≠ _ ∧ ∀ y, upd _ t _ t' ≠ _
      by_cases e : t' = t
      · subst e
        rw [upd_same]
        cases op with
        | move => exact ⟨(nomatch ·), fun x => ⟨(nomatch ·), (nomatch ·), fun y => (nomatch ·)⟩⟩
        | setBlock u d => exact absurd hAop (hA u d)
      · rw [upd_ne _ _ e]; exact i3 t' u d ht'
    | next t ht hbusy =>
      rename_i s1
      have hinv := h0.inv.reach hr
      have hval := hinv.valid t ht
      have frame : ∀ x, (∀ u d, x ≠ .setLoad u d ∧ ∀ y, x ≠ .setInc u y d ∧ x ≠ .setStore u y d ∧ ∀ z, x ≠ .setDec u z d) →
          ∀ t' u d, t' < T → upd s1.pc t x t' ≠ .setLoad u d ∧ ∀ y, upd s1.pc t x t' ≠ .setInc u y d ∧ upd s1.pc t x t' ≠ .setStore u y d ∧
            ∀ z, upd s1.pc t x t' ≠ .setDec u z d := by
        intro x hx t' u d ht'
        by_cases e : t' = t
        · subst e; rw [upd_same]; exact hx u d
        · rw [upd_ne _ _ e]; exact i3 t' u d ht'
      cases hpc : s1.pc t with
      | idle => exact absurd hpc hbusy
      | moveLoad u a d m =>
        have : s1.next w t = { s1 with pc := upd s1.pc t (.moveCas u a d m (s1.bw d)) } := by
          unfold Partitioned.State.next; rw [hpc]
        rw [this]
        exact ⟨i1, i2, frame _ fun u d => ⟨(nomatch ·), fun x => ⟨(nomatch ·), (nomatch ·), fun y => (nomatch ·)⟩⟩⟩
      | moveCas u a d m e =>
        have h3 : s1.next w t = { s1 with bw := upd s1.bw d (e + w u), pc := upd s1.pc t (.moveDec u a d m) } ∨
            s1.next w t = { s1 with pc := upd s1.pc t (.moveCas u a d m (s1.bw d)) } ∨
            s1.next w t = { s1 with pc := upd s1.pc t .idle, hist := s1.hist ++ [(.move u a d m, false)] } := by
          unfold Partitioned.State.next
          rw [hpc]
          simp only
          split
          · split
            · exact Or.inl rfl
            · exact Or.inr (Or.inl rfl)
          · exact Or.inr (Or.inr rfl)
        rcases h3 with e | e | e <;> rw [e]
        · exact ⟨i1, i2, frame _ fun u d => ⟨(nomatch ·), fun x => ⟨(nomatch ·), (nomatch ·), fun y => (nomatch ·)⟩⟩⟩
        · exact ⟨i1, i2, frame _ fun u d => ⟨(nomatch ·), fun x => ⟨(nomatch ·), (nomatch ·), fun y => (nomatch ·)⟩⟩⟩
        · have : movesOf (s1.hist ++ [(.move u a d m, false)]) = movesOf s1.hist := by
            unfold movesOf
            rw [List.filterMap_append]
            simp
          show ValidMoves n k _ (movesOf (s1.hist ++ _)) ∧ (∀ v, v < n → s1.part v = some (applyMoves _ (movesOf (s1.hist ++ _)) v)) ∧ _
          rw [this]
          exact ⟨i1, i2, frame _ fun u d => ⟨(nomatch ·), fun x => ⟨(nomatch ·), (nomatch ·), fun y => (nomatch ·)⟩⟩⟩
      | moveDec u a d m =>
        have : s1.next w t = { s1 with bw := upd s1.bw a (s1.bw a - w u), pc := upd s1.pc t (.moveStore u a d m) } := by
          unfold Partitioned.State.next; rw [hpc]
        rw [this]
        exact ⟨i1, i2, frame _ fun u d => ⟨(nomatch ·), fun x => ⟨(nomatch ·), (nomatch ·), fun y => (nomatch ·)⟩⟩⟩
      | moveStore u a d m =>
        have : s1.next w t = { s1 with part := upd s1.part u (some d), pc := upd s1.pc t .idle, hist := s1.hist ++ [(.move u a d m, true)] } := by
          unfold Partitioned.State.next; rw [hpc]
        rw [this]
        rw [hpc] at hval
        obtain ⟨v1, v2, v3⟩ := hval
        have hm : movesOf (s1.hist ++ [(.move u a d m, true)]) = movesOf s1.hist ++ [⟨u, a, d⟩] := by
          unfold movesOf
          rw [List.filterMap_append]
          simp
        show ValidMoves n k _ (movesOf (s1.hist ++ _)) ∧ (∀ v, v < n → upd s1.part u (some d) v = some (applyMoves _ (movesOf (s1.hist ++ _)) v)) ∧ _
        rw [hm, applyMoves_append, validMoves_append]
        have hu := i2 u v1
        rw [v2] at hu
        refine ⟨⟨i1, v1, Option.some.inj hu, v3, trivial⟩, fun v hv => ?_,
          frame _ fun u d => ⟨(nomatch ·), fun x => ⟨(nomatch ·), (nomatch ·), fun y => (nomatch ·)⟩⟩⟩
        show _ = some (upd _ u d v)
        by_cases e : v = u
        · subst e; rw [upd_same, upd_same]
        · rw [upd_ne _ _ e, upd_ne _ _ e]; exact i2 v hv
      | setLoad u d => exact absurd hpc (i3 t u d ht).1
      | setDec u a d => exact absurd hpc (((i3 t u d ht).2 none).2.2 a)
      | setInc u x d => exact absurd hpc ((i3 t u d ht).2 x).1
      | setStore u x d => exact absurd hpc ((i3 t u d ht).2 x).2.1

end Verif.Jet

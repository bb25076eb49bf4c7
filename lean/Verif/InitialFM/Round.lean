import Verif.InitialFM.Lemmas

namespace Verif.InitialFM
open Finset
open Verif.Metrics (totalOverload)

/-- The partition after a rollback. -/
def toggle (p : Nat → Nat) (moves : List Nat) : Nat → Nat := fun v => if v ∈ moves then 1 - p v else p v

theorem toggle_nil (p : Nat → Nat) : toggle p [] = p := by funext v; simp [toggle]

theorem rollback_ok {g : Graph} : ∀ (moves : List Nat) (p : Nat → Nat) (bw : Nat → Int), Bipartition g p bw →
    moves.Nodup → (∀ u ∈ moves, u < g.n) →
    (rollback g p bw moves).1 = toggle p moves ∧ Bipartition g (rollback g p bw moves).1 (rollback g p bw moves).2
  | [], p, bw, h, _, _ => ⟨(toggle_nil p).symm, h⟩
  | u :: moves, p, bw, h, hn, hm => by
    obtain ⟨hu, hn⟩ := List.nodup_cons.1 hn
    obtain ⟨h1, h2⟩ := setBlock_ok h (hm u List.mem_cons_self)
    obtain ⟨h3, h4⟩ := rollback_ok moves _ _ h2 hn fun v hv => hm v (List.mem_cons_of_mem _ hv)
    have hr : rollback g p bw (u :: moves) =
        rollback g (setBlock g p bw u (1 - p u)).1 (setBlock g p bw u (1 - p u)).2 moves := rfl
    rw [hr]
    refine ⟨?_, h4⟩
    rw [h3, h1]
    funext v
    unfold toggle flip
    by_cases hv : v = u
    · subst hv; simp [hu]
    · simp [hv]

/-- What holds before and after each iteration of the main loop of a round that begins with `p0`. -/
structure Inv (c : Cfg) (p0 : Nat → Nat) (s : St) : Prop where
  bip : Bipartition c.g s.part s.bw
  good : Good c.g s.part s.marked s.queues (gain c.g s.part)
  cur : c.g.cut s.part = c.g.cut p0 + s.cur
  moved : ∀ u, u < c.g.n → s.part u = if s.marked u then 1 - p0 u else p0 u
  nodup : s.moves.Nodup
  mv : ∀ u ∈ s.moves, u < c.g.n ∧ s.marked u = true
  acc : c.g.cut (toggle s.part s.moves) = c.g.cut p0 + s.acc
  accOver : over c.g c.maxW (toggle s.part s.moves) = s.accOver
  overLe : s.accOver ≤ over c.g c.maxW p0
  change : s.acc < 0 ∨ s.acc = 0 ∧ ∀ u, u < c.g.n → toggle s.part s.moves u = p0 u

/-- What one iteration does: it moves a node. -/
structure Moved (c : Cfg) (s : St) (coin : Bool) (u : Nat) (s' : St) : Prop where
  lt : u < c.g.n
  unmarked : s.marked u = false
  block : s.part u = active c s coin
  key : s.queues (s.part u) u = some (gain c.g s.part u)
  min : ∀ v, v < c.g.n → ∀ y, s.queues (s.part u) v = some y → gain c.g s.part u ≤ y
  part : s'.part = flip s.part u
  marked : s'.marked = upd s.marked u true

theorem step_inv {c : Cfg} (hg : Valid c.g) {p0 : Nat → Nat} {s : St} (h : Inv c p0 s)
    (hne : ¬ (isEmpty c (s.queues 0) = true ∧ isEmpty c (s.queues 1) = true)) (ch : Choice) :
    ∃ s' u, step? c s ch = some s' ∧ Inv c p0 s' ∧ Moved c s ch.coin u s' := by
  have hact := active_nonempty ch.coin hne
  obtain ⟨u, x, hpk, hu, hx, hmin⟩ := peek_some hact ch.tie
  obtain ⟨_, hpu, hmu, hxg⟩ := h.good.key _ _ _ hx
  have hlt := h.bip.lt u hu
  subst hxg
  obtain ⟨hp1, hb1⟩ := setBlock_ok h.bip hu
  have hdst : 1 - active c s ch.coin = 1 - s.part u := by rw [hpu]
  -- the heap without `u`
  have hgood0 : Good c.g (flip s.part u) (upd s.marked u true) (remove s.queues (active c s ch.coin) u) (gain c.g s.part) := by
    refine ⟨fun hp b v x hx => ?_, ?_, ?_⟩
    · unfold remove at hx
      rw [upd2_apply] at hx
      split at hx
      · cases hx
      · exact h.good.bd hp b v x hx
    · intro b v x hx
      unfold remove at hx
      rw [upd2_apply] at hx
      split at hx
      · cases hx
      · rename_i hb
        obtain ⟨h1, h2, h3, h4⟩ := h.good.key b v x hx
        have hvu : v ≠ u := by rintro rfl; exact hb ⟨by rw [← h2, hpu], rfl⟩
        refine ⟨h1, ?_, ?_, h4⟩
        · rw [flip, if_neg hvu]; exact h2
        · rw [upd_ne _ _ hvu]; exact h3
    · intro v hv hm hq
      have hvu : v ≠ u := by rintro rfl; rw [upd_same] at hm; cases hm
      rw [upd_ne _ _ hvu] at hm
      rw [flip, if_neg hvu] at hq
      unfold remove at hq
      rw [upd2_apply, if_neg fun hb => hvu hb.2] at hq
      exact h.good.out v hv hm hq
  have hfl : ∀ v, v ≠ u → flip s.part u v = s.part v := fun v hv => if_neg hv
  have hwt : ∀ v, v < c.g.n → c.g.wt u v = c.g.wt v u := fun v hv => c.g.wt_symm hg.symm hu hv
  obtain ⟨qs, hqs, hgood⟩ := visit_fold (dst := 1 - active c s ch.coin) (c.g.adj u) _ _ hgood0
    (fun e he => ⟨hg.wf u hu e he, hg.nonneg u hu e he⟩) (fun hp e he => hp u hu e he)
    (fun v hv hm => by
      have hvu : v ≠ u := by rintro rfl; rw [upd_same] at hm; cases hm
      refine ⟨gain_le c.g hg s.part hv, fun hd => ?_⟩
      rw [lw_adj, hwt v hv]
      rw [hfl v hvu, hdst] at hd
      exact gain_ext hg hv (by omega))
  have hgood' : Good c.g (flip s.part u) (upd s.marked u true) qs (gain c.g (flip s.part u)) := by
    have hval : ∀ v, v < c.g.n → upd s.marked u true v = false →
        gain c.g s.part v + 2 * lw (c.g.adj u) v * sgn (1 - active c s ch.coin) (flip s.part u v) =
          gain c.g (flip s.part u) v := by
      intro v hv hm
      have hvu : v ≠ u := by rintro rfl; rw [upd_same] at hm; cases hm
      rw [gain_flip hu h.bip.lt hv hvu, lw_adj, hwt v hv, hdst, hfl v hvu]
    refine ⟨hgood.bd, ?_, ?_⟩
    · intro b v x hx
      obtain ⟨h1, h2, h3, h4⟩ := hgood.key b v x hx
      exact ⟨h1, h2, h3, by rw [h4]; exact hval v h1 h3⟩
    · intro v hv hm hq
      rw [← hgood.out v hv hm hq]; exact (hval v hv hm).symm
  have hcur : c.g.cut (flip s.part u) = c.g.cut p0 + (s.cur + gain c.g s.part u) := by
    rw [cut_flip hg h.bip.lt hu, h.cur]; omega
  have hmoved : ∀ v, v < c.g.n → flip s.part u v = if upd s.marked u true v then 1 - p0 v else p0 v := by
    intro v hv
    by_cases hvu : v = u
    · subst hvu
      rw [upd_same, flip, if_pos rfl, if_pos rfl, h.moved v hv, hmu]; rfl
    · rw [upd_ne _ _ hvu, hfl v hvu]; exact h.moved v hv
  have hflip : upd s.part u (1 - active c s ch.coin) = flip s.part u := by rw [hdst]; exact flip_eq.symm
  have hsb : setBlock c.g s.part s.bw u (1 - active c s ch.coin) =
      (flip s.part u, (setBlock c.g s.part s.bw u (1 - s.part u)).2) := by
    rw [hdst, ← hp1]
  rw [hp1] at hb1
  generalize hbw : (setBlock c.g s.part s.bw u (1 - s.part u)).2 = bw at *
  have hover := totalOverload_eq (m := c.maxW) hb1
  have hstep : step? c s ch = some (if accept s.accOver (totalOverload 2 bw c.maxW) s.acc (s.cur + gain c.g s.part u) then
      { part := flip s.part u, bw, queues := qs, marked := upd s.marked u true, moves := [],
        curOver := totalOverload 2 bw c.maxW, accOver := totalOverload 2 bw c.maxW,
        cur := s.cur + gain c.g s.part u, acc := s.cur + gain c.g s.part u }
    else
      { part := flip s.part u, bw, queues := qs, marked := upd s.marked u true, moves := s.moves ++ [u],
        curOver := totalOverload 2 bw c.maxW, accOver := s.accOver,
        cur := s.cur + gain c.g s.part u, acc := s.acc }) := by
    unfold step?
    simp only [hpk, hsb, hqs, Option.bind_eq_bind, Option.bind_some]
    split <;> rfl
  rw [hstep]
  refine ⟨_, u, rfl, ?_, ?_⟩
  · split
    · rename_i hacc
      have hacc : totalOverload 2 bw c.maxW ≤ s.accOver ∧ s.cur + gain c.g s.part u < s.acc := by
        simpa [accept] using hacc
      have hc := h.change
      have ho := h.overLe
      exact { bip := hb1, good := hgood', cur := hcur, moved := hmoved, nodup := List.nodup_nil,
              mv := fun v hv => absurd hv List.not_mem_nil,
              acc := by show c.g.cut (toggle (flip s.part u) []) = _; rw [toggle_nil]; exact hcur
              accOver := by show over c.g c.maxW (toggle (flip s.part u) []) = _; rw [toggle_nil]; exact hover.symm
              overLe := by show totalOverload 2 bw c.maxW ≤ _; omega
              change := Or.inl (by show s.cur + gain c.g s.part u < 0; omega) }
    · have hnot : u ∉ s.moves := fun hm => by rw [(h.mv u hm).2] at hmu; cases hmu
      have htog : ∀ v, v < c.g.n → toggle (flip s.part u) (s.moves ++ [u]) v = toggle s.part s.moves v := by
        intro v hv
        unfold toggle
        by_cases hvu : v = u
        · subst hvu
          rw [if_pos (by simp), if_neg hnot, flip, if_pos rfl]; omega
        · rw [hfl v hvu]
          simp [hvu]
      exact { bip := hb1, good := hgood', cur := hcur, moved := hmoved,
              nodup := by
                show (s.moves ++ [u]).Nodup
                rw [List.nodup_append]
                refine ⟨h.nodup, by simp, fun a ha b hb => ?_⟩
                rw [List.mem_singleton] at hb
                rintro rfl
                exact hnot (hb ▸ ha)
              mv := by
                intro v hv
                show v < c.g.n ∧ upd s.marked u true v = true
                rcases List.mem_append.1 (show v ∈ s.moves ++ [u] from hv) with hv | hv
                · have := h.mv v hv
                  refine ⟨this.1, ?_⟩
                  by_cases hvu : v = u
                  · rw [hvu, upd_same]
                  · rw [upd_ne _ _ hvu]; exact this.2
                · rw [List.mem_singleton] at hv
                  rw [hv]; exact ⟨hu, upd_same ..⟩
              acc := by
                show c.g.cut (toggle (flip s.part u) (s.moves ++ [u])) = _
                rw [cut_congr htog]; exact h.acc
              accOver := by
                show over c.g c.maxW (toggle (flip s.part u) (s.moves ++ [u])) = _
                rw [over_congr htog]; exact h.accOver
              overLe := h.overLe
              change := h.change.imp_right fun hc => ⟨hc.1, fun v hv => by
                show toggle (flip s.part u) (s.moves ++ [u]) v = _
                rw [htog v hv]; exact hc.2 v hv⟩ }
  · have hblk : s.part u = active c s ch.coin := hpu
    have : ∀ s'' : St, s''.part = flip s.part u → s''.marked = upd s.marked u true → Moved c s ch.coin u s'' := fun s'' h1 h2 =>
      { lt := hu, unmarked := hmu, block := hblk, key := by rw [hblk]; exact hx, min := by rw [hblk]; exact hmin,
        part := h1, marked := h2 }
    split
    · exact this _ rfl rfl
    · exact this _ rfl rfl

theorem start_inv {c : Cfg} (hg : Valid c.g) {o : Oracle} (ho : o.Ok c.g.n) {p0 : Nat → Nat} {bw : Nat → Int} (h : Bipartition c.g p0 bw) :
    ∃ s, start? c o p0 bw = some s ∧ Inv c p0 s ∧ s.part = p0 ∧ (∀ u, s.marked u = false) := by
  obtain ⟨qs, h1, h2⟩ := initPq_good hg (part := p0) ho
  refine ⟨_, by unfold start?; rw [h1]; rfl, ?_, rfl, fun _ => rfl⟩
  have hov := totalOverload_eq (m := c.maxW) h
  exact { bip := h, good := h2, cur := (Int.add_zero _).symm
          moved := fun u _ => by simp
          nodup := List.nodup_nil
          mv := fun v hv => absurd hv List.not_mem_nil
          acc := by show c.g.cut (toggle p0 []) = c.g.cut p0 + 0; rw [toggle_nil]; omega
          accOver := by show over _ _ (toggle p0 []) = _; rw [toggle_nil]; exact hov.symm
          overLe := le_of_eq hov
          change := Or.inr ⟨rfl, fun u _ => by show toggle p0 [] u = _; rw [toggle_nil]⟩ }

/-- The number of nodes that can still be moved. -/
def left (c : Cfg) (s : St) : Nat := ((List.range c.g.n).filter fun u => s.marked u = false).length

theorem left_step {c : Cfg} {s s' : St} {coin : Bool} {u : Nat} (h : Moved c s coin u s') : left c s' < left c s := by
  unfold left
  rw [h.marked]
  have hsub : ((List.range c.g.n).filter fun v => upd s.marked u true v = false) =
      ((List.range c.g.n).filter fun v => s.marked v = false).filter fun v => v ≠ u := by
    rw [List.filter_filter]
    apply List.filter_congr
    intro v _
    by_cases hv : v = u
    · subst hv; simp [upd_same]
    · simp [upd_ne _ _ hv, hv]
  rw [hsub]
  apply List.length_filter_lt_length_iff_exists.2
  refine ⟨u, ?_, by simp⟩
  rw [List.mem_filter]
  exact ⟨List.mem_range.2 h.lt, by simpa using h.unmarked⟩

theorem loop_inv {c : Cfg} (hg : Valid c.g) {p0 : Nat → Nat} (choice : Nat → Choice) :
    ∀ (fuel t : Nat) (s : St), Inv c p0 s → left c s < fuel → ∃ s', loop? c choice fuel t s = some s' ∧ Inv c p0 s'
  | 0, _, _, _, hf => absurd hf (Nat.not_lt_zero _)
  | fuel + 1, t, s, h, hf => by
    unfold loop?
    split
    · exact ⟨s, rfl, h⟩
    · rename_i hne
      obtain ⟨s1, u, h1, h2, h3⟩ := step_inv hg h (fun hc => hne (Or.inl hc)) (choice t)
      rw [h1]
      exact loop_inv hg choice fuel (t + 1) s1 h2 (by have := left_step h3; omega)

/-- What a round guarantees. -/
structure RoundOk (c : Cfg) (p : Nat → Nat) (p' : Nat → Nat) (bw' : Nat → Int) (d : Int) : Prop where
  bip : Bipartition c.g p' bw'
  cut : c.g.cut p' = c.g.cut p + d
  le : d ≤ 0
  over : over c.g c.maxW p' ≤ over c.g c.maxW p
  change : d = 0 → ∀ u, u < c.g.n → p' u = p u

theorem round_ok {c : Cfg} (hg : Valid c.g) {o : Oracle} (ho : o.Ok c.g.n) {p : Nat → Nat} {bw : Nat → Int}
    (h : Bipartition c.g p bw) : ∃ p' bw' d, round? c o p bw = some (p', bw', d) ∧ RoundOk c p p' bw' d := by
  obtain ⟨s0, h1, h2, _, _⟩ := start_inv (c := c) hg ho h
  have hl : left c s0 < c.g.n + 1 := by
    have := List.length_filter_le (fun u => decide (s0.marked u = false)) (List.range c.g.n)
    rw [List.length_range] at this
    unfold left; omega
  obtain ⟨s, h3, h4⟩ := loop_inv hg o.choice (c.g.n + 1) 0 s0 h2 hl
  obtain ⟨h5, h6⟩ := rollback_ok s.moves s.part s.bw h4.bip h4.nodup fun u hu => (h4.mv u hu).1
  refine ⟨(rollback c.g s.part s.bw s.moves).1, (rollback c.g s.part s.bw s.moves).2, s.acc, ?_, ?_⟩
  · unfold round?
    simp only [h1, h3, Option.bind_eq_bind, Option.bind_some]
  · have hc := h4.change
    exact { bip := h6, cut := by rw [h5]; exact h4.acc, le := by omega
            over := by rw [h5, h4.accOver]; exact h4.overLe
            change := fun h0 u hu => by
              rw [h5]
              rcases hc with hc | hc
              · omega
              · exact hc.2 u hu }

theorem rounds_ok {c : Cfg} (hg : Valid c.g) {o : Nat → Oracle} (ho : ∀ i, (o i).Ok c.g.n) :
    ∀ (left it : Nat) (p : Nat → Nat) (bw : Nat → Int) (cur : Int), Bipartition c.g p bw → c.g.cut p = cur →
    ∃ p' bw' d, rounds? c o it left p bw cur = some (p', bw', cur + d) ∧ RoundOk c p p' bw' d
  | 0, _, p, bw, cur, h, hc => ⟨p, bw, 0, by rw [Int.add_zero]; rfl,
      { bip := h, cut := by omega, le := le_refl _, over := le_refl _, change := fun _ _ _ => rfl }⟩
  | left + 1, it, p, bw, cur, h, hc => by
    unfold rounds?
    split
    · obtain ⟨p1, bw1, d1, h1, h2⟩ := round_ok hg (ho it) h
      obtain ⟨p2, bw2, d2, h3, h4⟩ := rounds_ok hg ho left (it + 1) p1 bw1 (cur + d1) h2.bip (by rw [h2.cut, hc])
      refine ⟨p2, bw2, d1 + d2, ?_, ?_⟩
      · simp only [h1, Option.bind_eq_bind, Option.bind_some, h3, Int.add_assoc]
      · have := h2.cut; have := h4.cut; have := h2.le; have := h4.le; have := h2.over; have := h4.over
        exact { bip := h4.bip, cut := by omega, le := by omega, over := by omega
                change := fun h0 u hu => by rw [h4.change (by omega) u hu, h2.change (by omega) u hu] }
    · exact ⟨p, bw, 0, by rw [Int.add_zero],
        { bip := h, cut := by omega, le := le_refl _, over := le_refl _, change := fun _ _ _ => rfl }⟩

end Verif.InitialFM

import Verif.FM.Search

/-! # The main loop of a local search keeps the invariant -/

namespace Verif.FM
open Finset Verif.DynMaps Verif.Maps Verif.Delta Verif.Gains

section
variable {c : Cfg} {p0 : Nat → Nat} {o0 : Nat → Int} {v : Nat → Nat} {s : State} {w : Worker}

/-- A node leaves its queue. -/
theorem J.pop (h : J c p0 o0 v s w) {b u : Nat} {x : Int} (hx : w.pq b u = some x) :
    J c p0 o0 v { s with owner := upd s.owner u movedLocally } { w with pq := upd w.pq b (upd (w.pq b) u none) } := by
  obtain ⟨i1, i2, i3⟩ := h.id_ne
  obtain ⟨hu, hb, ho⟩ := h.pq b u x hx
  have hl : u ∈ w.seeds ++ w.touched := h.changed u (by rw [ho]; exact Ne.symm (h.id0 u hu))
  refine { h with
    sinv := ⟨h.sinv.lt, h.sinv.bw, h.sinv.cache⟩, pq := ?_, owned := ?_, ent := ?_, vals := ?_, changed := ?_, moved := ?_ }
  · intro b' u' key' hk
    have hk : upd w.pq b (upd (w.pq b) u none) b' u' = some key' := hk
    rw [upd2] at hk
    split at hk
    · cases hk
    · rename_i hc
      obtain ⟨h1, h2, h3⟩ := h.pq _ _ _ hk
      have : u' ≠ u := by rintro rfl; exact hc ⟨by rw [h2, hb], rfl⟩
      refine ⟨h1, h2, ?_⟩
      show upd s.owner u movedLocally u' = w.id
      rw [upd_ne _ _ this]; exact h3
  · intro u' hu' hown
    have hown : upd s.owner u movedLocally u' = w.id := hown
    have : u' ≠ u := by rintro rfl; rw [upd_same] at hown; exact i1 hown.symm
    rw [upd_ne _ _ this] at hown
    show ∃ key', upd w.pq b (upd (w.pq b) u none) (s.sh.part u') u' = some key'
    rw [upd2, if_neg (by rintro ⟨_, h⟩; exact this h)]
    exact h.owned u' hu' hown
  · intro u' x' hx'
    obtain ⟨h1, h2, h3⟩ := h.ent u' x' hx'
    refine ⟨h1, ?_, h3⟩
    show upd s.owner u movedLocally u' = _
    by_cases hc : u' = u
    · rw [hc, upd_same]
    · rw [upd_ne _ _ hc]; exact h2
  · intro x hx
    show upd s.owner u movedLocally x = _ ∨ upd s.owner u movedLocally x = _ ∨ upd s.owner u movedLocally x = _
    by_cases hxu : x = u
    · right; left; rw [hxu, upd_same]
    · rw [upd_ne _ _ hxu]; exact h.vals x hx
  · intro u' hn
    have hn : upd s.owner u movedLocally u' ≠ o0 u' := hn
    by_cases hc : u' = u
    · rw [hc]; exact hl
    · rw [upd_ne _ _ hc] at hn; exact h.changed u' hn
  · intro u' hn
    obtain ⟨h1, h2⟩ := h.moved u' hn
    have : u' ≠ u := by rintro rfl; rw [ho] at h1; exact i2 h1
    refine ⟨?_, h2⟩
    show upd s.owner u movedLocally u' = _
    rw [upd_ne _ _ this]; exact h1

theorem balance_upd {n k : Nat} {w : Nat → Int} (hw : ∀ u, u < n → 0 ≤ w u) {p : Nat → Nat} {lim max_ : Nat → Int}
    (hb : ∀ b, b < k → weight n w p b ≤ max (lim b) (max_ b)) {u t : Nat} (hu : u < n)
    (ht : weight n w p t + w u ≤ max_ t) : ∀ b, b < k → weight n w (upd p u t) b ≤ max (lim b) (max_ b) := by
  intro b hbk
  rw [weight_upd w p hu]
  have h1 := hb b hbk
  have h2 := hw u hu
  by_cases hc : t = b
  · subst hc
    simp only [if_true]
    split <;> omega
  · rw [if_neg hc]
    split <;> omega

theorem moveLocally_ok (hc : Ok c) (h : J c p0 o0 v s w) (ht : Targets c s w) {u t : Nat} {gain : Int} {m : Nat} (hr : Room w m)
    (hu : u < c.g.n) (htk : t < c.k) (ho : s.owner u = movedLocally) (hl : u ∈ w.seeds ++ w.touched)
    (hvu : v u = s.sh.part u)
    (hg : gain = c.g.conn u (fun x => v x = t) - c.g.conn u (fun x => v x = v u))
    (hw : w.loc.delta.blockWeight s.sh.bw t + c.g.w u ≤ c.maxW t) :
    ∃ s' w', moveLocally? c s { w with cur := w.cur + gain } u (s.sh.part u) t = some (s', w') ∧
      J c p0 o0 (upd v u t) s' w' ∧ Targets c s' w' ∧ Room w' m ∧ w'.id = w.id ∧
      ∀ x, s'.owner x = s.owner x ∨ s'.owner x = movedGlobally := by
  obtain ⟨used, hd⟩ := h.d
  obtain ⟨used', ht'⟩ := h.t
  obtain ⟨d', u1, a1, a2, a3, a4⟩ := delta_set hd hu t
  obtain ⟨t', u2, b1, b2, b3⟩ := ht'.move hc.symm h.vlt hu htk
  unfold moveLocally?
  rw [← hvu]
  simp only [a1, b1, Option.bind_eq_bind, Option.bind_some]
  refine ⟨_, _, rfl, ?_, ht, ?_, rfl, fun _ => Or.inl rfl⟩
  · refine { h with
      d := ⟨u1, a2⟩, t := ⟨u2, b2⟩, vlt := upd_lt h.vlt htk, ent := ?_, cutV := ?_, balV := ?_ }
    · intro u' x hx
      have hx : d'.tab.abs u' = some x := hx
      rw [a4] at hx
      by_cases huu : u' = u
      · rw [huu]; exact ⟨hu, ho, hl⟩
      · rw [upd_ne _ _ huu] at hx; exact h.ent u' x hx
    · show c.g.cut (upd v u t) = c.g.cut p0 - (w.cur + gain)
      rw [cut_upd c.g hc.wf hc.symm v hu (hc.loop u hu), h.cutV, hg]
      omega
    · rw [h.bw htk] at hw
      exact balance_upd hc.nonneg h.balV hu hw
  · have e1 := hd.stamp
    have e2 := ht'.stamp
    unfold Room at hr ⊢
    constructor
    · show d'.tab.stamp + m < 2 ^ 64; omega
    · show t'.stamp + m < 2 ^ 64; omega

theorem commit_ok (hc : Ok c) (h : J c p0 o0 v s w) (ht : Targets c s w) {u t : Nat} {gain : Int} {m : Nat} (hr : Room w (m + 1))
    (hu : u < c.g.n) (htk : t < c.k) (ho : s.owner u = movedLocally) (hl : u ∈ w.seeds ++ w.touched)
    (hab : w.loc.delta.tab.abs u = none)
    (hg : gain = c.g.conn u (fun x => v x = t) - c.g.conn u (fun x => v x = v u))
    (hw : w.loc.delta.blockWeight s.sh.bw t + c.g.w u ≤ c.maxW t) (hcur : w.cur + gain > w.best) :
    ∃ s' w', commit c s { w with cur := w.cur + gain } u (s.sh.part u) t = (s', w') ∧
      J c p0 o0 (upd v u t) s' w' ∧ Targets c s' w' ∧ Room w' m ∧ w'.id = w.id ∧
      ∀ x, s'.owner x = s.owner x ∨ s'.owner x = movedGlobally := by
  obtain ⟨used, hd⟩ := h.d
  obtain ⟨used', ht'⟩ := h.t
  obtain ⟨i1, i2, i3⟩ := h.id_ne
  obtain ⟨f1, f2⟩ := mem_forEach hd
  unfold commit
  simp only
  generalize hs1 : ({ s with sh := s.sh.setBlock c.g.w (u, t), cache := s.cache.move c.g ⟨u, s.sh.part u, t⟩, owner := upd s.owner u movedGlobally } : State) = s1
  have hi1 : SInv c s1 := sinv_move hc.symm h.sinv hu htk (by rw [← hs1]) (by rw [← hs1])
  have hp1 : s1.sh.part = upd s.sh.part u t := by rw [← hs1]; rfl
  have hent : ∀ e ∈ w.loc.delta.forEach, e.1 < c.g.n ∧ e.2 < c.k ∧ e.1 ≠ u ∧ v e.1 = e.2 := by
    intro e he
    have h1 := (f2 e.1 e.2).1 he
    have h2 := h.ent _ _ h1
    have h3 := hd.get e.1
    rw [h1] at h3
    have h3 : ((e.2 : Int)).toNat = v e.1 := h3
    have h4 : v e.1 = e.2 := by rw [← h3]; simp
    refine ⟨h2.1, by rw [← h4]; exact h.vlt _ h2.1, ?_, h4⟩
    intro heq
    rw [heq, hab] at h1
    cases h1
  obtain ⟨g1, g2, g3, g4, g5⟩ := apply_ok hc.symm w.loc.delta.forEach s1 hi1 f1 fun e he => ⟨(hent e he).1, (hent e he).2.1⟩
  generalize w.loc.delta.forEach.foldl (applyOne c.g) s1 = r at g1 g2 g3 g4 g5
  have hkey : ∀ x, x ∈ w.loc.delta.forEach.map Prod.fst ↔ w.loc.delta.tab.abs x ≠ none := by
    intro x
    rw [List.mem_map]
    constructor
    · rintro ⟨e, he, rfl⟩
      rw [(f2 e.1 e.2).1 he]; simp
    · intro hx
      cases hx' : w.loc.delta.tab.abs x with
      | none => exact absurd hx' hx
      | some y =>
        have := hd.nonneg x y hx'
        exact ⟨(x, y.toNat), (f2 _ _).2 (by rw [hx']; congr 1; omega), rfl⟩
  have hpart : r.sh.part = upd v u t := by
    funext x
    by_cases hx : x ∈ w.loc.delta.forEach.map Prod.fst
    · obtain ⟨e, he, rfl⟩ := List.mem_map.1 hx
      rw [g2 e he, upd_ne _ _ (hent e he).2.2.1, (hent e he).2.2.2]
    · rw [g3 x hx, hp1]
      by_cases hxu : x = u
      · rw [hxu, upd_same, upd_same]
      · rw [upd_ne _ _ hxu, upd_ne _ _ hxu]
        have h1 : w.loc.delta.tab.abs x = none := by
          cases hx' : w.loc.delta.tab.abs x with
          | none => rfl
          | some y => exact absurd ((hkey x).2 (by rw [hx']; simp)) hx
        have h2 := hd.get x
        rw [h1] at h2
        exact h2
  have hown : ∀ x, r.owner x = s.owner x ∨ (r.owner x = movedGlobally ∧ s.owner x = movedLocally ∧ x ∈ w.seeds ++ w.touched) := by
    intro x
    rw [g4 x, ← hs1]
    split
    · rename_i hx
      cases hx' : w.loc.delta.tab.abs x with
      | none => exact absurd hx' ((hkey x).1 hx)
      | some y => exact Or.inr ⟨rfl, (h.ent x y hx').2⟩
    · show upd s.owner u movedGlobally x = s.owner x ∨ _
      by_cases hxu : x = u
      · right
        show upd s.owner u movedGlobally x = _ ∧ _
        rw [hxu, upd_same]; exact ⟨rfl, ho, hl⟩
      · left; rw [upd_ne _ _ hxu]
  have hro : ∀ x, s.owner x ≠ movedLocally → r.owner x = s.owner x := by
    intro x hx
    rcases hown x with h1 | ⟨_, h1, _⟩
    · exact h1
    · exact absurd h1 hx
  have hrid : ∀ x, r.owner x = w.id → s.owner x = w.id := by
    intro x hx
    rcases hown x with h1 | ⟨h1, _, _⟩
    · rw [← h1]; exact hx
    · rw [h1] at hx; exact absurd hx.symm i2
  have hpe : ∀ x, s.owner x = w.id → r.sh.part x = s.sh.part x := by
    intro x hx
    have hxl : s.owner x ≠ movedLocally := by rw [hx]; exact i1
    have hxu : x ≠ u := by rintro rfl; exact hxl ho
    rw [hpart, upd_ne _ _ hxu]
    exact h.view hxl
  unfold Room at hr
  obtain ⟨e1, e2, e3⟩ := delta_clear hd (by omega) (upd v u t)
  obtain ⟨k1, k2⟩ := tab_clear ht' (by omega) (upd v u t)
  have hcut : c.g.cut (upd v u t) = c.g.cut p0 - (w.cur + gain) := by
    rw [cut_upd c.g hc.wf hc.symm v hu (hc.loop u hu), h.cutV, hg]
    omega
  have hbal : ∀ b, b < c.k → weight c.g.n c.g.w (upd v u t) b ≤ max (weight c.g.n c.g.w p0 b) (c.maxW b) := by
    rw [h.bw htk] at hw
    exact balance_upd hc.nonneg h.balV hu hw
  refine ⟨_, _, rfl, ?_, ?_, ?_, rfl, fun x => (hown x).imp id fun h => h.1⟩
  · refine { sinv := g1, d := ⟨[], ?_⟩, t := ⟨[], ?_⟩, vlt := upd_lt h.vlt htk, idpos := h.idpos, pq := ?_, owned := ?_,
             ent := ?_, mem := h.mem, vals := ?_, changed := ?_, id0 := h.id0, cutS := ?_, cutV := hcut, best0 := ?_, balS := ?_,
             balV := hbal, moved := ?_ }
    · rw [hpart]; exact e1
    · rw [hpart]; exact k1
    · intro b' u' key hk
      obtain ⟨h1, h2, h3⟩ := h.pq b' u' key hk
      refine ⟨h1, ?_, ?_⟩
      · rw [hpe u' h3]; exact h2
      · rw [hro u' (by rw [h3]; exact i1)]; exact h3
    · intro u' hu' hx
      have hx := hrid u' hx
      show ∃ key, w.pq (r.sh.part u') u' = some key
      rw [hpe u' hx]
      exact h.owned u' hu' hx
    · intro u' x hx
      have hx : w.loc.delta.clear.tab.abs u' = some x := hx
      rw [e2] at hx; cases hx
    · intro x hx
      rcases hown x with h1 | ⟨h1, _, _⟩
      · rw [h1]; exact h.vals x hx
      · exact Or.inr (Or.inr h1)
    · intro x hx
      rcases hown x with h1 | ⟨_, _, h1⟩
      · rw [h1] at hx; exact h.changed x hx
      · exact h1
    · rw [hpart]; exact hcut
    · have := h.best0
      show 0 ≤ w.cur + gain
      omega
    · rw [hpart]; exact hbal
    · intro x hx
      by_cases hs : s.sh.part x = p0 x
      · rw [hpart] at hx
        by_cases hxu : x = u
        · refine ⟨?_, by rw [hxu]; exact hl⟩
          rw [g4 x, ← hs1]
          split
          · rfl
          · show upd s.owner u movedGlobally x = _
            rw [hxu, upd_same]
        · rw [upd_ne _ _ hxu] at hx
          have hxl : s.owner x = movedLocally := by
            apply Classical.byContradiction
            intro hn
            exact hx (by rw [h.view hn, hs])
          have hne : w.loc.delta.tab.abs x ≠ none := by
            intro hn
            have := hd.get x
            rw [hn] at this
            exact hx (by rw [← this, hs])
          refine ⟨by rw [g4 x, if_pos ((hkey x).2 hne)], ?_⟩
          cases hx' : w.loc.delta.tab.abs x with
          | none => exact absurd hx' hne
          | some y => exact (h.ent x y hx').2.2
      · obtain ⟨h1, h2⟩ := h.moved x hs
        exact ⟨by rw [hro x (by rw [h1]; decide)]; exact h1, h2⟩
  · intro b' u' key hk
    rw [g5, ← hs1]
    exact ht b' u' key hk
  · constructor
    · show w.loc.delta.clear.tab.stamp + m < _
      omega
    · show (Flat.clear w.loc.tab).stamp + m < _
      omega

theorem process_ok (hc : Ok c) (h : J c p0 o0 v s w) (ht : Targets c s w) {m : Nat} (hr : Room w (m + 1)) {b u t : Nat}
    {gain key : Int} (hx : w.pq b u = some key) (hb : Best c v u t gain) :
    ∃ v' s' w', process? c s w b u t gain key = some (s', w') ∧ J c p0 o0 v' s' w' ∧ Targets c s' w' ∧ Room w' m ∧
      (gain < key ∨ (w'.id = w.id ∧ s'.owner u ≠ unlocked ∧ s'.owner u ≠ w.id ∧
        ∀ x, s'.owner x = unlocked ∨ s'.owner x = w.id → s.owner x = unlocked ∨ s.owner x = w.id)) := by
  obtain ⟨i1, i2, i3⟩ := h.id_ne
  obtain ⟨hu, hbu, ho⟩ := h.pq b u key hx
  have hr' : Room w m := by unfold Room at hr ⊢; omega
  subst hbu
  unfold process?
  split
  · rename_i hlt
    rw [change_ok hx]
    simp only [Option.bind_eq_bind, Option.bind_some]
    exact ⟨v, _, _, rfl, h.key hx gain _, targets_insert h ht hb.lt gain, hr', Or.inl hlt⟩
  · have hj := h.pop hx
    have htj : Targets c { s with owner := upd s.owner u movedLocally }
        { w with pq := upd w.pq (s.sh.part u) (upd (w.pq (s.sh.part u)) u none) } := by
      intro b' u' key' hk
      have hk : upd w.pq (s.sh.part u) (upd (w.pq (s.sh.part u)) u none) b' u' = some key' := hk
      rw [upd2] at hk
      split at hk
      · cases hk
      · exact ht _ _ _ hk
    have hl : u ∈ w.seeds ++ w.touched := h.changed u (by rw [ho]; exact Ne.symm (h.id0 u hu))
    have hvu : v u = s.sh.part u := h.view (by rw [ho]; exact i1)
    have hab : w.loc.delta.tab.abs u = none := by
      cases hx' : w.loc.delta.tab.abs u with
      | none => rfl
      | some y => have := (h.ent u y hx').2.1; rw [ho] at this; exact absurd this i1
    simp only
    have hpop : ∀ x, upd s.owner u movedLocally x = unlocked ∨ upd s.owner u movedLocally x = w.id →
        s.owner x = unlocked ∨ s.owner x = w.id := by
      intro x hx
      by_cases hxu : x = u
      · rw [hxu]; exact Or.inr ho
      · rw [upd_ne _ _ hxu] at hx; exact hx
    have hdead : upd s.owner u movedLocally u ≠ unlocked ∧ upd s.owner u movedLocally u ≠ w.id := by
      rw [upd_same]; exact ⟨by decide, Ne.symm i1⟩
    split
    · exact ⟨v, _, _, rfl, hj, htj, hr', Or.inr ⟨rfl, hdead.1, hdead.2, hpop⟩⟩
    · rename_i hne
      split
      · rename_i hw
        have hg := hb.gain (by rw [hvu]; exact hne)
        have hown : upd s.owner u movedLocally u = movedLocally := upd_same _ _ _
        unfold accept? perform?
        simp only
        have hsome : ∃ s' w', (if w.cur + gain > w.best then
            some (commit c { s with owner := upd s.owner u movedLocally }
              { w with pq := upd w.pq (s.sh.part u) (upd (w.pq (s.sh.part u)) u none), cur := w.cur + gain } u (s.sh.part u) t)
            else moveLocally? c { s with owner := upd s.owner u movedLocally }
              { w with pq := upd w.pq (s.sh.part u) (upd (w.pq (s.sh.part u)) u none), cur := w.cur + gain } u (s.sh.part u) t)
            = some (s', w') ∧ J c p0 o0 (upd v u t) s' w' ∧ Targets c s' w' ∧ Room w' m ∧ w'.id = w.id ∧
            ∀ x, s'.owner x = upd s.owner u movedLocally x ∨ s'.owner x = movedGlobally := by
          split
          · rename_i hcur
            obtain ⟨s', w', h1, h2⟩ := commit_ok hc hj htj hr hu hb.lt hown hl hab hg hw hcur
            exact ⟨s', w', congrArg some h1, h2⟩
          · exact moveLocally_ok hc hj htj hr' hu hb.lt hown hl hvu hg hw
        obtain ⟨s', w', h1, h2, h3, h4, h9, h10⟩ := hsome
        rw [h1]
        obtain ⟨s2, w2, h5, h6, h7, h8⟩ := visits_ok (a := s.sh.part u) hb.lt (c.g.adj u) s' w' h2 h3 fun e he => (hc.wf u hu e he)
        have hu1 : s'.owner u = movedLocally ∨ s'.owner u = movedGlobally := by
          rw [← hown]; exact h10 u
        refine ⟨upd v u t, s2, w2, h5, h6, h7, ?_, Or.inr ⟨h8.id.trans h9, ?_, ?_, ?_⟩⟩
        · unfold Room at h4 ⊢
          rw [h8.loc]; exact h4
        · intro h
          rcases h8.own u with h11 | ⟨h11, _⟩
          · rw [h11] at h; rw [h] at hu1; exact absurd hu1 (by decide)
          · rw [h11] at hu1; exact absurd hu1 (by decide)
        · intro h
          rcases h8.own u with h11 | ⟨h11, _⟩
          · rw [h11] at h; rw [h] at hu1
            rcases hu1 with hu1 | hu1
            · exact i1 hu1
            · exact i2 hu1
          · rw [h11] at hu1; exact absurd hu1 (by decide)
        · intro x hx
          apply hpop
          rcases h8.own x with h11 | ⟨h11, _⟩
          · rw [h11] at hx
            rcases h10 x with h12 | h12
            · rw [h12] at hx; exact hx
            · rw [h12] at hx
              rcases hx with hx | hx
              · exact absurd hx (by decide)
              · exact absurd hx.symm i2
          · rcases h10 x with h12 | h12
            · rw [← h12]; exact Or.inl h11
            · rw [h12] at h11; exact absurd h11 (by decide)
      · exact ⟨v, _, _, rfl, hj, htj, hr', Or.inr ⟨rfl, hdead.1, hdead.2, hpop⟩⟩

theorem iterate_ok (hc : Ok c) (h : J c p0 o0 v s w) (ht : Targets c s w) {m : Nat} (hr : Room w (m + 1)) {b u : Nat}
    {key : Int} (hx : w.pq b u = some key) :
    ∃ v' s' w', iterate? c (s, w) b u key = some (s', w') ∧ J c p0 o0 v' s' w' ∧ Targets c s' w' ∧ Room w' m := by
  obtain ⟨t, gain, h1, h2⟩ := h.best (h.pq b u key hx).1
  unfold iterate?
  simp only [h1, Option.bind_eq_bind, Option.bind_some]
  obtain ⟨v', s', w', k1, k2, k3, k4, _⟩ := process_ok hc h ht hr hx h2
  exact ⟨v', s', w', k1, k2, k3, k4⟩

end

theorem search_ok {c : Cfg} (hc : Ok c) {p0 : Nat → Nat} {o0 : Nat → Int} (strat : Strategy) : ∀ (fuel : Nat) (v : Nat → Nat)
    (s : State) (w : Worker) (m : Nat), J c p0 o0 v s w → Targets c s w → Room w (fuel + m) →
    ∃ v' s' w', search? c strat fuel (s, w) = some (s', w') ∧ J c p0 o0 v' s' w' ∧ Targets c s' w' ∧ Room w' m
  | 0, v, s, w, m, h, ht, hr => ⟨v, s, w, rfl, h, ht, by unfold Room at hr ⊢; omega⟩
  | fuel + 1, v, s, w, m, h, ht, hr => by
    unfold search?
    cases hst : strat s w with
    | none => exact ⟨v, s, w, rfl, h, ht, by unfold Room at hr ⊢; omega⟩
    | some bu =>
      obtain ⟨b, u⟩ := bu
      simp only
      cases hx : w.pq b u with
      | none => exact ⟨v, s, w, rfl, h, ht, by unfold Room at hr ⊢; omega⟩
      | some key =>
        simp only
        obtain ⟨v1, s1, w1, h1, h2, h3, h4⟩ := iterate_ok hc h ht (m := fuel + m)
          (by unfold Room at hr ⊢; omega) hx
        obtain ⟨v2, s2, w2, h5, h6⟩ := search_ok hc strat fuel v1 s1 w1 m h2 h3 h4
        exact ⟨v2, s2, w2, by rw [h1]; exact h5, h6⟩

end Verif.FM

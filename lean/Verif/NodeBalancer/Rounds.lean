import Mathlib.Data.List.Nodup
import Verif.NodeBalancer.Moves

/-!
# Rounds of the balancer
-/

namespace Verif.NodeBalancer
open List

variable {S : Sys} {P : Nat → Nat} {picks : Nat → List Cand}

/-! ## Proposals -/

theorem Proposal.move (hp : Proposal S P picks) {r : Nat} (hr : r < S.N) {c : Cand} (hc : c ∈ picks r) : Move S P c :=
  ⟨(hp.node r hr c hc).1, (hp.node r hr c hc).2.2.1, (hp.node r hr c hc).2.2.2.1, (hp.node r hr c hc).2.2.2.2⟩

theorem Proposal.good (hS : S.Ok) (hp : Proposal S P picks) {r : Nat} (hr : r < S.N) : Good (picks r) := by
  intro c hc
  have hm := hp.move hr hc
  have := hS.ids
  have h1 := hm.node
  have h2 := hS.weights _ h1
  rw [← hm.weight] at h2
  exact ⟨by omega, by omega⟩

theorem mem_all {picks : Nat → List Cand} {N : Nat} {c : Cand} (h : c ∈ (List.range N).flatMap picks) : ∃ r, r < N ∧ c ∈ picks r := by
  obtain ⟨r, hr, hc⟩ := List.mem_flatMap.1 h
  exact ⟨r, List.mem_range.1 hr, hc⟩

theorem nodup_all {N : Nat} {picks : Nat → List Cand} {owner : Nat → Nat} (h1 : ∀ r, r < N → ∀ c ∈ picks r, owner c.id = r)
    (h2 : ∀ r, r < N → ((picks r).map Cand.id).Nodup) : (((List.range N).flatMap picks).map Cand.id).Nodup := by
  rw [List.map_flatMap, List.nodup_flatMap]
  refine ⟨fun r hr => h2 r (List.mem_range.1 hr), ?_⟩
  refine List.Pairwise.imp_of_mem (R := fun a b => a ≠ b) ?_ List.nodup_range
  intro a b ha hb hab u hua hub
  obtain ⟨c, hc, rfl⟩ := List.mem_map.1 hua
  obtain ⟨d, hd, he⟩ := List.mem_map.1 hub
  have e1 := h1 a (List.mem_range.1 ha) c hc
  have e2 := h1 b (List.mem_range.1 hb) d hd
  rw [he] at e2
  exact hab (e1.symm.trans e2)

theorem nodup_sub {l m : List Cand} (h : l <+~ m) (hm : (m.map Cand.id).Nodup) : (l.map Cand.id).Nodup := by
  obtain ⟨l', h1, h2⟩ := h
  exact (h1.map Cand.id).nodup_iff.1 (hm.sublist (h2.map Cand.id))

theorem apply_lt {k u : Nat} {cs : List Cand} (hc : ∀ c ∈ cs, c.to < k) (hn : (cs.map Cand.id).Nodup) (hu : P u < k) : apply P cs u < k := by
  by_cases h : ∃ c ∈ cs, c.id = u
  · obtain ⟨c, hc', rfl⟩ := h
    rw [apply_mem hn hc']
    exact hc c hc'
  · rw [apply_other fun c hc' he => h ⟨c, hc', he⟩]
    exact hu

theorem changed {u : Nat} {cs : List Cand} (hn : (cs.map Cand.id).Nodup) (h : apply P cs u ≠ P u) : ∃ c ∈ cs, c.id = u ∧ apply P cs u = c.to := by
  by_contra hc
  refine h (apply_other fun c hc' he => hc ⟨c, hc', he, ?_⟩)
  rw [← he, apply_mem hn hc']

/-! ## Sequential rounds -/

theorem phase_one {wt : Nat → Int} {known : Nat → Bool} : ∀ {cs : List Cand} {s : Rank},
    cs.foldl (fun s c => if c.from ≠ c.to then performMove wt known s c else s) s = cs.foldl (performMove wt known) s
  | [], _ => rfl
  | c :: cs, s => by
    rw [List.foldl_cons, List.foldl_cons, ← phase_one]
    congr 1
    by_cases h : c.from = c.to
    · rw [if_neg (by simpa using h)]
      unfold performMove
      rw [if_pos h]
    · rw [if_pos h]

theorem partner {l l' : List Cand} (h1 : l'.map Cand.id = l.map Cand.id) (h2 : l'.map Cand.from = l.map Cand.from) {c' : Cand} (hc : c' ∈ l') :
    ∃ c ∈ l, c.id = c'.id ∧ c.from = c'.from := by
  obtain ⟨i, hi, rfl⟩ := List.mem_iff_getElem.1 hc
  have hl : l'.length = l.length := by simpa using congrArg List.length h1
  refine ⟨l[i]'(by omega), List.getElem_mem _, ?_, ?_⟩
  · have := List.getElem_of_eq h1 (i := i) (by simpa using hi)
    simpa using this.symm
  · have := List.getElem_of_eq h2 (i := i) (by simpa using hi)
    simpa using this.symm

theorem seqMoves_spec (hS : S.Ok) {s s' : Nat → Rank} {ws : List Cand} (hc : Consistent S P s) (hn : (ws.map Cand.id).Nodup)
    (hm : ∀ c ∈ ws, Move S P c) (hov : ∀ c ∈ ws, S.maxw c.from < blockWeight S P c.from)
    (hf : ∀ b, b < S.k → (∃ c ∈ ws, c.from ≠ c.to ∧ c.to = b) → blockWeight S P b + inW ws b ≤ S.maxw b)
    (h : seqMoves? S ws s = some s') :
    ∃ P', Consistent S P' s' ∧ (∀ u, P' u ≠ P u → ∃ c ∈ ws, c.id = u) ∧
      (∀ b, b < S.k → blockWeight S P' b ≤ max (blockWeight S P b) (S.maxw b)) ∧
      (ws ≠ [] → ∃ b, b < S.k ∧ blockWeight S P' b < blockWeight S P b ∧ S.maxw b < blockWeight S P b) := by
  obtain ⟨⟨s0, l'⟩, hroot, h⟩ := Option.bind_eq_some_iff.1 h
  simp only [Option.some.injEq] at h
  unfold rootMoves? at hroot
  simp only [phase_one] at hroot
  have hw : ∀ c ∈ ws, 0 < c.weight := fun c hc => by rw [(hm c hc).weight]; exact hS.weights _ (hm c hc).node
  have hw0 : ∀ c ∈ ws, 0 ≤ c.weight := fun c hc => by have := hw c hc; omega
  have hfrom : ∀ c ∈ ws, c.from < S.k := fun c hc' => by rw [(hm c hc').source]; exact hc.block _ (hm c hc').node
  have hag : ∀ r, r < S.N → Agree S P r (s r) := fun r hr => ⟨hc.part r hr, hc.weights r hr⟩
  have ha := performMoves_agree (hag 0 hS.ranks) hn hm
  obtain ⟨r1, r2, r3, r4, r5, r6⟩ := assignLoop_spec hS.blocks ha hn
    (fun c hc' => ⟨(hm c hc').node, (hm c hc').weight, hw0 c hc', hfrom c hc', (hm c hc').target, apply_mem hn hc'⟩) hroot
  have hn' : (l'.map Cand.id).Nodup := r1 ▸ hn
  have hPQ : apply (apply P ws) l' = apply P l' := by
    refine apply_congr fun u hu => apply_other fun c hc' he => ?_
    have : c.id ∈ l'.map Cand.id := by rw [r1]; exact List.mem_map_of_mem hc'
    obtain ⟨d, hd, hde⟩ := List.mem_map.1 this
    exact hu d hd (hde.trans he)
  rw [hPQ] at r4 r5 r6
  have hm' : ∀ c ∈ l', Move S P c := by
    intro c hc'
    obtain ⟨d, hd, e1, e2⟩ := partner r1 r2 hc'
    exact ⟨e1 ▸ (hm d hd).node, by rw [← e2, ← e1]; exact (hm d hd).source, (r3 c hc').1, (r3 c hc').2⟩
  have hout : ∀ b, 0 ≤ outW ws b := fun b => outW_nonneg hw0
  have hQ : ∀ b, b < S.k → blockWeight S (apply P ws) b ≤ max (blockWeight S P b) (S.maxw b) := by
    intro b hb
    rw [weight_apply b hn hm]
    have := hout b
    by_cases he : ∃ c ∈ ws, c.from ≠ c.to ∧ c.to = b
    · have := hf b hb he
      omega
    · rw [inW_eq_zero fun c hc' hcc => he ⟨c, hc', hcc⟩]
      omega
  refine ⟨apply P l', ⟨fun r hr => ?_, fun r hr => ?_, fun u hu => ?_⟩, fun u hu => ?_, fun b hb => ?_, fun hne => ?_⟩
  · rw [← h]
    by_cases h0 : r = 0
    · simp only [h0, if_true]
      exact r4.1
    · simp only [if_neg h0]
      exact (performMoves_agree (hag r hr) hn' hm').1
  · rw [← h]
    by_cases h0 : r = 0
    · simp only [h0, if_true]
      exact r4.2
    · simp only [if_neg h0]
      exact (performMoves_agree (hag r hr) hn' hm').2
  · exact apply_lt (fun c hc' => (hm' c hc').target) hn' (hc.block u hu)
  · obtain ⟨c, hc', e, _⟩ := changed hn' hu
    obtain ⟨d, hd, e1, _⟩ := partner r1 r2 hc'
    exact ⟨d, hd, e1.trans e⟩
  · have := r5 b hb
    have := hQ b hb
    omega
  · obtain ⟨c, hc'⟩ := List.exists_mem_of_ne_nil _ hne
    have ho := hov c hc'
    have hwc := hw c hc'
    refine ⟨c.from, hfrom c hc', ?_, ho⟩
    by_cases hself : c.from = c.to
    · have := r6 c hc' hself
      have := hQ c.from (hfrom c hc')
      omega
    · have h5 := r5 c.from (hfrom c hc')
      have hge := outW_ge hw0 hc' hself
      rw [weight_apply c.from hn hm] at h5
      by_cases he : ∃ d ∈ ws, d.from ≠ d.to ∧ d.to = c.from
      · have := hf c.from (hfrom c hc') he
        omega
      · rw [inW_eq_zero fun d hd hdd => he ⟨d, hd, hdd⟩] at h5
        omega

/-! ## Parallel rounds -/

/-- The change of a block weight. -/
def netW (l : List Cand) (b : Nat) : Int := (l.map fun c => (if c.to = b then c.weight else 0) - if c.from = b then c.weight else 0).sum

theorem netW_eq (b : Nat) : ∀ l : List Cand, netW l b = inW l b - outW l b
  | [] => by simp [netW, inW, outW]
  | c :: l => by
    have h0 : netW (c :: l) b = ((if c.to = b then c.weight else 0) - if c.from = b then c.weight else 0) + netW l b := by simp [netW]
    have h1 : inW (c :: l) b = (if c.from ≠ c.to ∧ c.to = b then c.weight else 0) + inW l b := by simp [inW]
    have h2 : outW (c :: l) b = (if c.from ≠ c.to ∧ c.from = b then c.weight else 0) + outW l b := by simp [outW]
    rw [h0, h1, h2, netW_eq b l]
    by_cases hs : c.from = c.to
    · have n1 : ¬ (c.from ≠ c.to ∧ c.to = b) := fun h => h.1 hs
      have n2 : ¬ (c.from ≠ c.to ∧ c.from = b) := fun h => h.1 hs
      rw [if_neg n1, if_neg n2, hs]
      split <;> omega
    · simp only [hs, ne_eq, not_false_eq_true, true_and]
      split <;> split <;> omega

theorem netW_append (l m : List Cand) (b : Nat) : netW (l ++ m) b = netW l b + netW m b := by
  unfold netW; rw [List.map_append, List.sum_append]

theorem netW_flatMap (f : Nat → List Cand) (b : Nat) : ∀ l : List Nat, netW (l.flatMap f) b = (l.map fun r => netW (f r) b).sum
  | [] => by simp [netW]
  | r :: l => by rw [List.flatMap_cons, netW_append, netW_flatMap f b l]; simp

/-- The dice of a rank: the accepted candidates are at the front, and the deltas are right. -/
structure DiceOk (picks : List Cand) (s : Dice) : Prop where
  perm : s.cands ~ picks
  le : s.rejected ≤ s.cands.length
  deltas : ∀ b, s.deltas b = netW (s.cands.take (s.cands.length - s.rejected)) b

theorem diceLoop_spec {rnd : Nat → Bool} {picks : List Cand} : ∀ {fuel i t : Nat} {s : Dice}, s.cands ~ picks → s.rejected ≤ s.cands.length →
    i ≤ s.cands.length - s.rejected → s.cands.length - s.rejected ≤ i + fuel → (∀ b, s.deltas b = netW (s.cands.take i) b) →
    ∃ s', diceLoop? rnd fuel i t s = some s' ∧ DiceOk picks s' := by
  intro fuel
  induction fuel with
  | zero =>
    intro i t s h1 h2 h3 h4 h5
    refine ⟨s, by rw [diceLoop?, if_neg (by omega)], h1, h2, ?_⟩
    rwa [show s.cands.length - s.rejected = i by omega]
  | succ fuel ih =>
    intro i t s h1 h2 h3 h4 h5
    unfold diceLoop?
    by_cases hi : i < s.cands.length - s.rejected
    · rw [if_pos hi]
      have hlt : i < s.cands.length := by omega
      rw [List.getElem?_eq_getElem hlt]
      simp only [Option.bind_eq_bind, Option.bind_some]
      by_cases hr : rnd t
      · rw [if_pos hr]
        refine ih h1 h2 (by simp only []; omega) (by simp only []; omega) fun b => ?_
        simp only []
        rw [List.take_succ_eq_append_getElem hlt, netW_append, ← h5]
        have e : netW [s.cands[i]] b = (if s.cands[i].to = b then s.cands[i].weight else 0) - if s.cands[i].from = b then s.cands[i].weight else 0 := by
          simp [netW]
        rw [e]
        generalize s.cands[i] = c
        by_cases hf : b = c.from
        · subst hf
          rw [upd_same, if_pos rfl]
          by_cases ht : c.to = c.from
          · rw [if_pos ht, ht, upd_same]; omega
          · rw [if_neg ht, upd_ne _ _ (Ne.symm ht)]; omega
        · rw [upd_ne _ _ hf, if_neg (Ne.symm hf)]
          by_cases ht : b = c.to
          · subst ht; rw [upd_same, if_pos rfl]; omega
          · rw [upd_ne _ _ ht, if_neg (Ne.symm ht)]; omega
      · rw [if_neg hr, swap_some hlt (by omega)]
        simp only [Option.bind_some]
        refine ih ((List.set_set_perm hlt (by omega)).trans h1) (by simp only [List.length_set]; omega) (by simp only [List.length_set]; omega)
          (by simp only [List.length_set]; omega) fun b => ?_
        simp only []
        rw [swap_prefix (by omega), h5]
    · rw [if_neg hi]
      refine ⟨s, rfl, h1, h2, ?_⟩
      rwa [show s.cands.length - s.rejected = i by omega]

theorem mapM_some {α β : Type} {f : α → Option β} {h : α → β} : ∀ {l : List α}, (∀ x ∈ l, f x = some (h x)) → l.mapM f = some (l.map h)
  | [], _ => rfl
  | a :: l, ha => by
    rw [List.mapM_cons, ha a List.mem_cons_self, mapM_some fun x hx => ha x (List.mem_cons_of_mem _ hx)]
    rfl

theorem attempts_spec {bw : Nat → Int} {rnd : Nat → Nat → Nat → Bool} {picks : Nat → List Cand} : ∀ {n : Nat} {d : Nat → Dice} {b : Bool},
    (∀ r, r < S.N → (d r).cands ~ picks r) →
    (n = 0 ∨ b = true → (∀ r, r < S.N → DiceOk (picks r) (d r)) ∧ (b = true → balanced S bw (fun x => sumRanks S.N fun r => (d r).deltas x) = true)) →
    ∃ d' b', attempts? S bw rnd n d b = some (d', b') ∧ (∀ r, r < S.N → DiceOk (picks r) (d' r)) ∧
      (b' = true → balanced S bw (fun x => sumRanks S.N fun r => (d' r).deltas x) = true)
  | 0, d, b, _, h => ⟨d, b, by rw [attempts?], (h (.inl rfl)).1, (h (.inl rfl)).2⟩
  | n + 1, d, b, hp, h => by
    unfold attempts?
    by_cases hb : b = true
    · rw [if_pos hb]
      exact ⟨d, b, rfl, (h (.inr hb)).1, (h (.inr hb)).2⟩
    · rw [if_neg hb]
      have hex : ∀ r, ∃ s', r < S.N → diceLoop? (rnd n r) (d r).cands.length 0 0 ⟨(d r).cands, 0, fun _ => 0⟩ = some s' ∧ DiceOk (picks r) s' := by
        intro r
        by_cases hr : r < S.N
        · obtain ⟨s', h1, h2⟩ := diceLoop_spec (rnd := rnd n r) (picks := picks r) (fuel := (d r).cands.length) (i := 0) (t := 0)
            (s := ⟨(d r).cands, 0, fun _ => 0⟩) (hp r hr) (Nat.zero_le _) (Nat.zero_le _) (by simp) (fun b => by simp [netW])
          exact ⟨s', fun _ => ⟨h1, h2⟩⟩
        · exact ⟨d r, fun h => absurd h hr⟩
      choose g hg using hex
      rw [mapM_some (h := g) fun r hr => (hg r (List.mem_range.1 hr)).1]
      simp only [Option.bind_eq_bind, Option.bind_some]
      have hget : ∀ r, r < S.N → ((List.range S.N).map g).getD r ⟨[], 0, fun _ => 0⟩ = g r := by
        intro r hr
        rw [List.getD_eq_getElem _ _ (by simpa using hr)]
        simp
      have hok : ∀ r, r < S.N → DiceOk (picks r) (((List.range S.N).map g).getD r ⟨[], 0, fun _ => 0⟩) := by
        intro r hr
        rw [hget r hr]
        exact (hg r hr).2
      exact attempts_spec (fun r hr => (hok r hr).perm) fun _ => ⟨hok, fun h => h⟩

/-- The local moves of a rank. -/
theorem performMoves_apply : ∀ {cs : List Cand} {part : Nat → Nat}, (cs.map Cand.id).Nodup → (∀ c ∈ cs, part c.id = c.from) →
    performMoves cs part = apply part cs
  | [], _, _, _ => rfl
  | c :: cs, part, hn, h => by
    have hn' := List.nodup_cons.1 hn
    have hc : (if c.from = c.to then part else upd part c.id c.to) = upd part c.id c.to := by
      by_cases hs : c.from = c.to
      · rw [if_pos hs]
        funext v
        by_cases hv : v = c.id
        · subst hv; rw [upd_same, h c List.mem_cons_self, hs]
        · rw [upd_ne _ _ hv]
      · rw [if_neg hs]
    have := performMoves_apply (cs := cs) (part := upd part c.id c.to) hn'.2 fun d hd => by
      have hne : d.id ≠ c.id := fun he => hn'.1 (he ▸ List.mem_map_of_mem hd)
      rw [upd_ne _ _ hne]
      exact h d (List.mem_cons_of_mem _ hd)
    rw [apply_cons, ← this]
    show performMoves cs (if c.from = c.to then part else upd part c.id c.to) = _
    rw [hc]

/-- Messages of one rank. -/
theorem sync_one {known : Nat → Bool} {f : Nat → Nat} : ∀ {cs : List Cand} {part : Nat → Nat} {u : Nat},
    cs.foldl (fun part c => if known c.id then upd part c.id (f c.id) else part) part u = if known u = true ∧ u ∈ cs.map Cand.id then f u else part u
  | [], part, u => by simp
  | c :: cs, part, u => by
    rw [List.foldl_cons, sync_one]
    by_cases h1 : known u = true
    · by_cases h2 : u ∈ cs.map Cand.id
      · rw [if_pos ⟨h1, h2⟩, if_pos ⟨h1, by rw [List.map_cons]; exact List.mem_cons_of_mem _ h2⟩]
      · rw [if_neg fun h => h2 h.2]
        by_cases h3 : u = c.id
        · subst h3
          rw [if_pos h1, upd_same, if_pos ⟨h1, by simp⟩]
        · have h4 : u ∉ (c :: cs).map Cand.id := by
            rw [List.map_cons, List.mem_cons, not_or]
            exact ⟨h3, h2⟩
          have n4 : ¬ (known u = true ∧ u ∈ (c :: cs).map Cand.id) := fun h => h4 h.2
          rw [if_neg n4]
          split
          · rw [upd_ne _ _ h3]
          · rfl
    · have n1 : ¬ (known u = true ∧ u ∈ cs.map Cand.id) := fun h => h1 h.1
      have n2 : ¬ (known u = true ∧ u ∈ (c :: cs).map Cand.id) := fun h => h1 h.1
      rw [if_neg n1, if_neg n2]
      split
      · rename_i h
        have hne : u ≠ c.id := fun he => h1 (he ▸ h)
        rw [upd_ne _ _ hne]
      · rfl

/-- Messages of all ranks. -/
theorem sync_all {known : Nat → Bool} {acc : Nat → List Cand} {f : Nat → Nat → Nat} {owner : Nat → Nat} {rank u : Nat} :
    ∀ {l : List Nat} {part : Nat → Nat}, l.Nodup → (∀ pe ∈ l, ∀ c ∈ acc pe, owner c.id = pe) →
    l.foldl (fun part pe => if pe = rank then part else
      (acc pe).foldl (fun part c => if known c.id then upd part c.id (f pe c.id) else part) part) part u =
      if known u = true ∧ owner u ≠ rank ∧ owner u ∈ l ∧ u ∈ (acc (owner u)).map Cand.id then f (owner u) u else part u
  | [], part, _, _ => by simp
  | pe :: l, part, hn, ho => by
    have hn' := List.nodup_cons.1 hn
    rw [List.foldl_cons, sync_all hn'.2 fun x hx => ho x (List.mem_cons_of_mem _ hx)]
    by_cases h1 : known u = true ∧ owner u ≠ rank ∧ owner u ∈ l ∧ u ∈ (acc (owner u)).map Cand.id
    · rw [if_pos h1, if_pos ⟨h1.1, h1.2.1, List.mem_cons_of_mem _ h1.2.2.1, h1.2.2.2⟩]
    · rw [if_neg h1]
      by_cases hpe : pe = rank
      · rw [if_pos hpe, if_neg]
        rintro ⟨a, b, c, d⟩
        rcases List.mem_cons.1 c with c | c
        · exact b (c.trans hpe)
        · exact h1 ⟨a, b, c, d⟩
      · rw [if_neg hpe, sync_one (f := f pe)]
        by_cases h2 : known u = true ∧ u ∈ (acc pe).map Cand.id
        · obtain ⟨c, hc, rfl⟩ := List.mem_map.1 h2.2
          have e := ho pe List.mem_cons_self c hc
          rw [if_pos h2, if_pos ⟨h2.1, by rw [e]; exact hpe, by rw [e]; exact List.mem_cons_self, by rw [e]; exact h2.2⟩, e]
        · rw [if_neg h2, if_neg]
          rintro ⟨a, b, c, d⟩
          rcases List.mem_cons.1 c with c | c
          · exact h2 ⟨a, c ▸ d⟩
          · exact h1 ⟨a, b, c, d⟩

theorem parRound_spec (hS : S.Ok) {s : Nat → Rank} (hc : Consistent S P s) (hp : Proposal S P picks) (tries : Nat) (accept : Bool)
    (rnd : Nat → Nat → Nat → Bool) :
    ∃ s' moved P', parRound? S tries accept rnd picks s = some (s', moved) ∧ Consistent S P' s' ∧
      (∀ u, P' u ≠ P u → ∃ r, r < S.N ∧ ∃ c ∈ picks r, c.id = u ∧ P' u = c.to) ∧
      (accept = false → ∀ b, b < S.k → blockWeight S P b ≤ S.maxw b → blockWeight S P' b ≤ S.maxw b) ∧ (moved = false → s' = s) := by
  obtain ⟨d, bal, h1, h2, h3⟩ := attempts_spec (S := S) (bw := (s 0).bw) (rnd := rnd) (picks := picks) (n := max 1 tries)
    (d := fun r => ⟨picks r, 0, fun _ => 0⟩) (b := false) (fun r _ => List.Perm.refl _) (fun h => by
      rcases h with h | h
      · omega
      · cases h)
  unfold parRound?
  rw [h1]
  simp only [Option.bind_eq_bind, Option.bind_some]
  by_cases hacc : (bal || accept) = true
  · rw [if_pos hacc]
    let acc : Nat → List Cand := fun rank => (d rank).cands.take ((d rank).cands.length - (d rank).rejected)
    have hsub : ∀ r, r < S.N → acc r <+~ picks r := fun r hr => ((List.take_sublist _ _).subperm).trans (h2 r hr).perm.subperm
    have hmem : ∀ r, r < S.N → ∀ c ∈ acc r, c ∈ picks r := fun r hr c hc' => (hsub r hr).subset hc'
    have hown : ∀ r, r < S.N → ∀ c ∈ acc r, S.owner c.id = r := fun r hr c hc' => (hp.node r hr c (hmem r hr c hc')).2.1
    have hnd : ∀ r, r < S.N → ((acc r).map Cand.id).Nodup := fun r hr => nodup_sub (hsub r hr) (hp.distinct r hr)
    have hall := nodup_all hown hnd
    have hmv : ∀ c ∈ (List.range S.N).flatMap acc, Move S P c := by
      intro c hc'
      obtain ⟨r, hr, hc'⟩ := mem_all hc'
      exact hp.move hr (hmem r hr c hc')
    have hdel : ∀ b, sumRanks S.N (fun r => (d r).deltas b) = netW ((List.range S.N).flatMap acc) b := by
      intro b
      rw [netW_flatMap]
      unfold sumRanks
      exact sum_congr_range fun r hr => (h2 r hr).deltas b
    have hW : ∀ b, blockWeight S (apply P ((List.range S.N).flatMap acc)) b = blockWeight S P b + sumRanks S.N fun r => (d r).deltas b := by
      intro b
      rw [hdel, netW_eq, weight_apply b hall hmv]
      omega
    refine ⟨_, true, apply P ((List.range S.N).flatMap acc), rfl, ⟨fun r hr u hu hk => ?_, fun r hr b hb => ?_, fun u hu => ?_⟩, fun u hu => ?_,
      fun ha b hb hle => ?_, fun h => by cases h⟩
    · have hloc : ∀ pe, pe < S.N → ∀ v, v < S.n → S.known pe v = true → performMoves (acc pe) (s pe).part v = apply P (acc pe) v := by
        intro pe hpe v hv hkv
        rw [performMoves_apply (hnd pe hpe)]
        · by_cases hx : ∃ c ∈ acc pe, c.id = v
          · obtain ⟨c, hc', rfl⟩ := hx
            rw [apply_mem (hnd pe hpe) hc', apply_mem (hnd pe hpe) hc']
          · rw [apply_other fun c hc' he => hx ⟨c, hc', he⟩, apply_other fun c hc' he => hx ⟨c, hc', he⟩]
            exact hc.part pe hpe v hv hkv
        · intro c hc'
          have hm := hp.move hpe (hmem pe hpe c hc')
          rw [hm.source]
          refine hc.part pe hpe _ hm.node ?_
          have := hS.own c.id hm.node
          rwa [hown pe hpe c hc'] at this
      show syncGhosts S acc _ r u = _
      unfold syncGhosts
      rw [sync_all (known := S.known r) (f := fun pe v => performMoves (acc pe) (s pe).part v) (owner := S.owner) List.nodup_range
        fun pe hpe => hown pe (List.mem_range.1 hpe)]
      by_cases hx : ∃ pe, pe < S.N ∧ ∃ c ∈ acc pe, c.id = u
      · obtain ⟨pe, hpe, c, hc', rfl⟩ := hx
        have e := hown pe hpe c hc'
        have hto : apply P ((List.range S.N).flatMap acc) c.id = c.to := apply_mem hall (List.mem_flatMap.2 ⟨pe, List.mem_range.2 hpe, hc'⟩)
        rw [hto]
        by_cases hr' : pe = r
        · subst hr'
          rw [if_neg fun h => h.2.1 e]
          exact (hloc pe hpe _ hu hk).trans (apply_mem (hnd pe hpe) hc')
        · rw [if_pos ⟨hk, by rw [e]; exact hr', by rw [e]; exact List.mem_range.2 hpe, by rw [e]; exact List.mem_map_of_mem hc'⟩, e]
          have hkp := hS.own c.id hu
          rw [e] at hkp
          exact (hloc pe hpe _ hu hkp).trans (apply_mem (hnd pe hpe) hc')
      · rw [if_neg]
        · have e1 : apply P ((List.range S.N).flatMap acc) u = P u := apply_other fun c hc' he => by
            obtain ⟨pe, hpe, hc'⟩ := mem_all hc'
            exact hx ⟨pe, hpe, c, hc', he⟩
          rw [e1]
          exact (hloc r hr u hu hk).trans (apply_other fun c hc' he => hx ⟨r, hr, c, hc', he⟩)
        · rintro ⟨-, -, h3, h4⟩
          obtain ⟨c, hc', e⟩ := List.mem_map.1 h4
          exact hx ⟨_, List.mem_range.1 h3, c, hc', e⟩
    · show (s r).bw b + _ = _
      rw [hW, hc.weights r hr b hb]
    · exact apply_lt (fun c hc' => (hmv c hc').target) hall (hc.block u hu)
    · obtain ⟨c, hc', e, e2⟩ := changed hall hu
      obtain ⟨r, hr, hc'⟩ := mem_all hc'
      exact ⟨r, hr, c, hmem r hr c hc', e, e2⟩
    · have hbal : bal = true := by simpa [ha] using hacc
      have := h3 hbal
      unfold balanced at this
      have := List.all_eq_true.1 this b (List.mem_range.2 hb)
      rw [hW]
      have e0 := hc.weights 0 hS.ranks b hb
      simp only [overload, underload, e0, Bool.not_eq_true', Bool.and_eq_false_iff, beq_eq_false_iff_ne, decide_eq_false_iff_not] at this
      rcases this with h | h
      · omega
      · omega
  · rw [if_neg hacc]
    exact ⟨s, false, P, rfl, hc, fun u hu => absurd rfl hu, fun _ b _ h => h, fun _ => rfl⟩

end Verif.NodeBalancer

import Verif.NodeBalancer.Winners

/-!
# Moves and block weights
-/

namespace Verif.NodeBalancer
open List

/-! ## Sums -/

theorem sum_congr_range {f g : Nat → Int} {n : Nat} (h : ∀ v, v < n → f v = g v) : ((List.range n).map f).sum = ((List.range n).map g).sum := by
  rw [List.map_congr_left fun v hv => h v (List.mem_range.1 hv)]

theorem sum_range_change {f g : Nat → Int} {u : Nat} : ∀ {n : Nat}, u < n → (∀ v, v < n → v ≠ u → f v = g v) →
    ((List.range n).map f).sum = ((List.range n).map g).sum - g u + f u
  | 0, h, _ => absurd h (by omega)
  | n + 1, h, hfg => by
    simp only [List.range_succ, List.map_append, List.sum_append, List.map_cons, List.map_nil, List.sum_cons, List.sum_nil]
    by_cases hu : u = n
    · subst hu
      rw [sum_congr_range (f := f) (g := g) fun v hv => hfg v (by omega) (by omega)]
      omega
    · rw [sum_range_change (f := f) (g := g) (u := u) (n := n) (by omega) fun v hv => hfg v (by omega), hfg n (by omega) (by omega)]
      omega

theorem sum_range_le {f g : Nat → Int} {n : Nat} (h : ∀ v, v < n → f v ≤ g v) : ((List.range n).map f).sum ≤ ((List.range n).map g).sum := by
  induction n with
  | zero => simp
  | succ n ih =>
    simp only [List.range_succ, List.map_append, List.sum_append, List.map_cons, List.map_nil, List.sum_cons, List.sum_nil]
    have := ih fun v hv => h v (by omega)
    have := h n (by omega)
    omega

theorem sum_range_lt {f g : Nat → Int} {n u : Nat} (h : ∀ v, v < n → f v ≤ g v) (hu : u < n) (hlt : f u < g u) :
    ((List.range n).map f).sum < ((List.range n).map g).sum := by
  induction n with
  | zero => omega
  | succ n ih =>
    simp only [List.range_succ, List.map_append, List.sum_append, List.map_cons, List.map_nil, List.sum_cons, List.sum_nil]
    have h2 := h n (by omega)
    by_cases hn : u = n
    · subst hn
      have := sum_range_le (f := f) (g := g) (n := u) fun v hv => h v (by omega)
      omega
    · have := ih (fun v hv => h v (by omega)) (by omega)
      omega

/-! ## One move -/

theorem weight_upd {S : Sys} {P : Nat → Nat} {u : Nat} (hu : u < S.n) (b' b : Nat) :
    blockWeight S (upd P u b') b = blockWeight S P b - (if P u = b then S.wt u else 0) + (if b' = b then S.wt u else 0) := by
  unfold blockWeight
  rw [sum_range_change (g := fun v => if P v = b then S.wt v else 0) hu]
  · rw [upd_same]
  · intro v _ hv
    rw [upd_ne _ _ hv]

/-- The state of a rank agrees with a partition. -/
def Agree (S : Sys) (P : Nat → Nat) (rank : Nat) (s : Rank) : Prop :=
  (∀ u, u < S.n → S.known rank u → s.part u = P u) ∧ ∀ b, b < S.k → s.bw b = blockWeight S P b

/-- A move of a node. -/
structure Move (S : Sys) (P : Nat → Nat) (c : Cand) : Prop where
  node : c.id < S.n
  source : c.from = P c.id
  weight : c.weight = S.wt c.id
  target : c.to < S.k

theorem performMove_agree {S : Sys} {P : Nat → Nat} {rank : Nat} {s : Rank} {c : Cand} (ha : Agree S P rank s) (hc : Move S P c) :
    Agree S (upd P c.id c.to) rank (performMove S.wt (S.known rank) s c) := by
  unfold performMove
  by_cases hself : c.from = c.to
  · rw [if_pos hself]
    have : upd P c.id c.to = P := by
      funext v
      by_cases hv : v = c.id
      · subst hv; rw [upd_same, ← hself, hc.source]
      · rw [upd_ne _ _ hv]
    rwa [this]
  · rw [if_neg hself]
    have hw : ∀ b, blockWeight S (upd P c.id c.to) b = blockWeight S P b - (if c.from = b then S.wt c.id else 0) + (if c.to = b then S.wt c.id else 0) := by
      intro b
      rw [weight_upd hc.node, ← hc.source]
    have key : ∀ (x : Int) (f : Nat), f = c.from → x = S.wt c.id → ∀ b, b < S.k →
        upd (upd s.bw f (s.bw f - x)) c.to ((upd s.bw f (s.bw f - x)) c.to + x) b = blockWeight S (upd P c.id c.to) b := by
      rintro x f rfl rfl b hb
      rw [hw, upd_ne s.bw _ (Ne.symm hself), ← ha.2 b hb]
      by_cases h1 : b = c.to
      · subst h1
        rw [upd_same, if_neg hself, if_pos rfl]
        omega
      · rw [upd_ne _ _ h1, if_neg (Ne.symm h1)]
        by_cases h2 : b = c.from
        · subst h2
          rw [upd_same, if_pos rfl]
          omega
        · rw [upd_ne _ _ h2, if_neg (Ne.symm h2)]
          omega
    by_cases hk : S.known rank c.id
    · rw [if_pos hk]
      refine ⟨fun u hu hku => ?_, fun b hb => ?_⟩
      · show upd s.part c.id c.to u = upd P c.id c.to u
        by_cases h : u = c.id
        · subst h; rw [upd_same, upd_same]
        · rw [upd_ne _ _ h, upd_ne _ _ h]
          exact ha.1 u hu hku
      · exact key _ _ ((ha.1 c.id hc.node hk).trans hc.source.symm) rfl b hb
    · rw [if_neg hk]
      refine ⟨fun u hu hku => ?_, fun b hb => key _ _ rfl hc.weight b hb⟩
      show s.part u = upd P c.id c.to u
      have hne : u ≠ c.id := fun h => hk (h ▸ hku)
      rw [upd_ne _ _ hne]
      exact ha.1 u hu hku

/-! ## Several moves -/

/-- The partition after moves. -/
def apply (P : Nat → Nat) (cs : List Cand) : Nat → Nat := cs.foldl (fun P c => upd P c.id c.to) P

theorem apply_cons (P : Nat → Nat) (c : Cand) (cs : List Cand) : apply P (c :: cs) = apply (upd P c.id c.to) cs := rfl

theorem apply_append (P : Nat → Nat) (cs ds : List Cand) : apply P (cs ++ ds) = apply (apply P cs) ds := List.foldl_append

theorem apply_other {P : Nat → Nat} {u : Nat} : ∀ {cs : List Cand}, (∀ c ∈ cs, c.id ≠ u) → apply P cs u = P u
  | [], _ => rfl
  | c :: cs, h => by
    rw [apply_cons, apply_other (P := upd P c.id c.to) fun d hd => h d (List.mem_cons_of_mem _ hd)]
    exact upd_ne _ _ (h c List.mem_cons_self).symm

theorem apply_mem {P : Nat → Nat} {c : Cand} : ∀ {cs : List Cand}, (cs.map Cand.id).Nodup → c ∈ cs → apply P cs c.id = c.to
  | [], _, h => by simp at h
  | d :: cs, hn, h => by
    rw [List.map_cons, List.nodup_cons] at hn
    rw [apply_cons]
    rcases List.mem_cons.1 h with rfl | h
    · have hne : ∀ x ∈ cs, x.id ≠ c.id := fun x hx he => hn.1 (he ▸ List.mem_map_of_mem hx)
      rw [apply_other hne, upd_same]
    · exact apply_mem hn.2 h

/-- What the moved nodes were before does not matter. -/
theorem apply_congr {P Q : Nat → Nat} : ∀ {cs : List Cand}, (∀ u, (∀ c ∈ cs, c.id ≠ u) → P u = Q u) → apply P cs = apply Q cs
  | [], h => funext fun u => h u (by simp)
  | c :: cs, h => by
    rw [apply_cons, apply_cons]
    refine apply_congr fun u hu => ?_
    by_cases hc : u = c.id
    · subst hc; rw [upd_same, upd_same]
    · rw [upd_ne _ _ hc, upd_ne _ _ hc]
      refine h u fun d hd => ?_
      rcases List.mem_cons.1 hd with rfl | hd
      · exact Ne.symm hc
      · exact hu d hd

theorem moves_tail {S : Sys} {P : Nat → Nat} {c : Cand} {cs : List Cand} (hn : ((c :: cs).map Cand.id).Nodup) (hm : ∀ d ∈ c :: cs, Move S P d) :
    ∀ d ∈ cs, Move S (upd P c.id c.to) d := by
  intro d hd
  rw [List.map_cons, List.nodup_cons] at hn
  have hne : d.id ≠ c.id := fun he => hn.1 (he ▸ List.mem_map_of_mem hd)
  have := hm d (List.mem_cons_of_mem _ hd)
  exact ⟨this.node, by rw [upd_ne _ _ hne]; exact this.source, this.weight, this.target⟩

theorem performMoves_agree {S : Sys} {rank : Nat} : ∀ {cs : List Cand} {P : Nat → Nat} {s : Rank}, Agree S P rank s →
    (cs.map Cand.id).Nodup → (∀ c ∈ cs, Move S P c) → Agree S (apply P cs) rank (cs.foldl (performMove S.wt (S.known rank)) s)
  | [], _, _, ha, _, _ => ha
  | c :: cs, P, s, ha, hn, hm => by
    rw [List.foldl_cons, apply_cons]
    exact performMoves_agree (performMove_agree ha (hm c List.mem_cons_self)) (List.nodup_cons.1 hn).2 (moves_tail hn hm)

/-- The weight that leaves a block. -/
def outW (l : List Cand) (b : Nat) : Int := (l.map fun c => if c.from ≠ c.to ∧ c.from = b then c.weight else 0).sum

theorem weight_apply {S : Sys} (b : Nat) : ∀ {cs : List Cand} {P : Nat → Nat}, (cs.map Cand.id).Nodup → (∀ c ∈ cs, Move S P c) →
    blockWeight S (apply P cs) b = blockWeight S P b + inW cs b - outW cs b
  | [], P, _, _ => by simp [apply, inW, outW]
  | c :: cs, P, hn, hm => by
    have hc := hm c List.mem_cons_self
    rw [apply_cons, weight_apply b (List.nodup_cons.1 hn).2 (moves_tail hn hm), weight_upd hc.node, ← hc.source, ← hc.weight]
    have h1 : inW (c :: cs) b = (if c.from ≠ c.to ∧ c.to = b then c.weight else 0) + inW cs b := by simp [inW]
    have h2 : outW (c :: cs) b = (if c.from ≠ c.to ∧ c.from = b then c.weight else 0) + outW cs b := by simp [outW]
    rw [h1, h2]
    by_cases hs : c.from = c.to
    · have n1 : ¬ (c.from ≠ c.to ∧ c.to = b) := fun h => h.1 hs
      have n2 : ¬ (c.from ≠ c.to ∧ c.from = b) := fun h => h.1 hs
      rw [if_neg n1, if_neg n2, hs]
      split <;> omega
    · simp only [hs, ne_eq, not_false_eq_true, true_and]
      split <;> split <;> omega

theorem outW_nonneg {l : List Cand} {b : Nat} (h : ∀ c ∈ l, 0 ≤ c.weight) : 0 ≤ outW l b := by
  induction l with
  | nil => simp [outW]
  | cons d l ih =>
    have e : outW (d :: l) b = (if d.from ≠ d.to ∧ d.from = b then d.weight else 0) + outW l b := by simp [outW]
    have := ih fun x hx => h x (List.mem_cons_of_mem _ hx)
    have := h d List.mem_cons_self
    rw [e]
    split <;> omega

theorem outW_ge {l : List Cand} {c : Cand} (h : ∀ c ∈ l, 0 ≤ c.weight) (hc : c ∈ l) (hs : c.from ≠ c.to) : c.weight ≤ outW l c.from := by
  induction l with
  | nil => simp at hc
  | cons d l ih =>
    have e : outW (d :: l) c.from = (if d.from ≠ d.to ∧ d.from = c.from then d.weight else 0) + outW l c.from := by simp [outW]
    have h0 : 0 ≤ outW l c.from := outW_nonneg fun x hx => h x (List.mem_cons_of_mem _ hx)
    have hd := h d List.mem_cons_self
    rw [e]
    rcases List.mem_cons.1 hc with rfl | hc
    · rw [if_pos ⟨hs, rfl⟩]
      omega
    · have := ih (fun x hx => h x (List.mem_cons_of_mem _ hx)) hc
      split <;> omega

theorem inW_eq_zero {l : List Cand} {b : Nat} (h : ∀ c ∈ l, ¬ (c.from ≠ c.to ∧ c.to = b)) : inW l b = 0 := by
  refine List.sum_eq_zero fun x hx => ?_
  obtain ⟨c, hc, rfl⟩ := List.mem_map.1 hx
  exact if_neg (h c hc)

/-! ## The search for a block -/

theorem search_some {k fr : Nat} {bw maxw : Nat → Int} {w : Int} : ∀ {fuel cur cur' : Nat}, cur < k → search? k bw maxw fr w fuel cur = some cur' →
    cur' < k ∧ cur' ≠ fr ∧ bw cur' + w ≤ maxw cur'
  | 0, _, _, _, h => by simp [search?] at h
  | fuel + 1, cur, cur', hk, h => by
    unfold search? at h
    split at h
    · exact search_some (by split <;> omega) h
    · rename_i hc
      obtain ⟨h1, h2⟩ := not_or.1 hc
      cases h
      exact ⟨hk, h1, by omega⟩

theorem search_none {k fr : Nat} {bw maxw : Nat → Int} {w : Int} : ∀ {fuel cur : Nat}, cur < k → search? k bw maxw fr w fuel cur = none →
    ∀ j, j < fuel → ((cur + j) % k = fr ∨ bw ((cur + j) % k) + w > maxw ((cur + j) % k))
  | 0, _, _, _, j, hj => absurd hj (by omega)
  | fuel + 1, cur, hk, h, j, hj => by
    unfold search? at h
    split at h
    · rename_i hc
      cases j with
      | zero => rwa [Nat.add_zero, Nat.mod_eq_of_lt hk]
      | succ j =>
        have := search_none (by split <;> omega) h j (by omega)
        have e : ((if cur + 1 ≥ k then 0 else cur + 1) + j) % k = (cur + (j + 1)) % k := by
          split
          · have : cur + 1 = k := by omega
            rw [show cur + (j + 1) = k + j by omega, Nat.add_mod_left, Nat.zero_add]
          · rw [show cur + 1 + j = cur + (j + 1) by omega]
        rwa [e] at this
    · simp at h

/-- The search does not end exactly if no block can take the node. -/
theorem search_none_iff {k fr : Nat} {bw maxw : Nat → Int} {w : Int} {cur : Nat} (hk : cur < k) :
    search? k bw maxw fr w k cur = none ↔ ∀ b, b < k → b = fr ∨ bw b + w > maxw b := by
  constructor
  · intro h b hb
    have := search_none hk h ((b + k - cur) % k) (Nat.mod_lt _ (by omega))
    have e : (cur + (b + k - cur) % k) % k = b := by
      rw [Nat.add_mod_mod, show cur + (b + k - cur) = b + k by omega, Nat.add_mod_right, Nat.mod_eq_of_lt hb]
    rwa [e] at this
  · intro h
    by_contra hc
    obtain ⟨c, hc⟩ := Option.ne_none_iff_exists'.1 hc
    obtain ⟨h1, h2, h3⟩ := search_some hk hc
    rcases h c h1 with h | h
    · exact h2 h
    · omega

/-! ## The moves of the root -/

theorem assignLoop_spec {S : Sys} : ∀ {l : List Cand} {Q : Nat → Nat} {cur : Nat} {s s' : Rank} {l' : List Cand}, cur < S.k → Agree S Q 0 s →
    (l.map Cand.id).Nodup → (∀ c ∈ l, c.id < S.n ∧ c.weight = S.wt c.id ∧ 0 ≤ c.weight ∧ c.from < S.k ∧ c.to < S.k ∧ Q c.id = c.to) →
    assignLoop? S.k S.maxw S.wt (S.known 0) l cur s = some (s', l') →
      l'.map Cand.id = l.map Cand.id ∧ l'.map Cand.from = l.map Cand.from ∧ (∀ c ∈ l', c.weight = S.wt c.id ∧ c.to < S.k) ∧
      Agree S (apply Q l') 0 s' ∧
      (∀ b, b < S.k → blockWeight S (apply Q l') b ≤ max (blockWeight S Q b) (S.maxw b)) ∧
      (∀ c ∈ l, c.from = c.to → blockWeight S (apply Q l') c.from ≤ max (blockWeight S Q c.from - c.weight) (S.maxw c.from))
  | [], Q, cur, s, s', l', _, ha, _, _, h => by
    simp only [assignLoop?, Option.some.injEq, Prod.mk.injEq] at h
    obtain ⟨rfl, rfl⟩ := h
    exact ⟨rfl, rfl, by simp, ha, fun b _ => Int.le_max_left _ _, by simp⟩
  | c :: l, Q, cur, s, s', l', hk, ha, hn, hv, h => by
    obtain ⟨v1, v2, v3, v4, v5, v6⟩ := hv c List.mem_cons_self
    have hn' := hn
    rw [List.map_cons, List.nodup_cons] at hn'
    unfold assignLoop? at h
    by_cases hself : c.from = c.to
    · rw [if_pos hself] at h
      obtain ⟨cur', hcur, h⟩ := Option.bind_eq_some_iff.1 h
      obtain ⟨s1, s2, s3⟩ := search_some hk hcur
      simp only [] at h
      obtain ⟨⟨s'', l''⟩, hrec, h⟩ := Option.bind_eq_some_iff.1 h
      simp only [Option.some.injEq, Prod.mk.injEq] at h
      obtain ⟨rfl, rfl⟩ := h
      have hm : Move S Q { c with «to» := cur' } := ⟨v1, hself.trans v6.symm, v2, s1⟩
      have ha' := performMove_agree ha hm
      simp only [] at ha'
      obtain ⟨r1, r2, r3, r4, r5, r6⟩ := assignLoop_spec s1 ha' hn'.2
        (fun d hd => by
          obtain ⟨w1, w2, w3, w4, w5, w6⟩ := hv d (List.mem_cons_of_mem _ hd)
          refine ⟨w1, w2, w3, w4, w5, ?_⟩
          have hne : d.id ≠ c.id := fun he => hn'.1 (he ▸ List.mem_map_of_mem hd)
          rw [upd_ne _ _ hne]
          exact w6) hrec
      have hwt : ∀ b, b < S.k → blockWeight S (upd Q c.id cur') b ≤ max (blockWeight S Q b) (S.maxw b) := by
        intro b hb
        rw [weight_upd v1, v6, ← hself, ← v2]
        by_cases h1 : cur' = b
        · subst h1
          rw [if_neg (Ne.symm s2), if_pos rfl]
          have := ha.2 cur' s1
          omega
        · rw [if_neg h1]
          split <;> omega
      refine ⟨by rw [List.map_cons, List.map_cons, r1], by rw [List.map_cons, List.map_cons, r2], ?_, ?_, fun b hb => ?_, fun d hd hds => ?_⟩
      · intro d hd
        rcases List.mem_cons.1 hd with rfl | hd
        · exact ⟨v2, s1⟩
        · exact r3 d hd
      · rw [apply_cons]; exact r4
      · rw [apply_cons]
        have := r5 b hb
        have := hwt b hb
        simp only [] at *
        omega
      · rw [apply_cons]
        simp only []
        rcases List.mem_cons.1 hd with rfl | hd
        · have h1 := r5 d.from v4
          have h2 : blockWeight S (upd Q d.id cur') d.from = blockWeight S Q d.from - d.weight := by
            rw [weight_upd v1, v6, ← hself, if_pos rfl, if_neg s2, v2]
            omega
          omega
        · have h1 := r6 d hd hds
          obtain ⟨-, -, w3, w4, -, -⟩ := hv d (List.mem_cons_of_mem _ hd)
          have h2 := hwt d.from w4
          omega
    · rw [if_neg hself] at h
      obtain ⟨⟨s'', l''⟩, hrec, h⟩ := Option.bind_eq_some_iff.1 h
      simp only [Option.some.injEq, Prod.mk.injEq] at h
      obtain ⟨rfl, rfl⟩ := h
      obtain ⟨r1, r2, r3, r4, r5, r6⟩ := assignLoop_spec hk ha hn'.2 (fun d hd => hv d (List.mem_cons_of_mem _ hd)) hrec
      have hQ : upd Q c.id c.to = Q := by
        funext v
        by_cases hv : v = c.id
        · subst hv; rw [upd_same, v6]
        · rw [upd_ne _ _ hv]
      refine ⟨by rw [List.map_cons, List.map_cons, r1], by rw [List.map_cons, List.map_cons, r2], ?_, ?_, fun b hb => ?_, fun d hd hds => ?_⟩
      · intro d hd
        rcases List.mem_cons.1 hd with rfl | hd
        · exact ⟨v2, v5⟩
        · exact r3 d hd
      · rw [apply_cons, hQ]; exact r4
      · rw [apply_cons, hQ]; exact r5 b hb
      · rw [apply_cons, hQ]
        rcases List.mem_cons.1 hd with rfl | hd
        · exact absurd hds hself
        · exact r6 d hd hds

end Verif.NodeBalancer

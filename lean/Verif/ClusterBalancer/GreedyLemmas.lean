import Verif.ClusterBalancer.GreedySpec
import Verif.ClusterBalancer.Lemmas

/-! # Lemmas about the greedy builder -/

namespace Verif.ClusterBalancer
open Verif

/-- Invariant of the loop of one cluster; `f` is the state of the nodes before the cluster. -/
structure GrowInv (e : Env) (id own : Nat) (f : Nat → Option Nat) (s : Grow) : Prop where
  of : ∀ v, s.clusterOf v = if v ∈ s.cur then some id else f v
  nodup : s.cur.Nodup
  cur : ∀ u ∈ s.cur, u < e.g.n ∧ f u = none ∧ e.block u = own
  front : ∀ u ∈ s.front, u < e.g.n ∧ s.clusterOf u = none ∧ e.block u = own
  weight : s.weight = (s.cur.map e.nw).sum
  key : s.keys own = 0
  best : s.bestLen ≤ s.cur.length
  first : s.cur = [] → s.bestConn = 0
  some : s.cur ≠ [] → 1 ≤ s.bestLen ∧ (s.cur.dropLast.map e.nw).sum < e.limit

theorem connSteps_own (e : Env) (id own : Nat) (f : Nat → Option Nat) (w : Int) : ∀ (l : List (Nat × Int)) (keys : Nat → Int),
    l.foldl (connStep e id own f w) keys own = keys own
  | [], _ => rfl
  | x :: l, keys => by
    rw [List.foldl_cons, connSteps_own e id own f w l]
    unfold connStep
    split
    · rfl
    · split
      · rfl
      · rename_i h
        split
        · rw [upd_ne _ _ (fun e => h e.symm)]
        · split
          · rw [upd_ne _ _ (fun e => h e.symm)]
          · rfl

theorem le_foldl_max : ∀ (l : List Int) (a : Int), a ≤ l.foldl max a ∧ ∀ x ∈ l, x ≤ l.foldl max a
  | [], a => ⟨le_refl _, by simp⟩
  | y :: l, a => by
    obtain ⟨h1, h2⟩ := le_foldl_max l (max a y)
    rw [List.foldl_cons]
    refine ⟨le_trans (le_max_left a y) h1, fun x hx => ?_⟩
    rcases List.mem_cons.1 hx with rfl | hx
    · exact le_trans (le_max_right a x) h1
    · exact h2 x hx

theorem le_peekKey {k b : Nat} {keys : Nat → Int} (hb : b < k) : keys b ≤ peekKey k keys :=
  (le_foldl_max _ _).2 _ (List.mem_map_of_mem (List.mem_range.2 hb))

theorem frontSteps (e : Env) (bu : Nat) (f : Nat → Option Nat) {P : Nat → Prop} (hP : ∀ v < e.g.n, f v = none → e.block v = bu → P v) :
    ∀ (l : List (Nat × Int)) (front : List Nat), (∀ v ∈ front, P v) → ∀ v ∈ l.foldl (frontStep e bu f) front, P v
  | [], front, h => h
  | x :: l, front, h => by
    refine frontSteps e bu f hP l _ fun v hv => ?_
    unfold frontStep at hv
    split at hv
    · rename_i hx
      split at hv
      · exact h v hv
      · rcases List.mem_append.1 hv with hv | hv
        · exact h v hv
        · rw [List.mem_singleton] at hv
          rw [hv]; exact hP _ hx.1 hx.2.1 hx.2.2
    · exact h v hv

theorem growStep_inv {e : Env} {id own : Nat} {f : Nat → Option Nat} {s : Grow} {u : Nat} (hk : own < e.g.k)
    (I : GrowInv e id own f s) (hu : u ∈ s.front) (hw : s.weight < e.limit) : GrowInv e id own f (growStep e id own s u) := by
  obtain ⟨u1, u2, u3⟩ := I.front u hu
  have ucur : u ∉ s.cur := fun h => by
    rw [I.of u, if_pos h] at u2; exact absurd u2 (by simp)
  have uf : f u = none := by rw [I.of u, if_neg ucur] at u2; exact u2
  have of' : ∀ v, upd s.clusterOf u (some id) v = if v ∈ s.cur ++ [u] then some id else f v := fun v => by
    by_cases hv : v = u
    · subst hv; rw [upd_same, if_pos (by simp)]
    · rw [upd_ne _ _ hv, I.of v]; simp [hv]
  have key' : ((e.g.adj u).foldl (connStep e id own (upd s.clusterOf u (some id)) (s.weight + e.nw u)) s.keys) own = 0 := by
    rw [connSteps_own]; exact I.key
  have peek0 : 0 ≤ peekKey e.g.k ((e.g.adj u).foldl (connStep e id own (upd s.clusterOf u (some id)) (s.weight + e.nw u)) s.keys) := by
    rw [← key']; exact le_peekKey hk
  refine ⟨of', ?_, ?_, ?_, ?_, key', ?_, ?_, ?_⟩
  · refine List.nodup_append.2 ⟨I.nodup, List.nodup_singleton u, fun a ha b hb h => ?_⟩
    rw [List.mem_singleton] at hb
    exact ucur (by rw [← hb, ← h]; exact ha)
  · intro v hv
    rcases List.mem_append.1 (show v ∈ s.cur ++ [u] from hv) with h | h
    · exact I.cur v h
    · rw [List.mem_singleton] at h
      rw [h]; exact ⟨u1, uf, u3⟩
  · show ∀ v ∈ (e.g.adj u).foldl (frontStep e (e.block u) (upd s.clusterOf u (some id))) (s.front.filter fun v => decide (v ≠ u)),
      v < e.g.n ∧ upd s.clusterOf u (some id) v = none ∧ e.block v = own
    refine frontSteps e (e.block u) _ (fun v h1 h2 h3 => ⟨h1, h2, by rw [h3, u3]⟩) _ _ fun v hv => ?_
    obtain ⟨h1, h2⟩ := List.mem_filter.1 hv
    have hne : v ≠ u := by simpa using h2
    obtain ⟨a, b, c⟩ := I.front v h1
    exact ⟨a, by rw [upd_ne _ _ hne]; exact b, c⟩
  · show s.weight + e.nw u = ((s.cur ++ [u]).map e.nw).sum
    rw [List.map_append, List.sum_append, ← I.weight]; simp
  · show (if _ then (s.cur ++ [u]).length else s.bestLen) ≤ (s.cur ++ [u]).length
    have := I.best
    split
    · exact le_refl _
    · simp only [List.length_append, List.length_singleton]; omega
  · intro h
    exact absurd (show s.cur ++ [u] = [] from h) (by simp)
  · intro _
    refine ⟨?_, ?_⟩
    · show 1 ≤ (if _ then (s.cur ++ [u]).length else s.bestLen)
      split
      · simp
      · rename_i hlt
        by_cases hc : s.cur = []
        · exact absurd (by rw [I.first hc]; exact peek0) hlt
        · exact (I.some hc).1
    · show ((s.cur ++ [u]).dropLast.map e.nw).sum < e.limit
      rw [List.dropLast_concat, ← I.weight]; exact hw

theorem growLoop_ok {e : Env} {id own : Nat} {f : Nat → Option Nat} (hk : own < e.g.k) : ∀ (fuel : Nat) (s : Grow), GrowInv e id own f s →
    e.g.n ≤ fuel + s.cur.length → ∃ s', growLoop? e id own fuel s = some s' ∧ GrowInv e id own f s' ∧
      s.cur <+: s'.cur ∧ (s.weight < e.limit → e.stop id s.cur = false → ∀ x, s.front = [x] → s.cur ++ [x] <+: s'.cur)
  | fuel, s, I, hf => by
    cases hfront : s.front with
    | nil =>
      refine ⟨s, ?_, I, List.prefix_refl _, fun _ _ x h => absurd h (by simp)⟩
      unfold growLoop?; rw [hfront]
    | cons x front =>
      by_cases hgo : s.weight < e.limit ∧ e.stop id s.cur = false
      · have hmem : ((x :: front)[e.pick id s.cur % (x :: front).length]?).getD x ∈ s.front := by
          rw [hfront, List.getElem?_eq_getElem (Nat.mod_lt _ (by simp)), Option.getD_some]
          exact List.getElem_mem _
        have hlen : s.cur.length < e.g.n := by
          obtain ⟨h1, h2, _⟩ := I.front _ hmem
          have hsub : (s.cur ++ [((x :: front)[e.pick id s.cur % (x :: front).length]?).getD x]) ⊆ List.range e.g.n := by
            intro v hv
            rcases List.mem_append.1 hv with h | h
            · exact List.mem_range.2 (I.cur v h).1
            · rw [List.mem_singleton] at h; rw [h]; exact List.mem_range.2 h1
          have hnd : (s.cur ++ [((x :: front)[e.pick id s.cur % (x :: front).length]?).getD x]).Nodup := by
            refine List.nodup_append.2 ⟨I.nodup, List.nodup_singleton _, fun a ha b hb h => ?_⟩
            rw [List.mem_singleton] at hb
            rw [← hb, ← h, I.of a, if_pos ha] at h2
            exact absurd h2 (by simp)
          have := nodup_length_le hnd hsub
          rw [List.length_append, List.length_singleton, List.length_range] at this
          omega
        match fuel, hf with
        | 0, hf => omega
        | fuel + 1, hf =>
          have I' := growStep_inv hk I hmem hgo.1
          obtain ⟨s', h1, h2, h4, _⟩ := growLoop_ok hk fuel _ I' (by
            show e.g.n ≤ fuel + (s.cur ++ [_]).length
            rw [List.length_append, List.length_singleton]; omega)
          refine ⟨s', ?_, h2, (List.prefix_append _ _).trans h4, fun _ _ y hy => ?_⟩
          · unfold growLoop?
            rw [hfront]
            simp only [hgo, and_self, if_true]
            exact h1
          · obtain ⟨rfl, rfl⟩ := List.cons.inj hy
            have h4' : s.cur ++ [(([x] : List Nat)[e.pick id s.cur % ([x] : List Nat).length]?).getD x] <+: s'.cur := h4
            rw [List.length_singleton, Nat.mod_one] at h4'
            exact h4'
      · refine ⟨s, ?_, I, List.prefix_refl _, fun h1 h2 => absurd ⟨h1, h2⟩ hgo⟩
        unfold growLoop?
        rw [hfront]
        simp only [hgo, if_false]

theorem updNone : ∀ (l : List Nat) (f : Nat → Option Nat) (v : Nat), l.foldl (fun f u => upd f u none) f v = if v ∈ l then none else f v
  | [], f, v => by simp
  | a :: l, f, v => by
    rw [List.foldl_cons, updNone l]
    by_cases h : v ∈ l
    · simp [h]
    · by_cases ha : v = a
      · subst ha; simp [h]
      · simp [h, ha, upd_ne]

theorem giveBack_at {e : Env} {id own : Nat} {f : Nat → Option Nat} {s : Grow} (I : GrowInv e id own f s) (v : Nat) :
    giveBack s v = if v ∈ s.cur.take (s.bestLen + 1) then some id else f v := by
  unfold giveBack
  rw [updNone, I.of v]
  have hsplit := List.take_append_drop (s.bestLen + 1) s.cur
  have hnd : (s.cur.take (s.bestLen + 1) ++ s.cur.drop (s.bestLen + 1)).Nodup := by rw [hsplit]; exact I.nodup
  by_cases h1 : v ∈ s.cur.drop (s.bestLen + 1)
  · have h2 : v ∉ s.cur.take (s.bestLen + 1) := fun h => (List.nodup_append.1 hnd).2.2 v h v h1 rfl
    rw [if_pos h1, if_neg h2, (I.cur v (List.mem_of_mem_drop h1)).2.1]
  · rw [if_neg h1]
    by_cases h2 : v ∈ s.cur.take (s.bestLen + 1)
    · rw [if_pos h2, if_pos (List.mem_of_mem_take h2)]
    · rw [if_neg h2, if_neg (fun h => ?_)]
      rw [← hsplit] at h
      exact (List.mem_append.1 h).elim h2 h1

theorem zeroRow_at {k id d b : Nat} (conns : Nat → Int) (hb : b < k) : zeroRow k conns id (d * k + b) = if d = id then 0 else conns (d * k + b) := by
  unfold zeroRow
  have h : ∀ (l : List Nat) (f : Nat → Int), (∀ x ∈ l, x < k) → l.foldl (fun f b => upd f (id * k + b) 0) f (d * k + b) =
      if d = id ∧ b ∈ l then 0 else f (d * k + b) := by
    intro l
    induction l with
    | nil => intro f _; simp
    | cons a l ih =>
      intro f hl
      rw [List.foldl_cons, ih _ fun x hx => hl x (List.mem_cons_of_mem _ hx)]
      by_cases h1 : d = id ∧ b ∈ l
      · rw [if_pos h1, if_pos ⟨h1.1, List.mem_cons_of_mem _ h1.2⟩]
      · rw [if_neg h1]
        by_cases h2 : d = id ∧ b = a
        · rw [h2.1, h2.2, upd_same, if_pos ⟨rfl, List.mem_cons_self ..⟩]
        · rw [upd_ne _ _ fun he => h2 (flat_inj hb (hl a (List.mem_cons_self ..)) he), if_neg]
          rintro ⟨h3, h4⟩
          rcases List.mem_cons.1 h4 with h4 | h4
          · exact h2 ⟨h3, h4⟩
          · exact h1 ⟨h3, h4⟩
  rw [h _ _ fun x hx => List.mem_range.1 hx]
  simp [hb]

theorem rowSteps_at {e : Env} {id d b : Nat} {f : Nat → Option Nat} (hb : b < e.g.k) : ∀ (l : List (Nat × Int)) (conns : Nat → Int),
    (∀ x ∈ l, e.block x.1 < e.g.k) → l.foldl (rowStep e id f) conns (d * e.g.k + b) = conns (d * e.g.k + b) +
      if d = id then (l.map fun x => if ¬ (x.1 < e.g.n ∧ f x.1 = some id) ∧ e.block x.1 = b then x.2 else 0).sum else 0
  | [], conns, _ => by simp
  | x :: l, conns, h => by
    rw [List.foldl_cons, rowSteps_at hb l _ fun y hy => h y (List.mem_cons_of_mem _ hy)]
    unfold rowStep
    by_cases hm : x.1 < e.g.n ∧ f x.1 = some id
    · rw [if_pos hm]
      by_cases hd : d = id
      · simp [hd, hm]
      · simp [hd]
    · rw [if_neg hm]
      have h1 := addConns_at (c := id) (d := d) (block := e.block) hb [x] conns fun y hy => by
        rw [List.mem_singleton] at hy; rw [hy]; exact h x (List.mem_cons_self ..)
      rw [List.foldl_cons, List.foldl_nil] at h1
      rw [h1, List.map_cons, List.sum_cons]
      by_cases hd : d = id
      · simp only [hd, if_true, hm, not_false_eq_true, true_and, List.map_cons, List.map_nil, List.sum_cons, List.sum_nil]; ring
      · simp [hd]

/-- Invariant of the loop over the nodes. -/
structure BuildInv (e : Env) (m : Nat) (b : Built) : Prop where
  named : ∀ (u c : Nat), b.sets.clusterOf u = some c → c < b.sets.members.length ∧ u < e.g.n ∧ e.over (e.block u) = true
  nonempty : ∀ (c : Nat) l, b.sets.members[c]? = some l → l ≠ [] ∧ l.Nodup
  mem : ∀ (c : Nat) l, b.sets.members[c]? = some l → ∀ u ∈ l, u < e.g.n ∧ b.sets.clusterOf u = some c
  same : ∀ (c : Nat) l, b.sets.members[c]? = some l → ∀ u ∈ l, ∀ v ∈ l, e.block u = e.block v
  weight : ∀ (c : Nat) l, b.sets.members[c]? = some l → (l.dropLast.map e.nw).sum < e.limit
  left : ∀ (c u v : Nat), LeftOut b.sets c u → LeftOut b.sets c v → u = v
  cover : ∀ u < m, e.over (e.block u) = true → ∃ c, b.sets.clusterOf u = some c
  conns : ∀ (c : Nat) l, b.sets.members[c]? = some l → ∀ q < e.g.k, b.conns (c * e.g.k + q) =
    ((l.flatMap e.g.adj).map fun x => if ¬ (x.1 < e.g.n ∧ b.sets.clusterOf x.1 = some c) ∧ e.block x.1 = q then x.2 else 0).sum

theorem sum_prefix_le {f : Nat → Int} (hf : ∀ v, 0 ≤ f v) (l : List Nat) (i j : Nat) (h : i ≤ j) : ((l.take i).map f).sum ≤ ((l.take j).map f).sum := by
  have e1 : l.take j = l.take i ++ (l.take j).drop i := by
    have h1 := (List.take_append_drop i (l.take j)).symm
    rw [List.take_take, min_eq_left h] at h1
    exact h1
  rw [e1, List.map_append, List.sum_append]
  have nn : ∀ l : List Nat, 0 ≤ (l.map f).sum := fun l => by
    induction l with
    | nil => simp
    | cons a l ih => rw [List.map_cons, List.sum_cons]; have := hf a; omega
  have := nn ((l.take j).drop i)
  omega

theorem seed_inv {e : Env} {id seed : Nat} {f : Nat → Option Nat} (hs : seed < e.g.n) (hf : f seed = none) :
    GrowInv e id (e.block seed) f ⟨f, [], [seed], 0, fun _ => 0, 0, 0⟩ := by
  refine ⟨fun v => by simp, List.nodup_nil, by simp, fun u hu => ?_, rfl, rfl, le_refl _, fun _ => rfl, fun h => absurd rfl h⟩
  rw [List.mem_singleton.1 (show u ∈ [seed] from hu)]
  exact ⟨hs, hf, rfl⟩

theorem getD_append_left' {l : List (List Nat)} {x : List Nat} {c : Nat} (h : c < l.length) : (l ++ [x]).getD c [] = l.getD c [] := by
  rw [List.getD_eq_getElem?_getD, List.getD_eq_getElem?_getD, List.getElem?_append_left h]

theorem finish_inv {e : Env} {m seed : Nat} {b : Built} {s : Grow} (V : e.Valid) (B : BuildInv e m b)
    (ho : e.over (e.block seed) = true) (I : GrowInv e b.sets.members.length (e.block seed) b.sets.clusterOf s) (hne : s.cur ≠ []) :
    BuildInv e m (finishCluster e b s) ∧ (∀ u c, b.sets.clusterOf u = some c → (finishCluster e b s).sets.clusterOf u = some c) ∧
      ∀ v ∈ s.cur.take (s.bestLen + 1), (finishCluster e b s).sets.clusterOf v = some b.sets.members.length := by
  obtain ⟨hb1, hw⟩ := I.some hne
  have gb := giveBack_at I
  have old : ∀ (u c : Nat), c < b.sets.members.length → (giveBack s u = some c ↔ b.sets.clusterOf u = some c) := fun u c hc => by
    rw [gb u]
    split
    · rename_i h
      rw [(I.cur u (List.mem_of_mem_take h)).2.1]
      exact ⟨fun h => by have := Option.some.inj h; omega, fun h => absurd h (by simp)⟩
    · rfl
  have new : ∀ u, giveBack s u = some b.sets.members.length ↔ u ∈ s.cur.take (s.bestLen + 1) := fun u => by
    rw [gb u]
    split
    · rename_i h; exact ⟨fun _ => h, fun _ => rfl⟩
    · rename_i h
      exact ⟨fun h' => by have := (B.named u _ h').1; omega, fun h' => absurd h' h⟩
  have keep : ∀ u c, b.sets.clusterOf u = some c → giveBack s u = some c := fun u c h => (old u c (B.named u c h).1).2 h
  have get : ∀ (c : Nat) (l : List Nat), (b.sets.members ++ [s.cur.take s.bestLen])[c]? = some l →
      (c < b.sets.members.length ∧ b.sets.members[c]? = some l) ∨ (c = b.sets.members.length ∧ l = s.cur.take s.bestLen) := by
    intro c l h
    rcases Nat.lt_trichotomy c b.sets.members.length with hc | hc | hc
    · rw [List.getElem?_append_left hc] at h; exact .inl ⟨hc, h⟩
    · subst hc
      rw [List.getElem?_append_right (le_refl _), Nat.sub_self] at h
      exact .inr ⟨rfl, (Option.some.inj h).symm⟩
    · rw [List.getElem?_eq_none (by simp; omega)] at h; exact absurd h (by simp)
  have sub : ∀ u ∈ s.cur.take s.bestLen, u ∈ s.cur.take (s.bestLen + 1) := fun u hu => by
    have h1 : s.cur.take s.bestLen = (s.cur.take (s.bestLen + 1)).take s.bestLen := by rw [List.take_take, min_eq_left (by omega)]
    rw [h1] at hu
    exact List.mem_of_mem_take hu
  have known : ∀ (l : List Nat), (∀ u ∈ l, u < e.g.n) → ∀ x ∈ l.flatMap e.g.adj, e.block x.1 < e.g.k := fun l hl x hx => by
    obtain ⟨u, hu, h⟩ := List.mem_flatMap.1 hx
    exact V.blocks x.1 (V.graph.known u (hl u hu) x h)
  have ownd : ∀ u ∈ s.cur.take s.bestLen, u < e.g.n := fun u hu => (I.cur u (List.mem_of_mem_take hu)).1
  refine ⟨⟨fun u c h => ?_, fun c l h => ?_, fun c l h u hu => ?_, fun c l h u hu v hv => ?_, fun c l h => ?_, fun c u v hu hv => ?_,
    fun u hu hov => ?_, fun c l h q hq => ?_⟩, keep, fun v hv => (new v).2 hv⟩
  · have h' : giveBack s u = some c := h
    show c < (b.sets.members ++ [s.cur.take s.bestLen]).length ∧ _
    rw [List.length_append, List.length_singleton]
    rw [gb u] at h'
    split at h'
    · rename_i hm
      obtain ⟨a1, _, a3⟩ := I.cur u (List.mem_of_mem_take hm)
      have := Option.some.inj h'
      exact ⟨by omega, a1, by rw [a3]; exact ho⟩
    · obtain ⟨a1, a2, a3⟩ := B.named u c h'
      exact ⟨by omega, a2, a3⟩
  · rcases get c l h with ⟨_, h⟩ | ⟨_, rfl⟩
    · exact B.nonempty c l h
    · refine ⟨fun h0 => ?_, I.nodup.sublist (List.take_sublist _ _)⟩
      rcases List.take_eq_nil_iff.1 h0 with h0 | h0
      · omega
      · exact hne h0
  · rcases get c l h with ⟨_, h⟩ | ⟨rfl, rfl⟩
    · obtain ⟨a1, a2⟩ := B.mem c l h u hu
      exact ⟨a1, keep u c a2⟩
    · exact ⟨ownd u hu, (new u).2 (sub u hu)⟩
  · rcases get c l h with ⟨_, h⟩ | ⟨rfl, rfl⟩
    · exact B.same c l h u hu v hv
    · rw [(I.cur u (List.mem_of_mem_take hu)).2.2, (I.cur v (List.mem_of_mem_take hv)).2.2]
  · rcases get c l h with ⟨_, h⟩ | ⟨rfl, rfl⟩
    · exact B.weight c l h
    · refine lt_of_le_of_lt ?_ hw
      rw [List.dropLast_eq_take, List.dropLast_eq_take, List.take_take, List.length_take]
      exact sum_prefix_le V.weights _ _ _ (by have := I.best; omega)
  · have hc : c < b.sets.members.length ∨ c = b.sets.members.length := by
      have h' : giveBack s u = some c := hu.1
      rw [gb u] at h'
      split at h'
      · exact .inr (Option.some.inj h').symm
      · exact .inl (B.named u c h').1
    rcases hc with hc | hc
    · have tr : ∀ w, LeftOut (finishCluster e b s).sets c w → LeftOut b.sets c w := fun w hw => by
        refine ⟨(old w c hc).1 hw.1, fun h => hw.2 ?_⟩
        show w ∈ (b.sets.members ++ [s.cur.take s.bestLen]).getD c []
        rw [getD_append_left' hc]; exact h
      exact B.left c u v (tr u hu) (tr v hv)
    · subst hc
      have idx : ∀ w, LeftOut (finishCluster e b s).sets b.sets.members.length w → s.cur[s.bestLen]? = some w := fun w hw => by
        have h1 := (new w).1 hw.1
        have h2 : w ∉ s.cur.take s.bestLen := fun h => hw.2 (by
          show w ∈ (b.sets.members ++ [s.cur.take s.bestLen]).getD b.sets.members.length []
          rw [List.getD_eq_getElem?_getD, List.getElem?_append_right (le_refl _), Nat.sub_self]; exact h)
        rw [List.take_add_one] at h1
        rcases List.mem_append.1 h1 with h | h
        · exact absurd h h2
        · cases hx : s.cur[s.bestLen]? with
          | none => rw [hx] at h; exact absurd h (by simp)
          | some y => rw [hx] at h; simp at h; rw [h]
      exact Option.some.inj ((idx u hu).symm.trans (idx v hv))
  · obtain ⟨c, h⟩ := B.cover u hu hov
    exact ⟨c, keep u c h⟩
  · show ((s.cur.take s.bestLen).flatMap e.g.adj).foldl (rowStep e b.sets.members.length (giveBack s))
      (zeroRow e.g.k b.conns b.sets.members.length) (c * e.g.k + q) = _
    rw [rowSteps_at hq _ _ (known _ ownd), zeroRow_at _ hq]
    rcases get c l h with ⟨hc, h⟩ | ⟨rfl, rfl⟩
    · rw [if_neg (by omega), if_neg (by omega), add_zero, B.conns c l h q hq]
      refine sum_map_congr fun x _ => ?_
      show _ = if ¬ (x.1 < e.g.n ∧ giveBack s x.1 = some c) ∧ e.block x.1 = q then x.2 else 0
      simp only [old x.1 c hc]
    · rw [if_pos rfl, if_pos rfl, zero_add]; rfl

theorem buildStep_inv {e : Env} {m : Nat} {b : Built} (V : e.Valid) (hm : m < e.g.n) (B : BuildInv e m b) :
    ∃ b', buildStep? e b m = some b' ∧ BuildInv e (m + 1) b' := by
  unfold buildStep?
  by_cases h : e.over (e.block m) = true ∧ b.sets.clusterOf m = none
  · rw [if_pos h]
    obtain ⟨s, h1, I, _, h5⟩ := growLoop_ok (V.blocks m (by omega)) e.g.n _
      (seed_inv (id := b.sets.members.length) hm h.2) (Nat.le_add_right _ _)
    obtain ⟨t, ht⟩ := h5 V.limit (V.starts _) m rfl
    have ht' : s.cur = m :: t := ht.symm
    obtain ⟨F, keep, new⟩ := finish_inv V B h.1 I (by rw [ht']; simp)
    refine ⟨finishCluster e b s, ?_, { F with cover := fun u hu ho => ?_ }⟩
    · unfold growCluster?; rw [h1]; rfl
    · rcases Nat.lt_succ_iff_lt_or_eq.1 hu with hu | rfl
      · exact F.cover u hu ho
      · exact ⟨_, new u (by rw [ht', List.take_succ_cons]; exact List.mem_cons_self ..)⟩
  · rw [if_neg h]
    refine ⟨b, rfl, { B with cover := fun u hu ho => ?_ }⟩
    rcases Nat.lt_succ_iff_lt_or_eq.1 hu with hu | rfl
    · exact B.cover u hu ho
    · cases hc : b.sets.clusterOf u with
      | none => exact absurd ⟨ho, hc⟩ h
      | some c => exact ⟨c, rfl⟩

theorem build_inv {e : Env} (V : e.Valid) (junk : Nat → Int) : ∃ b, build? e junk = some b ∧ BuildInv e e.g.n b := by
  unfold build?
  suffices h : ∀ m ≤ e.g.n, ∃ b, (List.range m).foldlM (buildStep? e) ⟨⟨[], fun _ => none⟩, junk⟩ = some b ∧ BuildInv e m b from
    h e.g.n (le_refl _)
  intro m
  induction m with
  | zero =>
    intro _
    refine ⟨_, rfl, ⟨by simp, by simp, by simp, by simp, by simp, fun c u v hu => ?_, fun u hu => by omega, by simp⟩⟩
    exact absurd hu.1 (by simp)
  | succ m ih =>
    intro hm
    obtain ⟨b, h1, B⟩ := ih (by omega)
    obtain ⟨b', h2, B'⟩ := buildStep_inv V (by omega) B
    refine ⟨b', ?_, B'⟩
    rw [List.range_succ, List.foldlM_append, h1]
    show (buildStep? e b m >>= fun s => some s) = some b'
    rw [h2]; rfl

end Verif.ClusterBalancer

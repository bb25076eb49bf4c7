import Verif.Blocks.Props
import Verif.Subgraph.Extract

/-! Lemmas: recursive bisection. -/

namespace Verif.Subgraph
open Verif.Contraction Verif.Blocks Verif.Math

/-! ## The labels of the specification -/

theorem label_range (bip : LGraph → Nat → Nat → Nat → Nat) : ∀ (fuel : Nat) (g : LGraph) (b k rel numSub u : Nat),
    1 ≤ numSub → rel ≤ label bip fuel g b k rel numSub u ∧ label bip fuel g b k rel numSub u < rel + numSub
  | 0, _, _, _, rel, numSub, _, h => by simp only [label]; omega
  | fuel + 1, g, b, k, rel, numSub, u, h => by
    simp only [label]
    split
    · omega
    · split
      · have := label_range bip fuel (induced g (bip g b k) 0) (2 * b) (2 * k) rel ((numSub + 1) / 2)
          (rank (bip g b k) u) (by omega)
        omega
      · have := label_range bip fuel (induced g (bip g b k) 1) (2 * b + 1) (2 * k) (rel + (numSub + 1) / 2)
          (numSub / 2) (rank (bip g b k) u) (by omega)
        omega

theorem label_path (bip : LGraph → Nat → Nat → Nat → Nat) : ∀ (fuel : Nat) (g : LGraph) (b k rel numSub u v : Nat),
    1 ≤ numSub → numSub ≤ fuel →
    (label bip fuel g b k rel numSub u = label bip fuel g b k rel numSub v ↔
      path bip fuel g b k numSub u = path bip fuel g b k numSub v)
  | 0, _, _, _, rel, numSub, _, _, h1, h2 => by omega
  | fuel + 1, g, b, k, rel, numSub, u, v, h1, h2 => by
    simp only [label, path]
    by_cases hn : numSub ≤ 1
    · simp [hn]
    · simp only [if_neg hn]
      have r0 := fun u => label_range bip fuel (induced g (bip g b k) 0) (2 * b) (2 * k) rel ((numSub + 1) / 2)
          (rank (bip g b k) u) (by omega)
      have r1 := fun u => label_range bip fuel (induced g (bip g b k) 1) (2 * b + 1) (2 * k) (rel + (numSub + 1) / 2)
          (numSub / 2) (rank (bip g b k) u) (by omega)
      by_cases hu : bip g b k u = 0 <;> by_cases hv : bip g b k v = 0
      · rw [if_pos hu, if_pos hv, if_pos hu, if_pos hv]
        rw [label_path bip fuel _ _ _ _ _ _ _ (by omega) (by omega)]
        simp
      · rw [if_pos hu, if_neg hv, if_pos hu, if_neg hv]
        have := r0 u
        have := r1 v
        constructor
        · intro h; omega
        · intro h; simp at h
      · rw [if_neg hu, if_pos hv, if_neg hu, if_pos hv]
        have := r0 v
        have := r1 u
        constructor
        · intro h; omega
        · intro h; simp at h
      · rw [if_neg hu, if_neg hv, if_neg hu, if_neg hv]
        rw [label_path bip fuel _ _ _ _ _ _ _ (by omega) (by omega)]
        simp

/-! ## Relabelling -/

theorem relabel_self (rel : Nat) : ∀ (p : List Nat) (c : Nat), relabel rel (fun _ => rel) p c = p
  | [], _ => rfl
  | a :: p, c => by
    simp only [relabel]
    split
    · rename_i h; rw [relabel_self rel p, h]
    · rw [relabel_self rel p]

theorem relabel_congr {rel : Nat} {f f' : Nat → Nat} (h : ∀ u, f u = f' u) (p : List Nat) (c : Nat) :
    relabel rel f p c = relabel rel f' p c := by
  rw [funext h]

theorem relabel_two {rel rel1 : Nat} (hne : rel ≠ rel1) {side L0 L1 : Nat → Nat} (hside : ∀ u, side u < 2)
    (hL0 : ∀ u, L0 u ≠ rel1) : ∀ (p : List Nat) (u : Nat), (∀ x ∈ p, x ≠ rel1) →
    relabel rel1 L1 (relabel rel L0 (relabel rel (fun u => if side u = 0 then rel else rel1) p u) (bsize u side 0))
      (bsize u side 1) = relabel rel (fun u => if side u = 0 then L0 (rank side u) else L1 (rank side u)) p u
  | [], _, _ => rfl
  | a :: p, u, hp => by
    have ih := relabel_two hne hside hL0 (L1 := L1) p
    have ha := hp a List.mem_cons_self
    have hp' : ∀ x ∈ p, x ≠ rel1 := fun x hx => hp x (List.mem_cons_of_mem _ hx)
    simp only [relabel]
    by_cases hr : a = rel
    · rw [if_pos hr, if_pos hr]
      have i := ih (u + 1) hp'
      rw [bsize_succ, bsize_succ] at i
      by_cases hs : side u = 0
      · rw [if_pos hs, if_pos hs]
        rw [if_pos hs, if_neg (by omega)] at i
        simp only [relabel]
        rw [if_pos trivial]
        simp only [relabel]
        rw [if_neg (hL0 _), rank_eq, hs]
        exact congrArg _ i
      · have hs1 : side u = 1 := by have := hside u; omega
        rw [if_neg hs, if_neg hs]
        rw [if_neg hs, if_pos hs1] at i
        simp only [relabel]
        rw [if_neg (Ne.symm hne)]
        simp only [relabel]
        rw [if_pos trivial, rank_eq, hs1]
        exact congrArg _ i
    · rw [if_neg hr, if_neg hr]
      simp only [relabel]
      rw [if_neg hr]
      simp only [relabel]
      rw [if_neg ha, ih u hp']

theorem mem_relabel {rel : Nat} {f : Nat → Nat} {x : Nat} : ∀ {p : List Nat} {c : Nat}, x ∈ relabel rel f p c →
    x ∈ p ∨ ∃ u, x = f u
  | [], _, h => absurd h List.not_mem_nil
  | a :: p, c, h => by
    simp only [relabel] at h
    split at h
    · rcases List.mem_cons.1 h with rfl | h
      · exact Or.inr ⟨_, rfl⟩
      · rcases mem_relabel h with h | h
        · exact Or.inl (List.mem_cons_of_mem _ h)
        · exact Or.inr h
    · rcases List.mem_cons.1 h with rfl | h
      · exact Or.inl List.mem_cons_self
      · rcases mem_relabel h with h | h
        · exact Or.inl (List.mem_cons_of_mem _ h)
        · exact Or.inr h

theorem relabel_replicate (rel : Nat) (f : Nat → Nat) : ∀ (n c : Nat),
    relabel rel f (List.replicate n rel) c = (List.range' c n).map f
  | 0, _ => rfl
  | n + 1, c => by
    rw [List.replicate_succ]
    simp only [relabel]
    rw [if_pos trivial, relabel_replicate rel f n, List.range'_succ, List.map_cons]

/-! ## The block tree -/

theorem treeLabel_left (k l b : Nat) : treeLabel k (l + 1) (2 * b) = (treeLabel k l b + 1) / 2 := by
  simp only [treeLabel]; rw [if_pos (by omega), show 2 * b / 2 = b by omega]

theorem treeLabel_right (k l b : Nat) : treeLabel k (l + 1) (2 * b + 1) = treeLabel k l b / 2 := by
  simp only [treeLabel]; rw [if_neg (by omega), show (2 * b + 1) / 2 = b by omega]

theorem finalKRoot_eq {k l b : Nat} (hk : k < 2 ^ 31) (hl : 2 ^ l ≤ k) (hb : b < 2 ^ l) :
    finalKRoot? b (2 ^ l) k = some (treeLabel k l b) := by
  have hl31 : l < 31 := (Nat.pow_lt_pow_iff_right (by decide)).1 (Nat.lt_of_le_of_lt hl hk)
  unfold finalKRoot?
  by_cases h : l = 0
  · subst h
    simp [treeLabel]
  · have : 2 ^ l ≠ 1 := by
      have := Nat.pow_le_pow_right (n := 2) (by omega) (show 1 ≤ l by omega)
      omega
    rw [if_neg this, finalK_eq k l b hl31 (by omega) hl hb]

/-- A block that is split into at least three blocks has two children in the tree. -/
theorem two_lt_of_label {k l b : Nat} (hb : b < 2 ^ l) (h : 2 < treeLabel k l b) : 2 * 2 ^ l < k := by
  rw [treeLabel_eq k l b hb] at h
  have hpos := Nat.two_pow_pos l
  have hdm := Nat.div_add_mod k (2 ^ l)
  generalize hq : k / 2 ^ l = q at *
  generalize hr : k % 2 ^ l = r at *
  generalize hP : 2 ^ l = P at *
  have hq2 : 2 ≤ q := by split at h <;> omega
  have hmul : P * 2 ≤ P * q := Nat.mul_le_mul_left P hq2
  by_cases h3 : q = 2
  · subst h3
    split at h
    · rename_i h'
      have : 0 < r := by omega
      omega
    · omega
  · have hmul : P * 3 ≤ P * q := Nat.mul_le_mul_left P (by omega)
    omega

/-! ## The recursion -/

theorem bedges_two (g : LGraph) (part : Nat → Nat) : bedges g part 0 + bedges g part 1 ≤ g.m := by
  have := psum_bedges g part 2
  simpa [psum, List.range_succ] using this

theorem bsize_two {n : Nat} {part : Nat → Nat} (h : ∀ u, part u < 2) : bsize n part 0 + bsize n part 1 = n := by
  have := psum_bsize (k := 2) (n := n) (part := part) fun u _ => h u
  simpa [psum, List.range_succ] using this

/-- Enough memory for the recursion on `g` in the area of `v`. -/
structure Room (s : Sizes) (v : View) (g : LGraph) (c : Nat) : Prop where
  nodes : v.npos + (g.length + c) ≤ s.nodes
  edges : v.epos + g.m ≤ s.edges
  nw : g.nodeWeighted = true → v.npos + (g.length + c) ≤ s.nw
  ew : g.edgeWeighted = true → v.epos + g.m ≤ s.ew

/-- What a call of the recursion does to the memory. -/
structure Effect (v : View) (g : LGraph) (c : Nat) (ms ms' : Mems) : Prop where
  frame : ∀ x, ¬ Area v.npos v.epos (g.length + c) g.m x → ms'.mem.cell x = ms.mem.cell x
  size : ms'.mem.size = ms.mem.size
  ok : ms.mem.ok = true → Room ms.mem.size v g c → ms'.mem.ok = true
  tmp : ms.tmp.ok = true → ms'.tmp.ok = true

theorem Effect.refl (v : View) (g : LGraph) (c : Nat) (ms : Mems) : Effect v g c ms ms :=
  ⟨fun _ _ => rfl, rfl, fun h _ => h, fun h => h⟩

theorem extendRec_spec {inputK : Nat} (hk : inputK < 2 ^ 31) {bip : LGraph → Nat → Nat → Nat → Nat}
    (hbip : ∀ g b k u, bip g b k u < 2) (map0 : Nat → Nat) :
    ∀ (fuel : Nat) (v : View) (g : LGraph) (rel abs l numSub : Nat) (partition : List Nat) (ms : Mems),
    Held ms.mem.cell v g → g.WF → g.Positive → 2 ^ l ≤ inputK → abs < 2 ^ l → 2 ≤ numSub → numSub ≤ fuel →
    numSub ≤ treeLabel inputK l abs → (∀ x ∈ partition, ¬ (rel < x ∧ x < rel + numSub)) →
    ∃ ms', extendRec inputK bip map0 fuel v rel abs numSub (2 ^ l) partition ms =
        some (relabel rel (label bip fuel g abs (2 ^ l) rel numSub) partition 0, ms') ∧
      Effect v g (treeLabel inputK l abs) ms ms'
  | 0, _, _, _, _, _, numSub, _, _, _, _, _, _, _, h2, hf, _, _ => by omega
  | fuel + 1, v, g, rel, abs, l, numSub, partition, ms, hv, hwf, hp, hl, habs, h2, hf, hfk, hpart => by
    have hg := hv.graph hp
    have hl31 : l < 31 := (Nat.pow_lt_pow_iff_right (by decide)).1 (Nat.lt_of_le_of_lt hl hk)
    have habs0 : ∃ abs0, (if 2 * 2 ^ l ≥ inputK then firstSubBlock? abs (2 ^ l) inputK else some (2 * abs)) =
        some abs0 ∧ (2 < numSub → abs0 = 2 * abs) := by
      by_cases h : 2 * 2 ^ l ≥ inputK
      · rw [if_pos h, firstSubBlock_eq inputK l abs hl31 habs]
        exact ⟨_, rfl, fun h' => absurd (two_lt_of_label habs (Nat.lt_of_lt_of_le h' hfk)) (by omega)⟩
      · rw [if_neg h]; exact ⟨_, rfl, fun _ => rfl⟩
    obtain ⟨abs0, ha1, ha2⟩ := habs0
    have hfin := finalKRoot_eq hk hl habs
    have hL0r := fun u => label_range bip fuel (induced g (bip g abs (2 ^ l)) 0) (2 * abs) (2 * 2 ^ l) rel
      ((numSub + 1) / 2) u (by omega)
    have hcomb := relabel_two (rel := rel) (rel1 := rel + (numSub + 1) / 2) (by omega)
      (side := bip g abs (2 ^ l))
      (L0 := label bip fuel (induced g (bip g abs (2 ^ l)) 0) (2 * abs) (2 * 2 ^ l) rel ((numSub + 1) / 2))
      (L1 := label bip fuel (induced g (bip g abs (2 ^ l)) 1) (2 * abs + 1) (2 * 2 ^ l) (rel + (numSub + 1) / 2)
        (numSub / 2)) (hbip g abs (2 ^ l)) (fun u => by have := hL0r u; omega) partition 0
      (fun x hx h => hpart x hx (by omega))
    have hz : ∀ b, bsize 0 (bip g abs (2 ^ l)) b = 0 := fun _ => rfl
    rw [hz, hz] at hcomb
    have hlab : (fun u => if bip g abs (2 ^ l) u = 0 then
        label bip fuel (induced g (bip g abs (2 ^ l)) 0) (2 * abs) (2 * 2 ^ l) rel ((numSub + 1) / 2)
          (rank (bip g abs (2 ^ l)) u) else
        label bip fuel (induced g (bip g abs (2 ^ l)) 1) (2 * abs + 1) (2 * 2 ^ l) (rel + (numSub + 1) / 2)
          (numSub / 2) (rank (bip g abs (2 ^ l)) u)) = label bip (fuel + 1) g abs (2 ^ l) rel numSub := by
      funext u
      simp only [label]
      rw [if_neg (by omega : ¬ numSub ≤ 1)]
    rw [hlab] at hcomb
    have hone : ∀ (g : LGraph) (b k rel numSub : Nat), numSub ≤ 1 → label bip fuel g b k rel numSub = fun _ => rel := by
      intro g b k rel numSub h
      funext u
      cases fuel with
      | zero => rfl
      | succ fuel => simp only [label]; rw [if_pos h]
    generalize hside : bip g abs (2 ^ l) = side at *
    have hs2 : ∀ u, side u < 2 := by rw [← hside]; exact hbip g abs (2 ^ l)
    generalize hP1 : relabel rel (fun u => if side u = 0 then rel else rel + (numSub + 1) / 2) partition 0 = P1 at *
    have hunf : extendRec inputK bip map0 (fuel + 1) v rel abs numSub (2 ^ l) partition ms =
        (if numSub > 2 then
          let r := extractSeq g side ((treeLabel inputK l abs + 1) / 2) (treeLabel inputK l abs / 2) v.npos v.epos
            ms.mem ms.tmp map0
          (if (numSub + 1) / 2 ≤ 1 then some (P1, (⟨r.1, r.2.1⟩ : Mems)) else
            extendRec inputK bip map0 fuel r.2.2.1 rel abs0 ((numSub + 1) / 2) (nextK (2 ^ l) inputK) P1
              ⟨r.1, r.2.1⟩).bind fun q =>
          if numSub / 2 ≤ 1 then some q else
            extendRec inputK bip map0 fuel r.2.2.2 (rel + (numSub + 1) / 2) (abs0 + 1) (numSub / 2)
              (nextK (2 ^ l) inputK) q.1 q.2
        else some (P1, ms)) := by
      by_cases q1 : 2 * 2 ^ l ≥ inputK
      · rw [if_pos q1] at ha1
        by_cases q2 : (numSub + 1) / 2 ≤ 1 <;>
          simp only [extendRec, hg, hside, splitIntegral, if_pos q1, ha1, hfin, hP1, q2, if_true, if_false,
            Option.bind_eq_bind, Option.bind_some]
      · rw [if_neg q1] at ha1
        cases ha1
        by_cases q2 : (numSub + 1) / 2 ≤ 1 <;>
          simp only [extendRec, hg, hside, splitIntegral, if_neg q1, hfin, hP1, q2, if_true, if_false,
            Option.bind_eq_bind, Option.bind_some]
    rw [hunf]
    by_cases h3 : numSub > 2
    · rw [if_pos h3]
      have hak := two_lt_of_label habs (Nat.lt_of_lt_of_le h3 hfk)
      have hnk : nextK (2 ^ l) inputK = 2 ^ (l + 1) := by
        unfold nextK
        rw [Nat.mod_eq_of_lt (by omega), Nat.min_eq_left (by omega), ← Nat.pow_succ]
      rw [hnk, ha2 h3]
      have hpow : 2 * 2 ^ l = 2 ^ (l + 1) := by rw [Nat.pow_succ]; omega
      rw [hpow] at hcomb hL0r
      have hl1 : 2 ^ (l + 1) ≤ inputK := by omega
      have tl := treeLabel_left inputK l abs
      have tr := treeLabel_right inputK l abs
      generalize hT : treeLabel inputK l abs = T at *
      obtain ⟨e1, e2, e3, e4, e5, e6, e7, e8, _⟩ := extractSeq_spec hwf hp (part := side) (fun u _ => hs2 u)
        (k0 := (T + 1) / 2) (k1 := T / 2) (by omega) (by omega) v.npos v.epos ms.mem ms.tmp map0
      have hTT : (T + 1) / 2 + T / 2 = T := by omega
      rw [hTT] at e5 e7
      have hbe := bedges_two g side
      have hbs := bsize_two (n := g.length) hs2
      generalize extractSeq g side ((T + 1) / 2) (T / 2) v.npos v.epos ms.mem ms.tmp map0 = r at *
      dsimp only
      have hlen0 := length_induced g side 0
      have hlen1 := length_induced g side 1
      have hm0 := induced_m g side 0
      have hm1 := induced_m g side 1
      have n0 : r.2.2.1.npos = v.npos := by rw [e3]
      have n1 : r.2.2.2.npos = v.npos + (bsize g.length side 0 + (T + 1) / 2) := by rw [e4]
      have p0 : r.2.2.1.epos = v.epos := by rw [e3]
      have p1 : r.2.2.2.epos = v.epos + bedges g side 0 := by rw [e4]
      have m1 : r.2.2.2.m = bedges g side 1 := by rw [e4]
      have l1 : r.2.2.2.n = bsize g.length side 1 := by rw [e4]
      -- left
      have hleft : ∃ msL, (if (numSub + 1) / 2 ≤ 1 then some (P1, (⟨r.1, r.2.1⟩ : Mems)) else
            extendRec inputK bip map0 fuel r.2.2.1 rel (2 * abs) ((numSub + 1) / 2) (2 ^ (l + 1)) P1 ⟨r.1, r.2.1⟩) =
          some (relabel rel (label bip fuel (induced g side 0) (2 * abs) (2 ^ (l + 1)) rel ((numSub + 1) / 2)) P1 0,
            msL) ∧ Effect r.2.2.1 (induced g side 0) ((T + 1) / 2) ⟨r.1, r.2.1⟩ msL := by
        rw [if_neg (by omega)]
        obtain ⟨msL, h1, h2⟩ := extendRec_spec hk hbip map0 fuel r.2.2.1 (induced g side 0) rel (2 * abs) (l + 1)
          ((numSub + 1) / 2) P1 ⟨r.1, r.2.1⟩ e1 (induced_wf hwf side 0) (induced_positive hp side 0) hl1
          (by omega) (by omega) (by omega) (by rw [tl]; omega)
          (fun x hx h => by
            rw [← hP1] at hx
            rcases mem_relabel hx with h' | ⟨u, h'⟩
            · exact hpart x h' (by omega)
            · split at h' <;> omega)
        rw [tl] at h2
        exact ⟨msL, h1, h2⟩
      obtain ⟨msL, hL1, hL2⟩ := hleft
      rw [hL1]
      show ∃ ms', (if numSub / 2 ≤ 1 then _ else _) = _ ∧ _
      have heldR : Held msL.mem.cell r.2.2.2 (induced g side 1) := by
        refine e2.congr (c := bsize g.length side 1 + 1) (by omega) ?_
        intro x hx
        apply hL2.frame
        rw [n0, p0, hlen0, hm0]
        rw [n1, p1, m1] at hx
        cases x <;> simp only [Area] at hx ⊢ <;> omega
      have hright : ∃ msR, (if numSub / 2 ≤ 1 then
            some (relabel rel (label bip fuel (induced g side 0) (2 * abs) (2 ^ (l + 1)) rel ((numSub + 1) / 2)) P1 0,
              msL) else
            extendRec inputK bip map0 fuel r.2.2.2 (rel + (numSub + 1) / 2) (2 * abs + 1) (numSub / 2) (2 ^ (l + 1))
              (relabel rel (label bip fuel (induced g side 0) (2 * abs) (2 ^ (l + 1)) rel ((numSub + 1) / 2)) P1 0)
              msL) =
          some (relabel (rel + (numSub + 1) / 2) (label bip fuel (induced g side 1) (2 * abs + 1) (2 ^ (l + 1))
              (rel + (numSub + 1) / 2) (numSub / 2))
              (relabel rel (label bip fuel (induced g side 0) (2 * abs) (2 ^ (l + 1)) rel ((numSub + 1) / 2)) P1 0) 0,
            msR) ∧ Effect r.2.2.2 (induced g side 1) (T / 2) msL msR := by
        by_cases h4 : numSub / 2 ≤ 1
        · rw [if_pos h4, hone _ _ _ _ _ h4, relabel_self]
          exact ⟨msL, rfl, Effect.refl _ _ _ _⟩
        · rw [if_neg h4]
          obtain ⟨msR, h1, h2⟩ := extendRec_spec hk hbip map0 fuel r.2.2.2 (induced g side 1)
            (rel + (numSub + 1) / 2) (2 * abs + 1) (l + 1) (numSub / 2)
            (relabel rel (label bip fuel (induced g side 0) (2 * abs) (2 ^ (l + 1)) rel ((numSub + 1) / 2)) P1 0)
            msL heldR (induced_wf hwf side 1)
            (induced_positive hp side 1) hl1 (by omega) (by omega) (by omega) (by rw [tr]; omega)
            (fun x hx h => by
              rcases mem_relabel hx with h' | ⟨u, h'⟩
              · rw [← hP1] at h'
                rcases mem_relabel h' with h'' | ⟨u, h''⟩
                · exact hpart x h'' (by omega)
                · split at h'' <;> omega
              · have := hL0r u
                omega)
          rw [tr] at h2
          exact ⟨msR, h1, h2⟩
      obtain ⟨msR, hR1, hR2⟩ := hright
      refine ⟨msR, ?_, ?_⟩
      · rw [hcomb] at hR1
        exact hR1
      · refine ⟨?_, ?_, ?_, ?_⟩
        · intro x hx
          rw [hR2.frame, hL2.frame]
          · apply e5
            intro h
            apply hx
            cases x <;> simp only [Area] at h ⊢ <;> omega
          · intro h
            apply hx
            rw [n0, p0, hlen0, hm0] at h
            cases x <;> simp only [Area] at h ⊢ <;> omega
          · intro h
            apply hx
            rw [n1, p1, hlen1, hm1] at h
            cases x <;> simp only [Area] at h ⊢ <;> omega
        · rw [hR2.size, hL2.size]; exact e6
        · intro hok hroom
          obtain ⟨z1, z2, z3, z4⟩ := hroom
          have ok1 : r.1.ok = true := by
            apply e7 hok z1 (by omega) z3
            intro h; have := z4 h; omega
          have ok2 : msL.mem.ok = true := by
            apply hL2.ok ok1
            refine ⟨?_, ?_, ?_, ?_⟩
            · show _ ≤ r.1.size.nodes
              rw [n0, hlen0, e6]; omega
            · show _ ≤ r.1.size.edges
              rw [p0, hm0, e6]; omega
            · intro h
              have := z3 (induced_nodeWeighted hp h)
              show _ ≤ r.1.size.nw
              rw [n0, hlen0, e6]; omega
            · intro h
              have := z4 (induced_edgeWeighted hp h)
              show _ ≤ r.1.size.ew
              rw [p0, hm0, e6]; omega
          have hsz : msL.mem.size = ms.mem.size := by rw [hL2.size]; exact e6
          apply hR2.ok ok2
          rw [hsz]
          refine ⟨?_, ?_, ?_, ?_⟩
          · rw [n1, hlen1]; omega
          · rw [p1, hm1]; omega
          · intro h
            have := z3 (induced_nodeWeighted hp h)
            rw [n1, hlen1]; omega
          · intro h
            have := z4 (induced_edgeWeighted hp h)
            rw [p1, hm1]; omega
        · intro hok
          exact hR2.tmp (hL2.tmp (e8 hok))
    · rw [if_neg h3]
      refine ⟨ms, ?_, Effect.refl _ _ _ _⟩
      have : numSub = 2 := by omega
      subst this
      rw [hone _ _ _ _ _ (by omega), hone _ _ _ _ _ (by omega), relabel_self, relabel_self] at hcomb
      rw [hcomb]

end Verif.Subgraph

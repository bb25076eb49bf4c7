import Verif.Delta.Model
import Verif.DynMaps.Props
import Verif.Sum

/-!
# C21: delta partitions are a transparent overlay
-/

namespace Verif.Delta
open Finset Verif.DynMaps Verif.Maps

/-- Specification: the partition seen by a thread after its local operations. -/
def view (part : Nat → Nat) (ops : List Op) : Nat → Nat :=
  ops.foldl (fun v op => match op with
    | .setBlock u b => upd v u b
    | .clear => part) part

/-- Specification: the weight of a block. -/
def weight (n : Nat) (w : Nat → Int) (part : Nat → Nat) (b : Nat) : Int :=
  ∑ u ∈ range n, if part u = b then w u else 0

/-- The operation concerns an existing node and block. -/
def Op.ok (n k : Nat) : Op → Prop
  | .setBlock u b => u < n ∧ b < k
  | .clear => True

def numClears (ops : List Op) : Nat := ops.countP (· == Op.clear)

theorem weight_upd {n : Nat} (w : Nat → Int) (part : Nat → Nat) {u : Nat} (hu : u < n) (x b : Nat) :
    weight n w (upd part u x) b =
      weight n w part b - (if part u = b then w u else 0) + (if x = b then w u else 0) := by
  unfold weight
  exact sum_upd (range n) (fun v p => if p = b then w v else 0) part (mem_range.2 hu) x

/-- What the delta stores about the current view. -/
structure Inv (n : Nat) (w : Nat → Int) (part v : Nat → Nat) (d : Delta) (used : List Nat) : Prop where
  good : Good d.tab used
  stamp : 1 ≤ d.tab.stamp
  get : ∀ u, (match d.tab.abs u with
    | some b => b.toNat
    | none => part u) = v u
  nonneg : ∀ u b, d.tab.abs u = some b → 0 ≤ b
  bw : ∀ b, d.bw b = weight n w v b - weight n w part b

theorem Inv.block {n : Nat} {w : Nat → Int} {part v : Nat → Nat} {d : Delta} {used : List Nat}
    (h : Inv n w part v d used) (u : Nat) : d.block? part u = some (v u) := by
  unfold Delta.block?
  rw [(h.good.get_ok u).2]
  exact congrArg some (h.get u)

theorem Inv.set {n : Nat} {w : Nat → Int} {part v : Nat → Nat} {d : Delta} {used : List Nat}
    (h : Inv n w part v d used) {u : Nat} (hu : u < n) (b : Nat) :
    ∃ d' used', d.setBlock? w part u b = some d' ∧ Inv n w part (upd v u b) d' used' ∧
      (d'.tab.stamp = d.tab.stamp ∨ d'.tab.stamp = 1) := by
  obtain ⟨t', used', h1, h2, h3, h4⟩ := Flat.modify_ok h.good u fun _ => (b : Int)
  refine ⟨⟨upd (upd d.bw (v u) (d.bw (v u) - w u)) b (upd d.bw (v u) (d.bw (v u) - w u) b + w u), t'⟩,
    used', ?_, ?_, h3⟩
  · unfold Delta.setBlock?
    rw [h.block u]
    show (Flat.modify? d.tab u _ >>= _) = _
    rw [h1]; rfl
  · refine ⟨h2, ?_, ?_, ?_, ?_⟩
    · have := h.stamp; show 1 ≤ t'.stamp; omega
    · intro x
      show (match t'.abs x with | some b => b.toNat | none => part x) = _
      rw [h4]
      by_cases hx : x = u
      · subst hx; rw [upd_same, upd_same]; rfl
      · rw [upd_ne _ _ hx, upd_ne _ _ hx]; exact h.get x
    · intro x c hc
      have hc : t'.abs x = some c := hc
      rw [h4] at hc
      by_cases hx : x = u
      · subst hx; rw [upd_same] at hc; cases hc; omega
      · rw [upd_ne _ _ hx] at hc; exact h.nonneg x c hc
    · intro c
      show upd (upd d.bw (v u) (d.bw (v u) - w u)) b _ c = _
      rw [weight_upd w v hu]
      have := h.bw c
      have h6 := h.bw (v u)
      have h7 := h.bw b
      by_cases hcb : c = b
      · subst hcb
        rw [upd_same]
        by_cases hcv : c = v u
        · rw [hcv, upd_same]; simp; omega
        · rw [upd_ne _ _ hcv]; simp [Ne.symm hcv]; omega
      · rw [upd_ne _ _ hcb]
        by_cases hcv : c = v u
        · subst hcv; rw [upd_same]; simp [Ne.symm hcb]; omega
        · rw [upd_ne _ _ hcv]; simp [Ne.symm hcb, Ne.symm hcv]; omega

theorem run_inv {n k : Nat} {w : Nat → Int} {part : Nat → Nat} : ∀ (ops : List Op) (d : Delta) (v : Nat → Nat)
    (used : List Nat), Inv n w part v d used → d.tab.stamp + numClears ops < 2 ^ 64 →
    (∀ op ∈ ops, op.ok n k) →
    ∃ d' used', ops.foldlM (Delta.op w part) d = some d' ∧
      Inv n w part (ops.foldl (fun v op => match op with
        | .setBlock u b => upd v u b
        | .clear => part) v) d' used'
  | [], d, v, used, h, _, _ => ⟨d, used, rfl, h⟩
  | .setBlock u b :: ops, d, v, used, h, hs, hok => by
    obtain ⟨d', used', h1, h2, h3⟩ := h.set (hok _ List.mem_cons_self).1 b
    have hc : numClears (Op.setBlock u b :: ops) = numClears ops := by simp [numClears]
    have := h.stamp
    obtain ⟨d'', used'', h4, h5⟩ := run_inv ops d' _ used' h2 (by omega) fun op ho => hok op (List.mem_cons_of_mem _ ho)
    refine ⟨d'', used'', ?_, h5⟩
    rw [List.foldlM_cons]
    show (d.setBlock? w part u b >>= _) = _
    rw [h1]; exact h4
  | .clear :: ops, d, v, used, h, hs, hok => by
    have hc : numClears (Op.clear :: ops) = numClears ops + 1 := by simp [numClears]
    obtain ⟨h1, h2, h3⟩ := Flat.clear_ok h.good (by omega)
    have hi : Inv n w part part d.clear [] := by
      refine ⟨h1, ?_, ?_, ?_, ?_⟩
      · show 1 ≤ (Flat.clear d.tab).stamp; omega
      · intro u
        show (match (Flat.clear d.tab).abs u with | some b => b.toNat | none => part u) = _
        rw [h2]
      · intro u b hb
        have hb : (Flat.clear d.tab).abs u = some b := hb
        rw [h2] at hb; cases hb
      · intro b; show 0 = _; omega
    have : d.clear.tab.stamp = d.tab.stamp + 1 := h3
    obtain ⟨d'', used'', h4, h5⟩ := run_inv ops d.clear part [] hi (by omega) fun op ho => hok op (List.mem_cons_of_mem _ ho)
    exact ⟨d'', used'', by rw [List.foldlM_cons]; exact h4, h5⟩

theorem Inv.new (n : Nat) (w : Nat → Int) (part : Nat → Nat) : Inv n w part part Delta.new [] := by
  have hn : (Table.new 16).abs = fun _ => none := (Core.new (by omega)).2
  refine ⟨good_new, Nat.le_refl _, ?_, ?_, ?_⟩
  · intro u
    show (match (Table.new 16).abs u with | some b => b.toNat | none => part u) = _
    rw [hn]
  · intro u b hb
    have hb : (Table.new 16).abs u = some b := hb
    rw [hn] at hb; cases hb
  · intro b; show 0 = _; omega

/-- Applying moves to the shared partition one after the other. -/
theorem apply_spec {n : Nat} {w : Nat → Int} : ∀ (l : List (Nat × Nat)) (s : Shared), (l.map Prod.fst).Nodup →
    (∀ e ∈ l, e.1 < n) → (∀ b, s.bw b = weight n w s.part b) →
    (∀ e ∈ l, (l.foldl (Shared.setBlock w) s).part e.1 = e.2) ∧
      (∀ u, u ∉ l.map Prod.fst → (l.foldl (Shared.setBlock w) s).part u = s.part u) ∧
      ∀ b, (l.foldl (Shared.setBlock w) s).bw b = weight n w (l.foldl (Shared.setBlock w) s).part b
  | [], s, _, _, hb => ⟨fun e he => absurd he List.not_mem_nil, fun _ _ => rfl, hb⟩
  | e :: l, s, hn, hl, hb => by
    rw [List.map_cons, List.nodup_cons] at hn
    have hb' : ∀ b, (s.setBlock w e).bw b = weight n w (s.setBlock w e).part b := by
      intro c
      show upd (upd s.bw (s.part e.1) (s.bw (s.part e.1) - w e.1)) e.2 _ c = weight n w (upd s.part e.1 e.2) c
      rw [weight_upd w s.part (hl e List.mem_cons_self)]
      have := hb c
      have h6 := hb (s.part e.1)
      by_cases hcb : c = e.2
      · subst hcb
        rw [upd_same]
        by_cases hcv : e.2 = s.part e.1
        · rw [hcv, upd_same]; simp; omega
        · rw [upd_ne _ _ hcv]; simp [Ne.symm hcv]; omega
      · rw [upd_ne _ _ hcb]
        by_cases hcv : c = s.part e.1
        · subst hcv; rw [upd_same]; simp [Ne.symm hcb]; omega
        · rw [upd_ne _ _ hcv]; simp [Ne.symm hcb, Ne.symm hcv]; omega
    obtain ⟨h1, h2, h3⟩ := apply_spec l (s.setBlock w e) hn.2 (fun x hx => hl x (List.mem_cons_of_mem _ hx)) hb'
    refine ⟨?_, ?_, h3⟩
    · intro x hx
      rcases List.mem_cons.1 hx with rfl | hx
      · rw [List.foldl_cons, h2 _ hn.1]
        show upd s.part x.1 x.2 x.1 = _
        rw [upd_same]
      · exact h1 x hx
    · intro u hu
      rw [List.map_cons, List.mem_cons, not_or] at hu
      rw [List.foldl_cons, h2 u hu.2]
      show upd s.part e.1 e.2 u = _
      rw [upd_ne _ _ hu.1]

/-- The nodes stored in the delta were moved. -/
theorem mem_of_abs {n k : Nat} {w : Nat → Int} {part : Nat → Nat} : ∀ (ops : List Op) (d d' : Delta)
    (v : Nat → Nat) (used : List Nat), Inv n w part v d used → (∀ u, d.tab.abs u ≠ none → u < n) →
    d.tab.stamp + numClears ops < 2 ^ 64 → (∀ op ∈ ops, op.ok n k) →
    ops.foldlM (Delta.op w part) d = some d' → ∀ u, d'.tab.abs u ≠ none → u < n
  | [], d, d', v, used, _, hd, _, _, hr => by cases hr; exact hd
  | .setBlock x b :: ops, d, d', v, used, h, hd, hs, hok, hr => by
    have hx := (hok _ List.mem_cons_self).1
    obtain ⟨d1, used1, h1, h2, h3⟩ := h.set hx b
    have hc : numClears (Op.setBlock x b :: ops) = numClears ops := by simp [numClears]
    have := h.stamp
    have hr' : (d.setBlock? w part x b >>= fun d => ops.foldlM (Delta.op w part) d) = some d' := hr
    rw [h1] at hr'
    refine mem_of_abs ops d1 d' _ used1 h2 ?_ (by omega) (fun op ho => hok op (List.mem_cons_of_mem _ ho)) hr'
    intro u hu
    obtain ⟨t', _, g1, _, _, g4⟩ := Flat.modify_ok h.good x fun _ => (b : Int)
    have : d1.tab = t' := by
      unfold Delta.setBlock? at h1
      rw [h.block x] at h1
      have h1 : (Flat.modify? d.tab x _ >>= _) = some d1 := h1
      rw [g1] at h1
      cases h1; rfl
    rw [this, g4] at hu
    by_cases hux : u = x
    · subst hux; exact hx
    · rw [upd_ne _ _ hux] at hu; exact hd u hu
  | .clear :: ops, d, d', v, used, h, hd, hs, hok, hr => by
    have hc : numClears (Op.clear :: ops) = numClears ops + 1 := by simp [numClears]
    obtain ⟨h1, h2, h3⟩ := Flat.clear_ok h.good (by omega)
    have hi : Inv n w part part d.clear [] := by
      refine ⟨h1, ?_, ?_, ?_, ?_⟩
      · show 1 ≤ (Flat.clear d.tab).stamp; omega
      · intro u
        show (match (Flat.clear d.tab).abs u with | some b => b.toNat | none => part u) = _
        rw [h2]
      · intro u b hb
        have hb : (Flat.clear d.tab).abs u = some b := hb
        rw [h2] at hb; cases hb
      · intro b; show 0 = _; omega
    have : d.clear.tab.stamp = d.tab.stamp + 1 := h3
    refine mem_of_abs ops d.clear d' part [] hi ?_ (by omega) (fun op ho => hok op (List.mem_cons_of_mem _ ho)) hr
    intro u hu
    have hu : (Flat.clear d.tab).abs u ≠ none := hu
    rw [h2] at hu; exact absurd rfl hu

/-- **C21.**  After every history of local moves and (fewer than `2^64 - 1`) clears the delta partition
reports for every node the block after the local moves since the last clear, and for every block its weight
in that partition.  Applying its entries to the shared partition, in any order, makes the shared partition
equal to what the delta reported, with correct weights. -/
theorem C21_overlay (n k : Nat) (w : Nat → Int) (s : Shared) (hbw : ∀ b, b < k → s.bw b = weight n w s.part b)
    (hpart : ∀ u, u < n → s.part u < k)
    (ops : List Op) (hops : ∀ op ∈ ops, op.ok n k) (hclr : numClears ops + 1 < 2 ^ 64) :
    ∃ d, ops.foldlM (Delta.op w s.part) Delta.new = some d ∧
      (∀ u, u < n → d.block? s.part u = some (view s.part ops u)) ∧
      (∀ b, b < k → d.blockWeight s.bw b = weight n w (view s.part ops) b) ∧
      ∀ l : List (Nat × Nat), l.Perm d.forEach →
        (∀ u, u < n → (l.foldl (Shared.setBlock w) s).part u = view s.part ops u) ∧
        ∀ b, b < k → (l.foldl (Shared.setBlock w) s).bw b = weight n w (view s.part ops) b := by
  obtain ⟨d, used, h1, h2⟩ := run_inv (n := n) (k := k) (w := w) ops Delta.new s.part []
    (Inv.new n w s.part) (by show 1 + _ < _; omega) hops
  have hmem := mem_of_abs (n := n) (k := k) (w := w) ops Delta.new d s.part []
    (Inv.new n w s.part) (by
      intro u hu
      have hu : (Table.new 16).abs u ≠ none := hu
      rw [(Core.new (by omega)).2] at hu; exact absurd rfl hu) (by show 1 + _ < _; omega) hops h1
  have hview : ∀ u, u < n → view s.part ops u < k := by
    have key : ∀ (ops : List Op) (v : Nat → Nat), (∀ op ∈ ops, op.ok n k) → (∀ u, u < n → v u < k) →
        ∀ u, u < n → ops.foldl (fun v op => match op with
          | .setBlock u b => upd v u b
          | .clear => s.part) v u < k := by
      intro ops
      induction ops with
      | nil => intro v _ hv; exact hv
      | cons op ops ih =>
        intro v hok hv
        rw [List.foldl_cons]
        refine ih _ (fun o ho => hok o (List.mem_cons_of_mem _ ho)) ?_
        intro u hu
        have h := hok op List.mem_cons_self
        cases op with
        | setBlock x b =>
          show upd v x b u < k
          by_cases hux : u = x
          · subst hux; rw [upd_same]; exact h.2
          · rw [upd_ne _ _ hux]; exact hv u hu
        | clear => exact hpart u hu
    exact key ops s.part hops hpart
  refine ⟨d, h1, fun u _ => h2.block u, ?_, ?_⟩
  · intro b hb
    unfold Delta.blockWeight
    rw [hbw b hb, h2.bw b]
    show _ = weight n w (view s.part ops) b
    unfold view
    omega
  · intro l hl
    have hlists := Flat.lists h2.good
    have hnd : (l.map Prod.fst).Nodup := by
      rw [(hl.map Prod.fst).nodup_iff]
      have : d.forEach.map Prod.fst = (Flat.forEach d.tab).map Prod.fst := by
        unfold Delta.forEach; rw [List.map_map]; rfl
      rw [this]; exact hlists.1
    have hmem2 : ∀ u b, (u, b) ∈ l ↔ d.tab.abs u = some (b : Int) := by
      intro u b
      rw [hl.mem_iff]
      unfold Delta.forEach
      rw [List.mem_map]
      constructor
      · rintro ⟨⟨u', c⟩, h3, h4⟩
        have h5 := (hlists.2 u' c).1 h3
        have h6 := h2.nonneg u' c h5
        cases h4
        rw [h5]; congr 1; simp; omega
      · intro h3
        exact ⟨(u, b), (hlists.2 u b).2 h3, by simp⟩
    -- extend the weights to all blocks
    have hs' := apply_spec (n := n) (w := w) l { s with bw := weight n w s.part } hnd (fun e he => by
      apply hmem
      rw [(hmem2 e.1 e.2).1 he]; simp) fun _ => rfl
    have hpart' : ∀ (l : List (Nat × Nat)) (s s' : Shared), s.part = s'.part →
        (l.foldl (Shared.setBlock w) s).part = (l.foldl (Shared.setBlock w) s').part := by
      intro l
      induction l with
      | nil => intro s s' h; exact h
      | cons e l ih => intro s s' h; exact ih _ _ (by show upd s.part _ _ = upd s'.part _ _; rw [h])
    have hfin : ∀ u, u < n → (l.foldl (Shared.setBlock w) s).part u = view s.part ops u := by
      intro u hu
      rw [hpart' l s { s with bw := weight n w s.part } rfl]
      have hg := h2.get u
      by_cases hin : u ∈ l.map Prod.fst
      · obtain ⟨⟨u', b⟩, h3, h4⟩ := List.mem_map.1 hin
        simp only at h4
        subst h4
        rw [hs'.1 _ h3]
        rw [(hmem2 u' b).1 h3] at hg
        exact hg
      · rw [hs'.2.1 u hin]
        have : d.tab.abs u = none := by
          cases hab : d.tab.abs u with
          | none => rfl
          | some c =>
            exfalso
            apply hin
            have := h2.nonneg u c hab
            exact List.mem_map.2 ⟨(u, c.toNat), (hmem2 u c.toNat).2 (by rw [hab]; congr 1; omega), rfl⟩
        rw [this] at hg
        exact hg
    refine ⟨hfin, ?_⟩
    have hbw' : ∀ (l : List (Nat × Nat)) (s s' : Shared), s.part = s'.part → (∀ b, b < k → s.bw b = s'.bw b) →
        (∀ u, u < n → s.part u < k) → (∀ e ∈ l, e.1 < n ∧ e.2 < k) →
        ∀ b, b < k → (l.foldl (Shared.setBlock w) s).bw b = (l.foldl (Shared.setBlock w) s').bw b := by
      intro l
      induction l with
      | nil => intro s s' _ h _ _; exact h
      | cons e l ih =>
        intro s s' h hb hk hl
        have he := hl e List.mem_cons_self
        refine ih _ _ ?_ ?_ ?_ fun x hx => hl x (List.mem_cons_of_mem _ hx)
        · show upd s.part _ _ = upd s'.part _ _; rw [h]
        · intro b hbk
          show upd (upd s.bw (s.part e.1) (s.bw (s.part e.1) - w e.1)) e.2
              (upd s.bw (s.part e.1) (s.bw (s.part e.1) - w e.1) e.2 + w e.1) b =
            upd (upd s'.bw (s'.part e.1) (s'.bw (s'.part e.1) - w e.1)) e.2
              (upd s'.bw (s'.part e.1) (s'.bw (s'.part e.1) - w e.1) e.2 + w e.1) b
          rw [← h]
          have hpk := hk e.1 he.1
          have inner : ∀ c, c < k → upd s.bw (s.part e.1) (s.bw (s.part e.1) - w e.1) c =
              upd s'.bw (s.part e.1) (s'.bw (s.part e.1) - w e.1) c := by
            intro c hc
            unfold upd
            rw [hb _ hpk, hb c hc]
          unfold upd at inner ⊢
          rw [inner b hbk, inner e.2 he.2]
        · intro u hu
          show upd s.part e.1 e.2 u < k
          by_cases hue : u = e.1
          · subst hue; rw [upd_same]; exact he.2
          · rw [upd_ne _ _ hue]; exact hk u hu
    intro b hb
    rw [hbw' l s { s with bw := weight n w s.part } rfl hbw hpart ?_ b hb, hs'.2.2 b]
    · rw [← hpart' l s { s with bw := weight n w s.part } rfl]
      unfold weight
      apply Finset.sum_congr rfl
      intro u hu
      rw [hfin u (mem_range.1 hu)]
    · intro e he
      have hab := (hmem2 e.1 e.2).1 he
      have hen := hmem e.1 (by rw [hab]; simp)
      refine ⟨hen, ?_⟩
      have hg := h2.get e.1
      rw [hab] at hg
      have := hview e.1 hen
      unfold view at this
      rw [← hg] at this
      simpa using this

/-- Non-vacuity: three nodes, two of them moved, one of them twice, after a clear. -/
example : ∃ d, [Op.setBlock 0 1, .clear, .setBlock 1 1, .setBlock 2 0, .setBlock 1 2].foldlM
    (Delta.op (fun _ => 2) fun u => u) Delta.new = some d ∧
    d.block? (fun u => u) 0 = some 0 ∧ d.block? (fun u => u) 1 = some 2 ∧ d.bw 0 = 2 ∧ d.bw 1 = -2 := by
  obtain ⟨d, h1, h2, h3, _⟩ := C21_overlay 3 3 (fun _ => 2) ⟨fun u => u, fun b => weight 3 (fun _ => 2) (fun u => u) b⟩
    (fun _ _ => rfl) (fun u hu => hu)
    [Op.setBlock 0 1, .clear, .setBlock 1 1, .setBlock 2 0, .setBlock 1 2]
    (by intro op h; simp at h; rcases h with rfl | rfl | rfl | rfl | rfl <;> simp [Op.ok]) (by decide)
  refine ⟨d, h1, h2 0 (by omega), h2 1 (by omega), ?_, ?_⟩
  · have := h3 0 (by omega)
    simp [Delta.blockWeight, weight, view, Finset.sum_range_succ, upd] at this
    omega
  · have := h3 1 (by omega)
    simp [Delta.blockWeight, weight, view, Finset.sum_range_succ, upd] at this
    omega

end Verif.Delta

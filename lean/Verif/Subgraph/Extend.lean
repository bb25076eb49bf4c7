import Verif.Subgraph.Recursive

/-! Lemmas: extending a partition. -/

namespace Verif.Subgraph
open Verif.Contraction Verif.Blocks Verif.Math

theorem mapM_some {α β : Type} {f : α → Option β} {h : α → β} : ∀ {l : List α}, (∀ x ∈ l, f x = some (h x)) →
    l.mapM f = some (l.map h)
  | [], _ => rfl
  | a :: l, hf => by
    rw [List.mapM_cons, hf a List.mem_cons_self, mapM_some fun x hx => hf x (List.mem_cons_of_mem _ hx)]
    rfl

theorem getD_range_map {α : Type} {k b : Nat} (h : Nat → α) (d : α) (hb : b < k) :
    ((List.range k).map h).getD b d = h b := by
  simp [List.getD_eq_getElem?_getD, hb]

theorem copyPartitions_spec (k0 : Nat → Nat) (sub : Nat → List Nat) (mapping : Nat → Nat) :
    ∀ (order : List Nat) (part : Nat → Nat), order.Nodup →
    (∀ u ∈ order, copyPartitions k0 sub mapping order part u = k0 (part u) + (sub (part u)).getD (mapping u) 0) ∧
    (∀ u, u ∉ order → copyPartitions k0 sub mapping order part u = part u)
  | [], _, _ => ⟨fun _ h => absurd h List.not_mem_nil, fun _ _ => rfl⟩
  | a :: order, part, hnd => by
    obtain ⟨ha, hnd'⟩ := List.nodup_cons.1 hnd
    obtain ⟨i1, i2⟩ := copyPartitions_spec k0 sub mapping order
      (upd part a (k0 (part a) + (sub (part a)).getD (mapping a) 0)) hnd'
    have hun : copyPartitions k0 sub mapping (a :: order) part = copyPartitions k0 sub mapping order
      (upd part a (k0 (part a) + (sub (part a)).getD (mapping a) 0)) := rfl
    rw [hun]
    constructor
    · intro u hu
      by_cases h : u = a
      · subst h
        rw [i2 u ha, upd_same]
      · have hu' : u ∈ order := (List.mem_cons.1 hu).resolve_left h
        rw [i1 u hu', upd_ne _ _ h]
    · intro u hu
      have h1 : u ≠ a := fun h => hu (h ▸ List.mem_cons_self)
      rw [i2 u fun h => hu (List.mem_cons_of_mem _ h), upd_ne _ _ h1]

theorem psum_sumTo (f : Nat → Nat) (n : Nat) : psum f n = sumTo f n := by
  induction n with
  | zero => rfl
  | succ n ih => rw [psum_succ, ih]; rfl

theorem psum_treeLabel (k l : Nat) : psum (treeLabel k l) (2 ^ l) = k := by
  rw [psum_sumTo, sumTo_total]

theorem psum_const (c n : Nat) : psum (fun _ => c) n = n * c := by
  induction n with
  | zero => simp [psum]
  | succ n ih => rw [psum_succ, ih, Nat.succ_mul]

theorem label_one (bip : LGraph → Nat → Nat → Nat → Nat) (fuel : Nat) (g : LGraph) (b k rel numSub u : Nat)
    (h : numSub ≤ 1) : label bip fuel g b k rel numSub u = rel := by
  cases fuel with
  | zero => rfl
  | succ fuel => simp only [label]; rw [if_pos h]

theorem replicate_eq_map (n x : Nat) (f : Nat → Nat) (h : ∀ u, f u = x) : List.replicate n x = (List.range n).map f := by
  apply List.ext_getElem
  · simp
  · intro i h1 h2
    simp [h]

/-- The numbers of sub-blocks for which a partition is extended. -/
def DesiredOk (l inputK desiredK : Nat) : Prop := desiredK = inputK ∨ (∃ j, l ≤ j ∧ desiredK = 2 ^ j) ∧ desiredK ≤ inputK

theorem treeLabel_pos {k l b : Nat} (hl : 2 ^ l ≤ k) (hb : b < 2 ^ l) : 1 ≤ treeLabel k l b := by
  rw [treeLabel_eq k l b hb]
  have : 1 ≤ k / 2 ^ l := (Nat.one_le_div_iff (Nat.two_pow_pos l)).2 hl
  omega

theorem subK_le {l inputK desiredK : Nat} (hd : DesiredOk l inputK desiredK) {b : Nat} (hb : b < 2 ^ l)
    {pad : Nat → Nat} (hpad : pad b = treeLabel inputK l b) : subK (2 ^ l) inputK desiredK pad b ≤ treeLabel inputK l b := by
  unfold subK
  split
  · omega
  · rcases hd with h | ⟨_, h⟩
    · omega
    · rw [treeLabel_eq inputK l b hb]
      have : desiredK / 2 ^ l ≤ inputK / 2 ^ l := Nat.div_le_div_right h
      omega

theorem subK_pos {l inputK desiredK : Nat} (hl : 2 ^ l ≤ inputK) (hd : DesiredOk l inputK desiredK) {b : Nat} (hb : b < 2 ^ l)
    {pad : Nat → Nat} (hpad : pad b = treeLabel inputK l b) : 1 ≤ subK (2 ^ l) inputK desiredK pad b := by
  unfold subK
  split
  · rw [hpad]; exact treeLabel_pos hl hb
  · rcases hd with h | ⟨⟨j, hj, rfl⟩, h⟩
    · omega
    · exact (Nat.one_le_div_iff (Nat.two_pow_pos l)).2 (Nat.pow_le_pow_right (by omega) hj)

theorem psum_subK {l inputK desiredK : Nat} (hd : DesiredOk l inputK desiredK) {pad : Nat → Nat}
    (hpad : ∀ b, b < 2 ^ l → pad b = treeLabel inputK l b) :
    psum (subK (2 ^ l) inputK desiredK pad) (2 ^ l) = desiredK := by
  by_cases h : desiredK = inputK
  · rw [psum_congr (b := treeLabel inputK l), psum_treeLabel, h]
    intro b hb
    unfold subK
    rw [if_pos h, hpad b hb]
  · rcases hd with h' | ⟨⟨j, hj, rfl⟩, _⟩
    · exact absurd h' h
    · rw [psum_congr (b := fun _ => 2 ^ j / 2 ^ l)]
      · rw [psum_const, Nat.mul_div_cancel']
        exact Nat.pow_dvd_pow 2 hj
      · intro b _
        unfold subK
        rw [if_neg h]

theorem blockOffsets_eq {l inputK desiredK : Nat} {pad : Nat → Nat} {b : Nat} (hb : b ≤ 2 ^ l) :
    blockOffsets (2 ^ l) desiredK inputK pad b = psum (subK (2 ^ l) inputK desiredK pad) b := by
  unfold blockOffsets
  rw [offsets_eq _ hb]
  rfl

/-! ## The loop over the blocks -/

theorem extend_fold {inputK l desiredK : Nat} (hk : inputK < 2 ^ 31) {bip : LGraph → Nat → Nat → Nat → Nat}
    (hbip : ∀ g b k u, bip g b k u < 2) (map0 : Nat → Nat) (hl : 2 ^ l ≤ inputK)
    (hd : DesiredOk l inputK desiredK) {pad : Nat → Nat} (hpad : ∀ b, b < 2 ^ l → pad b = treeLabel inputK l b)
    {views : Nat → View} {gs : Nat → LGraph} (hwf : ∀ b, b < 2 ^ l → (gs b).WF)
    (hpos : ∀ b, b < 2 ^ l → (gs b).Positive) (tmp : Nat → Mem)
    (hdis : ∀ a b x, a < 2 ^ l → b < 2 ^ l → a ≠ b →
      Area (views a).npos (views a).epos ((gs a).length + pad a) (gs a).m x →
      ¬ Area (views b).npos (views b).epos ((gs b).length + pad b) (gs b).m x) :
    ∀ (order : List Nat) (st : Mem × (Nat → List Nat)), order.Nodup → (∀ b ∈ order, b < 2 ^ l) →
    (∀ b ∈ order, Held st.1.cell (views b) (gs b)) → (∀ b ∈ order, st.2 b = List.replicate (gs b).length 0) →
    ∃ st', order.foldlM (extendBlock inputK desiredK (2 ^ l) bip map0 pad views tmp) st = some st' ∧
      (∀ b ∈ order, st'.2 b = (List.range (gs b).length).map
        (label bip (subK (2 ^ l) inputK desiredK pad b) (gs b) b (2 ^ l) 0 (subK (2 ^ l) inputK desiredK pad b))) ∧
      (∀ b, b ∉ order → st'.2 b = st.2 b) ∧ st'.1.size = st.1.size ∧
      (st.1.ok = true → (∀ b, (tmp b).ok = true) → (∀ b ∈ order, Room st.1.size (views b) (gs b) (pad b)) →
        st'.1.ok = true)
  | [], st, _, _, _, _ =>
    ⟨st, rfl, fun _ h => absurd h List.not_mem_nil, fun _ _ => rfl, rfl, fun h _ _ => h⟩
  | a :: order, st, hnd, hlt, hheld, hinit => by
    obtain ⟨ha, hnd'⟩ := List.nodup_cons.1 hnd
    have hak := hlt a List.mem_cons_self
    have hlt' : ∀ b ∈ order, b < 2 ^ l := fun b hb => hlt b (List.mem_cons_of_mem _ hb)
    have hne : ∀ b ∈ order, b ≠ a := fun b hb h => ha (h ▸ hb)
    rw [List.foldlM_cons]
    -- the step
    have hstep : ∃ st1, extendBlock inputK desiredK (2 ^ l) bip map0 pad views tmp st a = some st1 ∧
        st1.2 a = (List.range (gs a).length).map (label bip (subK (2 ^ l) inputK desiredK pad a) (gs a) a (2 ^ l) 0
          (subK (2 ^ l) inputK desiredK pad a)) ∧ (∀ b, b ≠ a → st1.2 b = st.2 b) ∧ st1.1.size = st.1.size ∧
        (∀ x, ¬ Area (views a).npos (views a).epos ((gs a).length + pad a) (gs a).m x → st1.1.cell x = st.1.cell x) ∧
        (st.1.ok = true → (tmp a).ok = true → Room st.1.size (views a) (gs a) (pad a) → st1.1.ok = true) := by
      unfold extendBlock
      by_cases h1 : subK (2 ^ l) inputK desiredK pad a > 1
      · rw [if_pos h1]
        obtain ⟨ms', e1, e2⟩ := extendRec_spec hk hbip map0 (subK (2 ^ l) inputK desiredK pad a) (views a) (gs a) 0 a l
          (subK (2 ^ l) inputK desiredK pad a) (st.2 a) ⟨st.1, tmp a⟩ (hheld a List.mem_cons_self) (hwf a hak)
          (hpos a hak) hl hak h1 (Nat.le_refl _) (subK_le hd hak (hpad a hak))
          (fun x hx h => by
            rw [hinit a List.mem_cons_self] at hx
            have := (List.mem_replicate.1 hx).2
            omega)
        rw [e1]
        rw [← hpad a hak] at e2
        refine ⟨_, rfl, ?_, ?_, e2.size, e2.frame, ?_⟩
        · show upd st.2 a _ a = _
          rw [upd_same, hinit a List.mem_cons_self, relabel_replicate, List.range_eq_range']
        · intro b hb
          show upd st.2 a _ b = _
          rw [upd_ne _ _ hb]
        · intro hok ht hr
          show (ms'.mem.ok && ms'.tmp.ok) = true
          rw [e2.ok hok hr, e2.tmp ht]
          rfl
      · rw [if_neg h1]
        refine ⟨st, rfl, ?_, fun _ _ => rfl, rfl, fun _ _ => rfl, fun h _ _ => h⟩
        rw [hinit a List.mem_cons_self]
        apply replicate_eq_map
        intro u
        exact label_one bip _ _ _ _ _ _ _ (by omega)
    obtain ⟨st1, s1, s2, s3, s4, s5, s6⟩ := hstep
    rw [s1]
    obtain ⟨st', t1, t2, t3, t4, t5⟩ := extend_fold hk hbip map0 hl hd hpad hwf hpos tmp hdis order st1 hnd' hlt'
      (fun b hb => by
        have hh := hheld b (List.mem_cons_of_mem _ hb)
        refine hh.congr (c := (gs b).length + pad b) ?_ ?_
        · have := treeLabel_pos hl (hlt' b hb)
          rw [hh.n, hpad b (hlt' b hb)]; omega
        · intro x hx
          rw [hh.m] at hx
          exact s5 x (hdis b a x (hlt' b hb) hak (hne b hb) hx))
      (fun b hb => by rw [s3 b (hne b hb)]; exact hinit b (List.mem_cons_of_mem _ hb))
    refine ⟨st', t1, ?_, ?_, by rw [t4, s4], ?_⟩
    · intro b hb
      rcases List.mem_cons.1 hb with rfl | hb'
      · rw [t3 b ha, s2]
      · exact t2 b hb'
    · intro b hb
      rw [t3 b fun h => hb (List.mem_cons_of_mem _ h), s3 b fun h => hb (h ▸ List.mem_cons_self)]
    · intro hok ht hr
      refine t5 (s6 hok (ht a) (hr a List.mem_cons_self)) ht ?_
      intro b hb
      rw [s4]
      exact hr b (List.mem_cons_of_mem _ hb)

/-- What the labels of all nodes are worth once they have been copied back. -/
theorem labels_final {n l inputK desiredK : Nat} {part mapping : Nat → Nat}
    (hpart : ∀ u, u < n → part u < 2 ^ l) (hd : DesiredOk l inputK desiredK) {pad : Nat → Nat}
    (hpad : ∀ b, b < 2 ^ l → pad b = treeLabel inputK l b) {lab : Nat → Nat → Nat} {sub : Nat → List Nat}
    {len : Nat → Nat}
    (hsub : ∀ b, b < 2 ^ l → sub b = (List.range (len b)).map (lab b)) (hmap : ∀ u, u < n → mapping u < len (part u))
    (hlab : ∀ b i, b < 2 ^ l → lab b i < subK (2 ^ l) inputK desiredK pad b) {order : List Nat}
    (ho : order.Perm (List.range n)) :
    let p := copyPartitions (blockOffsets (2 ^ l) desiredK inputK pad) sub mapping order part
    (∀ u, u < n → p u = psum (subK (2 ^ l) inputK desiredK pad) (part u) + lab (part u) (mapping u)) ∧
    (∀ u, u < n → psum (subK (2 ^ l) inputK desiredK pad) (part u) ≤ p u ∧
      p u < psum (subK (2 ^ l) inputK desiredK pad) (part u + 1)) ∧
    (∀ u, u < n → p u < desiredK) ∧
    (∀ u v, u < n → v < n →
      (p u = p v ↔ part u = part v ∧ lab (part u) (mapping u) = lab (part v) (mapping v))) := by
  intro p
  have hnd : order.Nodup := ho.nodup_iff.2 List.nodup_range
  have h1 : ∀ u, u < n → p u = psum (subK (2 ^ l) inputK desiredK pad) (part u) + lab (part u) (mapping u) := by
    intro u hu
    show copyPartitions _ _ _ _ _ u = _
    rw [(copyPartitions_spec _ _ _ order part hnd).1 u (ho.mem_iff.2 (List.mem_range.2 hu)),
      blockOffsets_eq (Nat.le_of_lt (hpart u hu)), hsub _ (hpart u hu), getD_range_map _ _ (hmap u hu)]
  clear_value p
  have h2 : ∀ u, u < n → psum (subK (2 ^ l) inputK desiredK pad) (part u) ≤ p u ∧
      p u < psum (subK (2 ^ l) inputK desiredK pad) (part u + 1) := by
    intro u hu
    have := hlab (part u) (mapping u) (hpart u hu)
    rw [h1 u hu, psum_succ]
    omega
  refine ⟨h1, h2, ?_, ?_⟩
  · intro u hu
    have h3 := psum_mono (subK (2 ^ l) inputK desiredK pad) (show part u + 1 ≤ 2 ^ l from hpart u hu)
    rw [psum_subK hd hpad] at h3
    have := h2 u hu
    omega
  · intro u v hu hv
    constructor
    · intro h
      have hp : part u = part v := by
        have a1 := h2 u hu
        have a2 := h2 v hv
        rcases Nat.lt_trichotomy (part u) (part v) with hlt | heq | hlt
        · have := psum_mono (subK (2 ^ l) inputK desiredK pad) (show part u + 1 ≤ part v from hlt)
          omega
        · exact heq
        · have := psum_mono (subK (2 ^ l) inputK desiredK pad) (show part v + 1 ≤ part u from hlt)
          omega
      refine ⟨hp, ?_⟩
      rw [h1 u hu, h1 v hv, hp] at h
      rw [hp]
      omega
    · rintro ⟨h3, h4⟩
      rw [h1 u hu, h1 v hv, h4, h3]

end Verif.Subgraph

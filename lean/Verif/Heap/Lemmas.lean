import Verif.Heap.Model

namespace Verif.Heap

/-- Priority of a key: the root holds the largest. -/
def Kind.val : Kind → Int → Int
  | .max, x => x
  | .min, x => -x

theorem cmp_iff (k : Kind) (a b : Int) : k.cmp a b = true ↔ k.val a < k.val b := by
  cases k <;> simp [Kind.cmp, Kind.val] <;> omega

theorem val_inj (k : Kind) {a b : Int} : a = b ↔ k.val a = k.val b := by
  cases k <;> simp [Kind.val] <;> omega

/-- The handles and the array agree. -/
structure PosOk (s : Heap) : Prop where
  fwd : ∀ p, p < s.size → s.idPos (s.heap p).1 = some p
  bwd : ∀ id p, s.idPos id = some p → p < s.size ∧ (s.heap p).1 = id

theorem PosOk.inj {s : Heap} (h : PosOk s) {p q : Nat} (hp : p < s.size) (hq : q < s.size)
    (he : (s.heap p).1 = (s.heap q).1) : p = q := by
  have h1 := h.fwd p hp
  have h2 := h.fwd q hq
  rw [he, h2] at h1
  exact (Option.some.inj h1).symm

theorem swap_heap (s : Heap) (i j : Nat) (p : Nat) :
    (s.swap i j).heap p = if p = j then s.heap i else if p = i then s.heap j else s.heap p := by
  simp only [Heap.swap, upd]

@[simp] theorem swap_size (s : Heap) (i j : Nat) : (s.swap i j).size = s.size := rfl
@[simp] theorem swap_cap (s : Heap) (i j : Nat) : (s.swap i j).cap = s.cap := rfl

theorem swap_ok {s : Heap} (h : PosOk s) {i j : Nat} (hi : i < s.size) (hj : j < s.size)
    (hij : i ≠ j) : PosOk (s.swap i j) ∧ ∀ id, (s.swap i j).key? id = s.key? id := by
  have hne : (s.heap i).1 ≠ (s.heap j).1 := fun he => hij (h.inj hi hj he)
  have hid : ∀ id, (s.swap i j).idPos id =
      if id = (s.heap i).1 then some j else if id = (s.heap j).1 then some i else s.idPos id := by
    intro id
    simp only [Heap.swap, upd, hij, if_true, if_false]
    rw [h.fwd i hi, h.fwd j hj]
  refine ⟨⟨?_, ?_⟩, ?_⟩
  · intro p hp
    rw [swap_size] at hp
    rw [hid, swap_heap]
    by_cases h1 : p = j
    · simp [h1]
    · by_cases h2 : p = i
      · subst h2
        simp [h1, hne.symm]
      · have n1 : (s.heap p).1 ≠ (s.heap i).1 := fun he => h2 (h.inj hp hi he)
        have n2 : (s.heap p).1 ≠ (s.heap j).1 := fun he => h1 (h.inj hp hj he)
        simp [h1, h2, n1, n2, h.fwd p hp]
  · intro id p hid'
    rw [hid] at hid'
    rw [swap_size, swap_heap]
    split at hid'
    · rename_i h1
      cases hid'
      simp [hj, h1]
    · split at hid'
      · rename_i h1 h2
        cases hid'
        simp [hi, hij, h2]
      · rename_i h1 h2
        obtain ⟨g1, g2⟩ := h.bwd id p hid'
        have n1 : p ≠ j := by rintro rfl; exact h2 g2.symm
        have n2 : p ≠ i := by rintro rfl; exact h1 g2.symm
        simp [g1, n1, n2, g2]
  · intro id
    simp only [Heap.key?, hid]
    split
    · rename_i h1
      subst h1
      rw [h.fwd i hi]
      simp [swap_heap]
    · split
      · rename_i h1 h2
        subst h2
        rw [h.fwd j hj]
        simp [swap_heap, hij]
      · rename_i h1 h2
        cases hp : s.idPos id with
        | none => rfl
        | some p =>
          obtain ⟨g1, g2⟩ := h.bwd id p hp
          have n1 : p ≠ j := by rintro rfl; exact h2 g2.symm
          have n2 : p ≠ i := by rintro rfl; exact h1 g2.symm
          simp [swap_heap, n1, n2]

/-- Priority at a position. -/
def Heap.v (k : Kind) (s : Heap) (p : Nat) : Int := k.val (s.heap p).2

theorem v_swap (k : Kind) (s : Heap) (i j p : Nat) :
    (s.swap i j).v k p = if p = j then s.v k i else if p = i then s.v k j else s.v k p := by
  unfold Heap.v
  rw [swap_heap]
  split
  · rfl
  · split <;> rfl

def Ordered (k : Kind) (s : Heap) : Prop :=
  ∀ p, 0 < p → p < s.size → s.v k p ≤ s.v k ((p - 1) / 4)

/-- Heap order except between `pos` and its parent. -/
def OrderedUp (k : Kind) (s : Heap) (pos : Nat) : Prop :=
  (∀ p, 0 < p → p < s.size → p ≠ pos → s.v k p ≤ s.v k ((p - 1) / 4)) ∧
  (∀ c, 0 < c → c < s.size → (c - 1) / 4 = pos → 0 < pos → s.v k c ≤ s.v k ((pos - 1) / 4))

/-- Heap order except between `pos` and its children. -/
def OrderedDown (k : Kind) (s : Heap) (pos : Nat) : Prop :=
  (∀ p, 0 < p → p < s.size → (p - 1) / 4 ≠ pos → s.v k p ≤ s.v k ((p - 1) / 4)) ∧
  (∀ c, 0 < c → c < s.size → (c - 1) / 4 = pos → 0 < pos → s.v k c ≤ s.v k ((pos - 1) / 4))

theorem siftUp_ok (k : Kind) : ∀ (fuel : Nat) (s : Heap) (pos : Nat), PosOk s → pos < s.size →
    pos ≤ fuel → OrderedUp k s pos →
    let s' := Heap.siftUp k fuel s pos
    PosOk s' ∧ s'.size = s.size ∧ s'.cap = s.cap ∧ (∀ id, s'.key? id = s.key? id) ∧ Ordered k s'
  | 0, s, pos, h, hp, hf, ho => by
    refine ⟨h, rfl, rfl, fun _ => rfl, ?_⟩
    intro p h0 hps
    exact ho.1 p h0 hps (by omega)
  | fuel + 1, s, pos, h, hp, hf, ho => by
    unfold Heap.siftUp
    split
    · rename_i h0
      refine ⟨h, rfl, rfl, fun _ => rfl, ?_⟩
      intro p hp0 hps
      exact ho.1 p hp0 hps (by omega)
    · rename_i h0
      have hpar : (pos - 1) / 4 < pos := by omega
      simp only
      split
      · rename_i hc
        rw [cmp_iff] at hc
        have hc' : s.v k ((pos - 1) / 4) < s.v k pos := hc
        obtain ⟨g1, g2⟩ := swap_ok h hp (show (pos - 1) / 4 < s.size by omega) (by omega)
        obtain ⟨o1, o2⟩ := ho
        have hup : OrderedUp k (s.swap pos ((pos - 1) / 4)) ((pos - 1) / 4) := by
          refine ⟨?_, ?_⟩
          · intro p p0 ps pne
            rw [swap_size] at ps
            rw [v_swap, v_swap, if_neg pne]
            by_cases hpp : p = pos
            · subst hpp
              simp
              omega
            · rw [if_neg hpp]
              by_cases hq : (p - 1) / 4 = (pos - 1) / 4
              · rw [if_pos hq]
                have := o1 p p0 ps hpp
                rw [hq] at this
                omega
              · rw [if_neg hq]
                by_cases hq2 : (p - 1) / 4 = pos
                · rw [if_pos hq2]
                  exact o2 p p0 ps hq2 (by omega)
                · rw [if_neg hq2]
                  exact o1 p p0 ps hpp
          · intro c c0 cs hcp ppos
            rw [swap_size] at cs
            have hcne : c ≠ (pos - 1) / 4 := by omega
            have hgp : ((pos - 1) / 4 - 1) / 4 ≠ (pos - 1) / 4 := by omega
            have hgp2 : ((pos - 1) / 4 - 1) / 4 ≠ pos := by omega
            rw [v_swap, v_swap, if_neg hcne, if_neg hgp, if_neg hgp2]
            have hpg := o1 ((pos - 1) / 4) ppos (by omega) (by omega)
            by_cases hcpos : c = pos
            · rw [if_pos hcpos]; exact hpg
            · rw [if_neg hcpos]
              have := o1 c c0 cs hcpos
              rw [hcp] at this
              omega
        obtain ⟨r1, r2, r3, r4, r5⟩ := siftUp_ok k fuel (s.swap pos ((pos - 1) / 4)) ((pos - 1) / 4)
          g1 (by rw [swap_size]; omega) (by omega) hup
        exact ⟨r1, r2, r3, fun id => (r4 id).trans (g2 id), r5⟩
      · rename_i hc
        rw [cmp_iff] at hc
        have hc' : ¬ s.v k ((pos - 1) / 4) < s.v k pos := hc
        obtain ⟨o1, o2⟩ := ho
        have hord : ∀ p, 0 < p → p < s.size → s.v k p ≤ s.v k ((p - 1) / 4) := by
          intro p p0 ps
          by_cases hpp : p = pos
          · subst hpp; omega
          · exact o1 p p0 ps hpp
        refine siftUp_ok k fuel s ((pos - 1) / 4) h (by omega) (by omega)
          ⟨fun p p0 ps _ => hord p p0 ps, ?_⟩
        intro c c0 cs hcp ppos
        have h1 := hord c c0 cs
        have h2 := hord ((pos - 1) / 4) ppos (by omega)
        rw [hcp] at h1
        omega

theorem bestFold (k : Kind) (s : Heap) : ∀ (l : List Nat) (b : Nat),
    let r := l.foldl (fun best c => if k.cmp (s.heap best).2 (s.heap c).2 then c else best) b
    (r = b ∨ r ∈ l) ∧ s.v k b ≤ s.v k r ∧ ∀ c ∈ l, s.v k c ≤ s.v k r
  | [], b => ⟨Or.inl rfl, Int.le_refl _, by simp⟩
  | c :: l, b => by
    simp only [List.foldl_cons]
    obtain ⟨h1, h2, h3⟩ := bestFold k s l (if k.cmp (s.heap b).2 (s.heap c).2 then c else b)
    split at h1
    · rename_i hc
      rw [if_pos hc] at *
      rw [cmp_iff] at hc
      have hc' : s.v k b < s.v k c := hc
      refine ⟨?_, by omega, ?_⟩
      · rcases h1 with h1 | h1
        · right; rw [h1]; exact List.mem_cons_self
        · right; exact List.mem_cons_of_mem _ h1
      · intro x hx
        rcases List.mem_cons.1 hx with rfl | hx
        · exact h2
        · exact h3 x hx
    · rename_i hc
      rw [if_neg hc] at *
      rw [cmp_iff] at hc
      have hc' : ¬ s.v k b < s.v k c := hc
      refine ⟨?_, h2, ?_⟩
      · rcases h1 with h1 | h1
        · exact Or.inl h1
        · right; exact List.mem_cons_of_mem _ h1
      · intro x hx
        rcases List.mem_cons.1 hx with rfl | hx
        · omega
        · exact h3 x hx

theorem bestChild_ok (k : Kind) (s : Heap) (pos : Nat) (h : 4 * pos + 1 < s.size) :
    (s.bestChild k pos - 1) / 4 = pos ∧ 0 < s.bestChild k pos ∧ s.bestChild k pos < s.size ∧
      ∀ c, 0 < c → c < s.size → (c - 1) / 4 = pos → s.v k c ≤ s.v k (s.bestChild k pos) := by
  obtain ⟨h1, h2, h3⟩ := bestFold k s
    (List.range' (4 * pos + 2) (min (4 * pos + 5) s.size - (4 * pos + 2))) (4 * pos + 1)
  have hb : s.bestChild k pos = (List.range' (4 * pos + 2)
    (min (4 * pos + 5) s.size - (4 * pos + 2))).foldl
    (fun best c => if k.cmp (s.heap best).2 (s.heap c).2 then c else best) (4 * pos + 1) := rfl
  rw [← hb] at h1 h2 h3
  have hr : 4 * pos + 1 ≤ s.bestChild k pos ∧ s.bestChild k pos < 4 * pos + 5 ∧
      s.bestChild k pos < s.size := by
    rcases h1 with h1 | h1
    · omega
    · rw [List.mem_range'_1] at h1; omega
  refine ⟨by omega, by omega, hr.2.2, ?_⟩
  intro c c0 cs hcp
  by_cases hc : c = 4 * pos + 1
  · subst hc; exact h2
  · refine h3 c ?_
    rw [List.mem_range'_1]
    omega

theorem siftDown_ok (k : Kind) : ∀ (fuel : Nat) (s : Heap) (pos : Nat), PosOk s →
    (pos < s.size ∨ s.size = 0) → s.size ≤ fuel + pos → OrderedDown k s pos →
    let s' := Heap.siftDown k fuel s pos
    PosOk s' ∧ s'.size = s.size ∧ s'.cap = s.cap ∧ (∀ id, s'.key? id = s.key? id) ∧ Ordered k s'
  | 0, s, pos, h, hp, hf, ho => by
    refine ⟨h, rfl, rfl, fun _ => rfl, ?_⟩
    intro p h0 hps
    have : p < s.size := hps
    omega
  | fuel + 1, s, pos, h, hp, hf, ho => by
    unfold Heap.siftDown
    obtain ⟨o1, o2⟩ := ho
    split
    · rename_i h0
      refine ⟨h, rfl, rfl, fun _ => rfl, ?_⟩
      intro p hp0 hps
      exact o1 p hp0 hps (by omega)
    · rename_i h0
      obtain ⟨b1, b2, b3, b4⟩ := bestChild_ok k s pos (by omega)
      simp only
      generalize hbc : s.bestChild k pos = c at *
      split
      · rename_i hc
        have hle : s.v k c ≤ s.v k pos := by
          rw [Bool.or_eq_true, cmp_iff, beq_iff_eq] at hc
          rcases hc with hc | hc
          · exact Int.le_of_lt hc
          · unfold Heap.v; rw [hc]; exact Int.le_refl _
        refine ⟨h, rfl, rfl, fun _ => rfl, ?_⟩
        intro p p0 ps
        by_cases hpp : (p - 1) / 4 = pos
        · have := b4 p p0 ps hpp
          rw [hpp]; omega
        · exact o1 p p0 ps hpp
      · rename_i hc
        have hlt : s.v k pos < s.v k c := by
          rw [Bool.or_eq_true, cmp_iff, beq_iff_eq, val_inj k] at hc
          unfold Heap.v
          omega
        have hposc : pos < c := by omega
        obtain ⟨g1, g2⟩ := swap_ok h (show pos < s.size by omega) b3 (by omega)
        have hdown : OrderedDown k (s.swap pos c) c := by
          refine ⟨?_, ?_⟩
          · intro p p0 ps hpp
            rw [swap_size] at ps
            rw [v_swap, v_swap, if_neg hpp]
            by_cases hq : (p - 1) / 4 = pos
            · rw [if_pos hq]
              by_cases hpc : p = c
              · rw [if_pos hpc]; omega
              · rw [if_neg hpc, if_neg (by omega)]
                exact b4 p p0 ps hq
            · have hpc : p ≠ c := by omega
              rw [if_neg hpc, if_neg hq]
              by_cases hpos : p = pos
              · rw [if_pos hpos]
                subst hpos
                exact o2 c b2 b3 b1 p0
              · rw [if_neg hpos]
                exact o1 p p0 ps hq
          · intro d d0 ds hdc c0
            rw [swap_size] at ds
            rw [v_swap, v_swap, b1]
            have n1 : d ≠ c := by omega
            have n2 : d ≠ pos := by omega
            have n3 : pos ≠ c := by omega
            rw [if_neg n1, if_neg n2, if_neg n3, if_pos rfl]
            have := o1 d d0 ds (by omega)
            rw [hdc] at this
            exact this
        obtain ⟨r1, r2, r3, r4, r5⟩ := siftDown_ok k fuel (s.swap pos c) c g1
          (Or.inl (by rw [swap_size]; exact b3)) (by rw [swap_size]; omega) hdown
        exact ⟨r1, r2, r3, fun id => (r4 id).trans (g2 id), r5⟩

/-- The invariant of the heap. -/
structure Inv (k : Kind) (s : Heap) : Prop where
  pos : PosOk s
  ord : Ordered k s
  ids : ∀ p, p < s.size → (s.heap p).1 < s.cap

theorem Inv.of_keys {k : Kind} {s s' : Heap} (hp : PosOk s') (ho : Ordered k s')
    (hc : s'.cap = s.cap) (hk : ∀ id, s'.contains id = true → id < s.cap) : Inv k s' := by
  refine ⟨hp, ho, fun p hps => ?_⟩
  rw [hc]
  apply hk
  simp [Heap.contains, hp.fwd p hps]

theorem contains_iff (s : Heap) (id : Nat) : s.contains id = (s.key? id).isSome := by
  simp [Heap.contains, Heap.key?]

theorem Inv.contains_lt {k : Kind} {s : Heap} (h : Inv k s) {id : Nat} (hc : s.contains id = true) :
    id < s.cap := by
  unfold Heap.contains at hc
  rw [Option.isSome_iff_exists] at hc
  obtain ⟨p, hp⟩ := hc
  obtain ⟨h1, h2⟩ := h.pos.bwd id p hp
  rw [← h2]
  exact h.ids p h1

theorem Inv.size_le {k : Kind} {s : Heap} (h : Inv k s) : s.size ≤ s.cap := by
  have hnd : ((List.range s.size).map fun p => (s.heap p).1).Nodup := by
    refine nodup_map_on List.nodup_range ?_
    intro a ha b hb hab
    exact h.pos.inj (List.mem_range.1 ha) (List.mem_range.1 hb) hab
  have := nodup_length_le hnd (m := List.range s.cap) (by
    intro x hx
    obtain ⟨p, hp, rfl⟩ := List.mem_map.1 hx
    exact List.mem_range.2 (h.ids p (List.mem_range.1 hp)))
  simpa using this

/-- Room for another ID. -/
theorem Inv.size_lt {k : Kind} {s : Heap} (h : Inv k s) {id : Nat} (hid : id < s.cap)
    (hc : s.contains id = false) : s.size < s.cap := by
  have hno : s.idPos id = none := by simpa [Heap.contains] using hc
  have hnd : (id :: (List.range s.size).map fun p => (s.heap p).1).Nodup := by
    rw [List.nodup_cons]
    refine ⟨?_, nodup_map_on List.nodup_range ?_⟩
    · intro hm
      obtain ⟨p, hp, he⟩ := List.mem_map.1 hm
      have := h.pos.fwd p (List.mem_range.1 hp)
      rw [he, hno] at this
      cases this
    · intro a ha b hb hab
      exact h.pos.inj (List.mem_range.1 ha) (List.mem_range.1 hb) hab
  have := nodup_length_le hnd (m := List.range s.cap) (by
    intro x hx
    rcases List.mem_cons.1 hx with rfl | hx
    · exact List.mem_range.2 hid
    · obtain ⟨p, hp, rfl⟩ := List.mem_map.1 hx
      exact List.mem_range.2 (h.ids p (List.mem_range.1 hp)))
  simp at this
  omega

theorem Inv.new (k : Kind) (cap : Nat) : Inv k (Heap.new cap) := by
  refine ⟨⟨?_, ?_⟩, ?_, ?_⟩
  · intro p h; cases h
  · intro id p h; cases h
  · intro p _ h; cases h
  · intro p h; cases h

theorem Ordered.root {k : Kind} {s : Heap} (h : Ordered k s) : ∀ p, p < s.size →
    s.v k p ≤ s.v k 0 := by
  intro p
  induction p using Nat.strongRecOn with
  | _ p ih =>
    intro hp
    by_cases h0 : p = 0
    · subst h0; exact Int.le_refl _
    · have h1 := h p (by omega) hp
      have h2 := ih ((p - 1) / 4) (by omega) (by omega)
      omega

theorem push_ok {k : Kind} {s s' : Heap} {id : Nat} {key : Int} (h : Inv k s)
    (hs : s.push? k id key = some s') :
    Inv k s' ∧ s'.cap = s.cap ∧ s'.size = s.size + 1 ∧ s'.key? = upd s.key? id (some key) := by
  unfold Heap.push? at hs
  split at hs
  · cases hs
  rename_i hg
  simp only [not_or, Nat.not_le] at hg
  obtain ⟨hc, hid, hsz⟩ := hg
  have hno : s.idPos id = none := by simpa [Heap.contains] using hc
  simp only [Option.some.injEq] at hs
  have hpos : PosOk { s with
      size := s.size + 1
      heap := upd s.heap s.size (id, key)
      idPos := upd s.idPos id (some s.size) } := by
    refine ⟨?_, ?_⟩
    · intro p hp
      simp only at hp ⊢
      by_cases hps : p = s.size
      · subst hps; simp
      · have hp' : p < s.size := by omega
        rw [upd_ne _ _ hps]
        have hne : (s.heap p).1 ≠ id := by
          intro he
          have := h.pos.fwd p hp'
          rw [he, hno] at this
          cases this
        rw [upd_ne _ _ hne]
        exact h.pos.fwd p hp'
    · intro i p hi
      simp only at hi ⊢
      by_cases hii : i = id
      · subst hii
        rw [upd_same] at hi
        cases hi
        simp
      · rw [upd_ne _ _ hii] at hi
        obtain ⟨h1, h2⟩ := h.pos.bwd i p hi
        rw [upd_ne _ _ (by omega)]
        exact ⟨by omega, h2⟩
  have hup : OrderedUp k { s with
      size := s.size + 1
      heap := upd s.heap s.size (id, key)
      idPos := upd s.idPos id (some s.size) } s.size := by
    refine ⟨?_, ?_⟩
    · intro p p0 ps pne
      simp only at ps
      have := h.ord p p0 (by omega)
      unfold Heap.v at *
      simp only
      rw [upd_ne _ _ pne, upd_ne _ _ (by omega)]
      exact this
    · intro c c0 cs hcp ppos
      simp only at cs
      omega
  obtain ⟨r1, r2, r3, r4, r5⟩ := siftUp_ok k s.size _ s.size hpos (by simp) (Nat.le_refl _) hup
  rw [hs] at r1 r2 r3 r4 r5
  have hkey : s'.key? = upd s.key? id (some key) := by
    funext i
    rw [r4 i]
    by_cases hii : i = id
    · subst hii; simp [Heap.key?]
    · rw [upd_ne _ _ hii]
      simp only [Heap.key?]
      rw [upd_ne _ _ hii]
      cases hp : s.idPos i with
      | none => rfl
      | some p =>
        have := (h.pos.bwd i p hp).1
        simp only [Option.map_some]
        rw [upd_ne _ _ (by omega)]
  refine ⟨Inv.of_keys r1 r5 r3 ?_, r3, r2, hkey⟩
  intro i hi
  rw [contains_iff, hkey] at hi
  by_cases hii : i = id
  · subst hii; exact hid
  · rw [upd_ne _ _ hii, ← contains_iff] at hi
    exact h.contains_lt hi

theorem pop_ok {k : Kind} {s : Heap} (h : Inv k s) (h0 : s.size ≠ 0) :
    ∃ s', s.pop? k = some s' ∧ Inv k s' ∧ s'.cap = s.cap ∧ s'.size = s.size - 1 ∧
      s'.key? = upd s.key? (s.heap 0).1 none := by
  unfold Heap.pop?
  rw [if_neg h0]
  refine ⟨_, rfl, ?_⟩
  have hlast : s.size - 1 < s.size := by omega
  generalize hS : ({ s with
      size := s.size - 1
      heap := upd (upd s.heap 0 (s.heap (s.size - 1))) (s.size - 1) (s.heap 0)
      idPos := upd (upd s.idPos (upd (upd s.heap 0 (s.heap (s.size - 1))) (s.size - 1)
        (s.heap 0) 0).1 (some 0)) (upd (upd s.heap 0 (s.heap (s.size - 1))) (s.size - 1)
        (s.heap 0) (s.size - 1)).1 none } : Heap) = S
  have hSs : S.size = s.size - 1 := by rw [← hS]
  have hSc : S.cap = s.cap := by rw [← hS]
  have hheap : ∀ p, p < s.size - 1 → S.heap p = if p = 0 then s.heap (s.size - 1) else s.heap p := by
    intro p hp
    rw [← hS]
    simp only [upd]
    rw [if_neg (by omega)]
  have hid : ∀ i, S.idPos i = if i = (s.heap 0).1 then none
      else if i = (s.heap (s.size - 1)).1 then some 0 else s.idPos i := by
    intro i
    rw [← hS]
    simp only [upd, if_true]
    split
    · rfl
    · by_cases h1 : 0 = s.size - 1
      · rename_i hne
        rw [if_pos h1, if_neg hne, ← h1, if_neg hne]
      · rw [if_neg h1]
  have hpos : PosOk S := by
    refine ⟨?_, ?_⟩
    · intro p hp
      rw [hSs] at hp
      rw [hheap p hp, hid]
      split
      · rename_i hp0
        subst hp0
        have hne : (s.heap (s.size - 1)).1 ≠ (s.heap 0).1 := fun he => by
          have := h.pos.inj hlast (by omega) he
          omega
        rw [if_neg hne, if_pos rfl]
      · rename_i hp0
        have n1 : (s.heap p).1 ≠ (s.heap 0).1 := fun he => by
          have := h.pos.inj (by omega) (by omega) he
          omega
        have n2 : (s.heap p).1 ≠ (s.heap (s.size - 1)).1 := fun he => by
          have := h.pos.inj (by omega) (by omega) he
          omega
        rw [if_neg n1, if_neg n2]
        exact h.pos.fwd p (by omega)
    · intro i p hi
      rw [hid] at hi
      rw [hSs]
      split at hi
      · cases hi
      · rename_i hne0
        split at hi
        · rename_i hl
          cases hi
          have : 0 < s.size - 1 := by
            rcases Nat.eq_zero_or_pos (s.size - 1) with hz | hz
            · rw [hz] at hl; exact absurd hl hne0
            · exact hz
          rw [hheap 0 this]
          simp [this, hl]
        · rename_i hnl
          obtain ⟨h1, h2⟩ := h.pos.bwd i p hi
          have n0 : p ≠ 0 := by rintro rfl; exact hne0 h2.symm
          have nl : p ≠ s.size - 1 := by rintro rfl; exact hnl h2.symm
          rw [hheap p (by omega), if_neg n0]
          exact ⟨by omega, h2⟩
  have hdown : OrderedDown k S 0 := by
    refine ⟨?_, ?_⟩
    · intro p p0 ps hpp
      rw [hSs] at ps
      have := h.ord p p0 (by omega)
      unfold Heap.v at *
      rw [hheap p ps, hheap _ (by omega), if_neg (by omega), if_neg hpp]
      exact this
    · intro c c0 cs hcp hh; omega
  obtain ⟨r1, r2, r3, r4, r5⟩ := siftDown_ok k (s.size - 1) S 0 hpos (by rw [hSs]; omega)
    (by rw [hSs]; omega) hdown
  have hkey : (Heap.siftDown k (s.size - 1) S 0).key? = upd s.key? (s.heap 0).1 none := by
    funext i
    rw [r4 i]
    by_cases hi0 : i = (s.heap 0).1
    · subst hi0; simp [Heap.key?, hid]
    · rw [upd_ne _ _ hi0]
      simp only [Heap.key?]
      rw [hid, if_neg hi0]
      split
      · rename_i hl
        have : 0 < s.size - 1 := by
          rcases Nat.eq_zero_or_pos (s.size - 1) with hz | hz
          · rw [hz] at hl; exact absurd hl hi0
          · exact hz
        rw [hl, h.pos.fwd _ hlast]
        simp [hheap 0 this]
      · rename_i hl
        cases hp : s.idPos i with
        | none => rfl
        | some p =>
          obtain ⟨h1, h2⟩ := h.pos.bwd i p hp
          have n0 : p ≠ 0 := by rintro rfl; exact hi0 h2.symm
          have nl : p ≠ s.size - 1 := by rintro rfl; exact hl h2.symm
          simp [hheap p (by omega), n0]
  refine ⟨Inv.of_keys r1 r5 (r3.trans hSc) ?_, r3.trans hSc, r2.trans hSs, hkey⟩
  intro i hi
  rw [contains_iff, hkey] at hi
  by_cases hi0 : i = (s.heap 0).1
  · subst hi0; simp at hi
  · rw [upd_ne _ _ hi0, ← contains_iff] at hi
    exact h.contains_lt hi

theorem setKey_pos {s : Heap} (h : PosOk s) {pos : Nat} (key : Int) : PosOk (s.setKey pos key) := by
  have : ∀ p, ((s.setKey pos key).heap p).1 = (s.heap p).1 := by
    intro p
    simp only [Heap.setKey, upd]
    split
    · rename_i hp; rw [hp]
    · rfl
  refine ⟨fun p hp => ?_, fun i p hi => ?_⟩
  · rw [this]; exact h.fwd p hp
  · rw [this]; exact h.bwd i p hi

theorem setKey_v (k : Kind) (s : Heap) (pos : Nat) (key : Int) (p : Nat) :
    (s.setKey pos key).v k p = if p = pos then k.val key else s.v k p := by
  simp only [Heap.v, Heap.setKey, upd]
  split <;> rfl

theorem setKey_key {s : Heap} (h : PosOk s) {id pos : Nat} (hid : s.idPos id = some pos)
    (key : Int) : (s.setKey pos key).key? = upd s.key? id (some key) := by
  funext i
  by_cases hi : i = id
  · subst hi; simp [Heap.key?, Heap.setKey, hid]
  · rw [upd_ne _ _ hi]
    simp only [Heap.key?, Heap.setKey]
    cases hp : s.idPos i with
    | none => rfl
    | some p =>
      have hne : p ≠ pos := by
        rintro rfl
        exact hi ((h.bwd i p hp).2.symm.trans (h.bwd id p hid).2)
      simp only [Option.map_some]
      rw [upd_ne _ _ hne]

theorem decrease_ok {k : Kind} {s s' : Heap} {id : Nat} {key : Int} (h : Inv k s)
    (hs : s.decreasePriority? k id key = some s') :
    Inv k s' ∧ s'.cap = s.cap ∧ s'.size = s.size ∧ s'.key? = upd s.key? id (some key) := by
  unfold Heap.decreasePriority? at hs
  split at hs
  · cases hs
  rename_i pos hid
  split at hs
  case isFalse => cases hs
  rename_i hlt
  rw [cmp_iff] at hlt
  have hlt' : s.v k pos < k.val key := hlt
  obtain ⟨hp, hpid⟩ := h.pos.bwd id pos hid
  have hup : OrderedUp k (s.setKey pos key) pos := by
    refine ⟨?_, ?_⟩
    · intro p p0 ps pne
      have := h.ord p p0 ps
      rw [setKey_v, setKey_v, if_neg pne]
      split
      · rename_i hq; rw [hq] at this; omega
      · exact this
    · intro c c0 cs hcp ppos
      have h1 := h.ord c c0 cs
      have h2 := h.ord pos ppos hp
      rw [hcp] at h1
      rw [setKey_v, setKey_v, if_neg (by omega), if_neg (by omega)]
      omega
  obtain ⟨r1, r2, r3, r4, r5⟩ := siftUp_ok k pos (s.setKey pos key) pos (setKey_pos h.pos key) hp
    (Nat.le_refl _) hup
  simp only [Option.some.injEq] at hs
  rw [hs] at r1 r2 r3 r4 r5
  have hkey : s'.key? = upd s.key? id (some key) := by
    rw [← setKey_key h.pos hid]; funext i; exact r4 i
  refine ⟨Inv.of_keys r1 r5 r3 ?_, r3, r2, hkey⟩
  intro i hi
  rw [contains_iff, hkey] at hi
  by_cases hii : i = id
  · subst hii; rw [← hpid]; exact h.ids pos hp
  · rw [upd_ne _ _ hii, ← contains_iff] at hi
    exact h.contains_lt hi

theorem increase_ok {k : Kind} {s s' : Heap} {id : Nat} {key : Int} (h : Inv k s)
    (hs : s.increasePriority? k id key = some s') :
    Inv k s' ∧ s'.cap = s.cap ∧ s'.size = s.size ∧ s'.key? = upd s.key? id (some key) := by
  unfold Heap.increasePriority? at hs
  split at hs
  · cases hs
  rename_i pos hid
  split at hs
  case isFalse => cases hs
  rename_i hlt
  rw [cmp_iff] at hlt
  have hlt' : k.val key < s.v k pos := hlt
  obtain ⟨hp, hpid⟩ := h.pos.bwd id pos hid
  have hdown : OrderedDown k (s.setKey pos key) pos := by
    refine ⟨?_, ?_⟩
    · intro p p0 ps pne
      have := h.ord p p0 ps
      rw [setKey_v, setKey_v, if_neg pne]
      split
      · rename_i hq; rw [hq] at this ⊢; omega
      · exact this
    · intro c c0 cs hcp ppos
      have h1 := h.ord c c0 cs
      have h2 := h.ord pos ppos hp
      rw [hcp] at h1
      rw [setKey_v, setKey_v, if_neg (by omega), if_neg (by omega)]
      omega
  obtain ⟨r1, r2, r3, r4, r5⟩ := siftDown_ok k s.size (s.setKey pos key) pos
    (setKey_pos h.pos key) (Or.inl hp) (by simp [Heap.setKey]) hdown
  simp only [Option.some.injEq] at hs
  rw [hs] at r1 r2 r3 r4 r5
  have hkey : s'.key? = upd s.key? id (some key) := by
    rw [← setKey_key h.pos hid]; funext i; exact r4 i
  refine ⟨Inv.of_keys r1 r5 r3 ?_, r3, r2, hkey⟩
  intro i hi
  rw [contains_iff, hkey] at hi
  by_cases hii : i = id
  · subst hii; rw [← hpid]; exact h.ids pos hp
  · rw [upd_ne _ _ hii, ← contains_iff] at hi
    exact h.contains_lt hi

theorem change_ok {k : Kind} {s s' : Heap} {id : Nat} {key : Int} (h : Inv k s)
    (hs : s.changePriority? k id key = some s') :
    Inv k s' ∧ s'.cap = s.cap ∧ s'.size = s.size ∧ s'.key? = upd s.key? id (some key) := by
  unfold Heap.changePriority? at hs
  split at hs
  · cases hs
  rename_i old hold
  split at hs
  · exact increase_ok h hs
  · rename_i h1
    split at hs
    · exact decrease_ok h hs
    · rename_i h2
      cases hs
      refine ⟨h, rfl, rfl, ?_⟩
      rw [cmp_iff] at h1 h2
      have : old = key := (val_inj k).2 (by omega)
      subst this
      funext i
      by_cases hi : i = id
      · subst hi; rw [upd_same, hold]
      · rw [upd_ne _ _ hi]

theorem clear_ok {k : Kind} {s : Heap} (h : Inv k s) :
    Inv k s.clear ∧ s.clear.cap = s.cap ∧ s.clear.size = 0 ∧ s.clear.key? = fun _ => none := by
  have hfold : ∀ (l : List Nat) (m : Nat → Option Nat) (i : Nat),
      l.foldl (fun m p => upd m (s.heap p).1 none) m i =
        if ∃ p ∈ l, (s.heap p).1 = i then none else m i := by
    intro l
    induction l with
    | nil => intro m i; simp
    | cons a l ih =>
      intro m i
      rw [List.foldl_cons, ih]
      by_cases h1 : ∃ p ∈ l, (s.heap p).1 = i
      · rw [if_pos h1, if_pos]
        obtain ⟨p, hp, he⟩ := h1
        exact ⟨p, List.mem_cons_of_mem _ hp, he⟩
      · rw [if_neg h1]
        by_cases h2 : (s.heap a).1 = i
        · rw [if_pos ⟨a, List.mem_cons_self, h2⟩, ← h2, upd_same]
        · rw [if_neg, upd_ne _ _ (Ne.symm h2)]
          rintro ⟨p, hp, he⟩
          rcases List.mem_cons.1 hp with rfl | hp
          · exact h2 he
          · exact h1 ⟨p, hp, he⟩
  have hnone : ∀ i, s.clear.idPos i = none := by
    intro i
    simp only [Heap.clear, hfold]
    split
    · rfl
    · rename_i hn
      cases hp : s.idPos i with
      | none => rfl
      | some p =>
        obtain ⟨h1, h2⟩ := h.pos.bwd i p hp
        exact absurd ⟨p, List.mem_range.2 h1, h2⟩ hn
  refine ⟨⟨⟨?_, ?_⟩, ?_, ?_⟩, rfl, rfl, ?_⟩
  · intro p hp; cases hp
  · intro i p hi; rw [hnone] at hi; cases hi
  · intro p _ hp; cases hp
  · intro p hp; cases hp
  · funext i; simp [Heap.key?, hnone]

end Verif.Heap

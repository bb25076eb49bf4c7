import Verif.ParallelCompression.Lemmas

namespace Verif.ParallelCompression

def MPc.entry : MPc → Option Nat
  | .idle => none
  | .has e => some e
  | .holding e => some e
  | .got e _ => some e
  | .stored e _ => some e

structure MInv (T N : Nat) (delta : Nat → Nat) (s : Mut) (d : Nat) : Prop where
  hd : d ≤ s.counter
  hN : s.counter ≤ N
  out : s.out = (List.range d).map fun e => (e, pre delta e)
  ok : s.failed = false
  hold : Holders T (fun t => (s.pc t).entry) d s.counter
  holding : ∀ t e, s.pc t = .holding e → e = d
  got : ∀ t e v, s.pc t = .got e v → e = d ∧ v = pre delta d
  stored : ∀ t e v, s.pc t = .stored e v → e = d ∧ v = pre delta d ∧
    s.buf (pos T d) = pre delta d + delta d
  prev : s.buf (prevPos T d) = pre delta d
  locks : ∀ i, i ≤ T → (s.locked i = true ↔
    (∃ e, d ≤ e ∧ e < s.counter ∧ i = pos T e) ∨ (i = prevPos T d ∧ ∃ t, s.pc t = .holding d))

theorem mentry_upd (s : Nat → MPc) (t : Nat) (p : MPc) :
    (fun u => (upd s t p u).entry) = upd (fun u => (s u).entry) t p.entry := by
  funext u
  unfold upd
  split <;> rfl

theorem MInv.init (T N : Nat) (delta : Nat → Nat) : MInv T N delta Mut.init 0 := by
  refine ⟨Nat.le_refl _, Nat.zero_le _, rfl, rfl, ⟨?_, ?_, ?_, ?_⟩, ?_, ?_, ?_, rfl, ?_⟩
  · intro t e h; cases h
  · intro t t' e h; cases h
  · intro t e h; cases h
  · intro e _ h; cases h
  · intro t e h; cases h
  · intro t e v h; cases h
  · intro t e v h; cases h
  · intro i _
    constructor
    · intro h; cases h
    · rintro (⟨e, _, h, _⟩ | ⟨_, t, h⟩)
      · cases h
      · cases h

/-- Two entries in flight less than `T` apart have different slots. -/
theorem pos_inj {T a b c d : Nat} (hb : c - d ≤ T) (ha1 : d ≤ a) (ha2 : a < c) (hb1 : d ≤ b)
    (hb2 : b < c) (h : pos T a = pos T b) : a = b := by
  rcases Nat.lt_trichotomy a b with hlt | heq | hgt
  · exact absurd h (mod_ne hlt (by omega))
  · exact heq
  · exact absurd h.symm (mod_ne hgt (by omega))

theorem MInv.step {T N : Nat} {delta : Nat → Nat} {s : Mut} {d : Nat} (h : MInv T N delta s d)
    (t : Nat) : ∃ d', MInv T N delta (s.step T N delta t) d' := by
  unfold Mut.step
  split
  case isFalse => exact ⟨d, h⟩
  rename_i ht
  have hbound := h.hold.bound
  split
  · -- next
    rename_i hpc
    split
    · rename_i hc
      have hidle : (fun u => (s.pc u).entry) t = none := by simp [hpc, MPc.entry]
      have hb := h.hold.bound_idle h.hd ht hidle
      have hhd := h.hd
      have hfree : s.locked (pos T s.counter) = false := by
        rcases hl : s.locked (pos T s.counter) with _ | _
        · rfl
        · rcases (h.locks _ (pos_le T _)).1 hl with ⟨e, h1, h2, h3⟩ | ⟨h1, _⟩
          · exact absurd h3.symm (mod_ne h2 (by omega))
          · exact absurd h1 (pos_ne_prev hhd (by omega))
      have hnot : ∀ u p, p ≠ MPc.has s.counter → upd s.pc t (.has s.counter) u = p →
          s.pc u = p := by
        intro u p hp hu
        by_cases hut : u = t
        · subst hut; rw [upd_same] at hu; exact absurd hu.symm hp
        · rwa [upd_ne _ _ hut] at hu
      refine ⟨d, by simp only; omega, by simp only; omega, h.out, ?_, ?_, ?_, ?_, ?_, h.prev, ?_⟩
      · simp [h.ok, hfree]
      · exact h.hold.take h.hd ht hidle (mentry_upd _ _ _)
      · intro u e hu; exact h.holding u e (hnot u _ (fun h => nomatch h) hu)
      · intro u e v hu; exact h.got u e v (hnot u _ (fun h => nomatch h) hu)
      · intro u e v hu; exact h.stored u e v (hnot u _ (fun h => nomatch h) hu)
      · intro i hi
        by_cases hip : i = pos T s.counter
        · subst hip
          simp only [upd_same, true_iff]
          exact Or.inl ⟨s.counter, hhd, by omega, rfl⟩
        · simp only [upd_ne _ _ hip]
          rw [h.locks i hi]
          constructor
          · rintro (⟨e, h1, h2, h3⟩ | ⟨h1, u, hu⟩)
            · exact Or.inl ⟨e, h1, by omega, h3⟩
            · refine Or.inr ⟨h1, u, ?_⟩
              have hut : u ≠ t := by intro hut; subst hut; rw [hpc] at hu; cases hu
              rw [upd_ne _ _ hut]; exact hu
          · rintro (⟨e, h1, h2, h3⟩ | ⟨h1, u, hu⟩)
            · have : e ≠ s.counter := by intro he; subst he; exact hip h3
              exact Or.inl ⟨e, h1, by omega, h3⟩
            · exact Or.inr ⟨h1, u, hnot u _ (fun h => nomatch h) hu⟩
    · exact ⟨d, h⟩
  · -- lock the previous slot
    rename_i e hpc
    split
    · exact ⟨d, h⟩
    · rename_i hl
      have hent : (fun u => (s.pc u).entry) t = some e := by simp [hpc, MPc.entry]
      obtain ⟨he1, he2⟩ := h.hold.range t e hent
      have hed : e = d := by
        rcases Nat.lt_or_ge d e with hlt | hge
        · refine absurd ((h.locks _ (prevPos_le T e)).2 (Or.inl ⟨e - 1, by omega, by omega, ?_⟩)) hl
          have := prevPos_succ T (e - 1)
          rwa [show e - 1 + 1 = e by omega] at this
        · omega
      subst hed
      have huniq : ∀ u, (s.pc u).entry = some e → u = t := fun u hu => h.hold.inj u t e hu hent
      refine ⟨e, h.hd, h.hN, h.out, h.ok, ?_, ?_, ?_, ?_, h.prev, ?_⟩
      · apply h.hold.congr
        intro u
        by_cases hut : u = t
        · subst hut; simp [hpc, MPc.entry]
        · simp only [upd_ne _ _ hut]
      · intro u e' hu
        by_cases hut : u = t
        · subst hut; simp at hu; exact hu.symm
        · simp only [upd_ne _ _ hut] at hu; exact h.holding u e' hu
      · intro u e' v' hu
        by_cases hut : u = t
        · subst hut; simp at hu
        · simp only [upd_ne _ _ hut] at hu; exact h.got u e' v' hu
      · intro u e' v' hu
        by_cases hut : u = t
        · subst hut; simp at hu
        · simp only [upd_ne _ _ hut] at hu; exact h.stored u e' v' hu
      · intro i hi
        by_cases hip : i = prevPos T e
        · subst hip
          simp only [upd_same, true_iff]
          exact Or.inr ⟨trivial, t, upd_same ..⟩
        · simp only [upd_ne _ _ hip, hip, false_and, or_false]
          rw [h.locks i hi]
          simp [hip]
  · -- read and unlock the previous slot
    rename_i e hpc
    have := h.holding t e hpc
    subst this
    have hent : (fun u => (s.pc u).entry) t = some e := by simp [hpc, MPc.entry]
    obtain ⟨he1, he2⟩ := h.hold.range t e hent
    refine ⟨e, h.hd, h.hN, h.out, h.ok, ?_, ?_, ?_, ?_, h.prev, ?_⟩
    · apply h.hold.congr
      intro u
      by_cases hut : u = t
      · subst hut; simp [hpc, MPc.entry]
      · simp only [upd_ne _ _ hut]
    · intro u e' hu
      by_cases hut : u = t
      · subst hut; simp at hu
      · simp only [upd_ne _ _ hut] at hu; exact h.holding u e' hu
    · intro u e' v' hu
      by_cases hut : u = t
      · subst hut
        simp only [upd_same, MPc.got.injEq] at hu
        exact ⟨hu.1.symm, by rw [← hu.2]; exact h.prev⟩
      · simp only [upd_ne _ _ hut] at hu; exact h.got u e' v' hu
    · intro u e' v' hu
      by_cases hut : u = t
      · subst hut; simp at hu
      · simp only [upd_ne _ _ hut] at hu; exact h.stored u e' v' hu
    · intro i hi
      have hno : ∀ u, upd s.pc t (.got e (s.buf (prevPos T e))) u ≠ .holding e := by
        intro u hu
        by_cases hut : u = t
        · subst hut; simp at hu
        · rw [upd_ne _ _ hut] at hu
          exact hut (h.hold.inj u t e (by simp [hu, MPc.entry]) hent)
      by_cases hip : i = prevPos T e
      · subst hip
        simp only [upd_same, Bool.false_eq_true, false_iff]
        rintro (⟨e', h1, h2, h3⟩ | ⟨_, u, hu⟩)
        · exact pos_ne_prev h1 (by omega) h3.symm
        · exact hno u hu
      · simp only [upd_ne _ _ hip, hip, false_and, or_false]
        rw [h.locks i hi]
        simp [hip]
  · -- store the sum
    rename_i e v hpc
    obtain ⟨hed, hv⟩ := h.got t e v hpc
    subst hed
    have hent : (fun u => (s.pc u).entry) t = some e := by simp [hpc, MPc.entry]
    refine ⟨e, h.hd, h.hN, h.out, h.ok, ?_, ?_, ?_, ?_, ?_, ?_⟩
    · apply h.hold.congr
      intro u
      by_cases hut : u = t
      · subst hut; simp [hpc, MPc.entry]
      · simp only [upd_ne _ _ hut]
    · intro u e' hu
      by_cases hut : u = t
      · subst hut; simp at hu
      · simp only [upd_ne _ _ hut] at hu; exact h.holding u e' hu
    · intro u e' v' hu
      by_cases hut : u = t
      · subst hut; simp at hu
      · simp only [upd_ne _ _ hut] at hu; exact h.got u e' v' hu
    · intro u e' v' hu
      by_cases hut : u = t
      · subst hut
        simp only [upd_same, MPc.stored.injEq] at hu
        refine ⟨hu.1.symm, by rw [← hu.2]; exact hv, ?_⟩
        simp only [upd_same, hv]
      · simp only [upd_ne _ _ hut] at hu
        obtain ⟨he', hv', _⟩ := h.stored u e' v' hu
        refine ⟨he', hv', ?_⟩
        simp only [upd_same, hv]
    · simp only [upd_ne _ _ (pos_ne_prev (T := T) (Nat.le_refl e) (by omega)).symm]
      exact h.prev
    · intro i hi
      rw [h.locks i hi]
      simp only
      refine or_congr_right (and_congr_right fun _ => exists_congr fun u => ?_)
      by_cases hut : u = t
      · subst hut; simp [hpc]
      · simp only [upd_ne _ _ hut]
  · -- unlock the slot
    rename_i e v hpc
    obtain ⟨hed, hv, hbuf⟩ := h.stored t e v hpc
    subst hed
    have hent : (fun u => (s.pc u).entry) t = some e := by simp [hpc, MPc.entry]
    obtain ⟨_, he2⟩ := h.hold.range t e hent
    have hut : ∀ u, u ≠ t → (s.pc u).entry ≠ some e := fun u hu he => hu (h.hold.inj u t e he hent)
    refine ⟨e + 1, he2, h.hN, ?_, h.ok, ?_, ?_, ?_, ?_, ?_, ?_⟩
    · simp only [h.out, List.range_succ, List.map_append, List.map_cons, List.map_nil, hv]
    · exact h.hold.finish hent (mentry_upd _ _ _)
    · intro u e' hu
      by_cases hu' : u = t
      · subst hu'; simp at hu
      · simp only [upd_ne _ _ hu'] at hu
        have := h.holding u e' hu
        subst this
        exact absurd (by simp [hu, MPc.entry]) (hut u hu')
    · intro u e' v' hu
      by_cases hu' : u = t
      · subst hu'; simp at hu
      · simp only [upd_ne _ _ hu'] at hu
        have := (h.got u e' v' hu).1
        subst this
        exact absurd (by simp [hu, MPc.entry]) (hut u hu')
    · intro u e' v' hu
      by_cases hu' : u = t
      · subst hu'; simp at hu
      · simp only [upd_ne _ _ hu'] at hu
        have := (h.stored u e' v' hu).1
        subst this
        exact absurd (by simp [hu, MPc.entry]) (hut u hu')
    · simp only [prevPos_succ, pre_succ]; exact hbuf
    · intro i hi
      have hnold : ¬ ∃ u, s.pc u = .holding e := by
        rintro ⟨u, hu⟩
        have : u = t := h.hold.inj u t e (by simp [hu, MPc.entry]) hent
        subst this; rw [hpc] at hu; cases hu
      have hnnew : ¬ ∃ u, upd s.pc t .idle u = .holding (e + 1) := by
        rintro ⟨u, hu⟩
        by_cases hu' : u = t
        · subst hu'; simp at hu
        · rw [upd_ne _ _ hu'] at hu
          have := h.holding u _ hu
          omega
      simp only [hnnew, and_false, or_false]
      by_cases hip : i = pos T e
      · subst hip
        simp only [upd_same, Bool.false_eq_true, false_iff]
        rintro ⟨e', h1, h2, h3⟩
        have := pos_inj hbound (Nat.le_refl e) he2 (by omega) h2 h3
        omega
      · simp only [upd_ne _ _ hip]
        rw [h.locks i hi]
        simp only [hnold, and_false, or_false]
        constructor
        · rintro ⟨e', h1, h2, h3⟩
          have : e' ≠ e := by intro hh; subst hh; exact hip h3
          exact ⟨e', by omega, h2, h3⟩
        · rintro ⟨e', h1, h2, h3⟩
          exact ⟨e', by omega, h2, h3⟩

theorem MInv.run (T N : Nat) (delta : Nat → Nat) (sched : List Nat) :
    ∃ d, MInv T N delta (Mut.run T N delta sched) d := by
  unfold Mut.run
  suffices h : ∀ s d, MInv T N delta s d →
      ∃ d', MInv T N delta (sched.foldl (Mut.step T N delta) s) d' from
    h _ 0 (MInv.init T N delta)
  induction sched with
  | nil => intro s d h; exact ⟨d, h⟩
  | cons t sched ih =>
    intro s d h
    obtain ⟨d', h'⟩ := h.step t
    exact ih _ d' h'

/-- Not finished: some thread can take a step that does not block. -/
theorem MInv.progress {T N : Nat} {delta : Nat → Nat} {s : Mut} {d : Nat}
    (h : MInv T N delta s d) (hT : 0 < T) (hd : d < N) :
    ∃ t, t < T ∧ ((s.step T N delta t).pc t ≠ s.pc t) := by
  have hbound := h.hold.bound
  rcases Nat.lt_or_ge d s.counter with hlt | hge
  · obtain ⟨t, ht⟩ := h.hold.surj d (Nat.le_refl _) hlt
    have htT := h.hold.lt t d ht
    refine ⟨t, htT, ?_⟩
    unfold Mut.step
    rw [if_pos htT]
    cases hpc : s.pc t with
    | idle => rw [hpc] at ht; simp [MPc.entry] at ht
    | has e =>
      rw [hpc] at ht
      simp only [MPc.entry, Option.some.injEq] at ht
      subst ht
      have hfree : ¬ s.locked (prevPos T e) = true := by
        rw [h.locks _ (prevPos_le T e)]
        rintro (⟨e', h1, h2, h3⟩ | ⟨_, u, hu⟩)
        · exact pos_ne_prev h1 (by omega) h3.symm
        · have : u = t := h.hold.inj u t e (by simp [hu, MPc.entry]) (by simp [hpc, MPc.entry])
          subst this; rw [hpc] at hu; cases hu
      simp [hfree]
    | holding e => simp
    | got e v => simp
    | stored e v => simp
  · have hc : s.counter = d := by have := h.hd; omega
    refine ⟨0, hT, ?_⟩
    have hidle : s.pc 0 = .idle := by
      cases hpc : s.pc 0 with
      | idle => rfl
      | has e => have := h.hold.range 0 e (by simp [hpc, MPc.entry]); omega
      | holding e => have := h.hold.range 0 e (by simp [hpc, MPc.entry]); omega
      | got e v => have := h.hold.range 0 e (by simp [hpc, MPc.entry]); omega
      | stored e v => have := h.hold.range 0 e (by simp [hpc, MPc.entry]); omega
    unfold Mut.step
    rw [if_pos hT, hidle]
    simp only
    rw [if_pos (by omega)]
    simp

end Verif.ParallelCompression

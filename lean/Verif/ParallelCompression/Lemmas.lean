import Verif.ParallelCompression.Model

namespace Verif.ParallelCompression

/-- Sum of the sizes of the chunks before `e`. -/
def pre (delta : Nat → Nat) (e : Nat) : Nat := ((List.range e).map delta).sum

theorem pre_succ (delta : Nat → Nat) (e : Nat) : pre delta (e + 1) = pre delta e + delta e := by
  simp [pre, List.range_succ]

/-- The entries `d, …, c-1` are held by distinct threads below `T`, one each. -/
structure Holders (T : Nat) (ent : Nat → Option Nat) (d c : Nat) : Prop where
  range : ∀ t e, ent t = some e → d ≤ e ∧ e < c
  inj : ∀ t t' e, ent t = some e → ent t' = some e → t = t'
  lt : ∀ t e, ent t = some e → t < T
  surj : ∀ e, d ≤ e → e < c → ∃ t, ent t = some e

theorem Holders.congr {T d c : Nat} {ent ent' : Nat → Option Nat} (h : Holders T ent d c)
    (he : ∀ t, ent' t = ent t) : Holders T ent' d c := by
  have : ent' = ent := funext he
  rw [this]; exact h

theorem Holders.take {T d c t : Nat} {ent ent' : Nat → Option Nat} (h : Holders T ent d c)
    (hdc : d ≤ c) (ht : t < T) (hidle : ent t = none)
    (he : ent' = upd ent t (some c)) : Holders T ent' d (c + 1) := by
  subst he
  refine ⟨?_, ?_, ?_, ?_⟩
  · intro u e hu
    by_cases hut : u = t
    · subst hut; simp at hu; omega
    · rw [upd_ne _ _ hut] at hu; have := h.range u e hu; omega
  · intro u u' e hu hu'
    by_cases hut : u = t <;> by_cases hut' : u' = t
    · omega
    · subst hut
      rw [upd_ne _ _ hut'] at hu'
      simp at hu
      have := h.range u' e hu'
      omega
    · subst hut'
      rw [upd_ne _ _ hut] at hu
      simp at hu'
      have := h.range u e hu
      omega
    · rw [upd_ne _ _ hut] at hu
      rw [upd_ne _ _ hut'] at hu'
      exact h.inj u u' e hu hu'
  · intro u e hu
    by_cases hut : u = t
    · omega
    · rw [upd_ne _ _ hut] at hu; exact h.lt u e hu
  · intro e h1 h2
    by_cases hec : e = c
    · exact ⟨t, by rw [upd_same, hec]⟩
    · obtain ⟨u, hu⟩ := h.surj e h1 (by omega)
      refine ⟨u, ?_⟩
      have hut : u ≠ t := by intro hut; subst hut; rw [hidle] at hu; cases hu
      rw [upd_ne _ _ hut]; exact hu

theorem Holders.finish {T d c t : Nat} {ent ent' : Nat → Option Nat} (h : Holders T ent d c)
    (ht : ent t = some d) (he : ent' = upd ent t none) : Holders T ent' (d + 1) c := by
  subst he
  refine ⟨?_, ?_, ?_, ?_⟩
  · intro u e hu
    by_cases hut : u = t
    · subst hut; simp at hu
    · rw [upd_ne _ _ hut] at hu
      have := h.range u e hu
      have : e ≠ d := by
        intro hed; subst hed; exact hut (h.inj u t e hu ht)
      omega
  · intro u u' e hu hu'
    by_cases hut : u = t
    · subst hut; simp at hu
    · by_cases hut' : u' = t
      · subst hut'; simp at hu'
      · rw [upd_ne _ _ hut] at hu
        rw [upd_ne _ _ hut'] at hu'
        exact h.inj u u' e hu hu'
  · intro u e hu
    by_cases hut : u = t
    · subst hut; simp at hu
    · rw [upd_ne _ _ hut] at hu; exact h.lt u e hu
  · intro e h1 h2
    obtain ⟨u, hu⟩ := h.surj e (by omega) h2
    refine ⟨u, ?_⟩
    have hut : u ≠ t := by
      intro hut; subst hut; rw [ht] at hu; simp at hu; omega
    rw [upd_ne _ _ hut]; exact hu

/-- No more entries in flight than threads. -/
theorem Holders.bound {T d c : Nat} {ent : Nat → Option Nat} (h : Holders T ent d c) :
    c - d ≤ T := by
  have hch : ∀ e, ∃ t, d ≤ e → e < c → ent t = some e := by
    intro e
    by_cases he : d ≤ e ∧ e < c
    · obtain ⟨t, ht⟩ := h.surj e he.1 he.2
      exact ⟨t, fun _ _ => ht⟩
    · exact ⟨0, fun h1 h2 => absurd ⟨h1, h2⟩ he⟩
  obtain ⟨f, hf⟩ := Classical.axiomOfChoice hch
  have hnd : ((List.range' d (c - d)).map f).Nodup := by
    refine nodup_map_on List.nodup_range' ?_
    intro a ha b hb hab
    simp only [List.mem_range'_1] at ha hb
    have h1 := hf a (by omega) (by omega)
    have h2 := hf b (by omega) (by omega)
    rw [hab, h2] at h1
    simpa using h1.symm
  have hsub : (List.range' d (c - d)).map f ⊆ List.range T := by
    intro x hx
    obtain ⟨e, he, rfl⟩ := List.mem_map.1 hx
    simp only [List.mem_range'_1] at he
    exact List.mem_range.2 (h.lt _ _ (hf e (by omega) (by omega)))
  have := nodup_length_le hnd hsub
  simpa using this

/-- An idle thread leaves room for one more entry. -/
theorem Holders.bound_idle {T d c t : Nat} {ent : Nat → Option Nat} (h : Holders T ent d c)
    (hdc : d ≤ c) (ht : t < T) (hidle : ent t = none) : c + 1 - d ≤ T :=
  (h.take hdc ht hidle rfl).bound

theorem prevPos_eq (T e : Nat) : prevPos T e = (e + T) % (T + 1) := by
  unfold prevPos pos
  have hlt : e % (T + 1) < T + 1 := Nat.mod_lt _ (by omega)
  have hdm := Nat.div_add_mod e (T + 1)
  generalize e % (T + 1) = r at *
  generalize e / (T + 1) = q at *
  subst hdm
  rw [Nat.add_assoc, Nat.mul_add_mod]
  split
  · rename_i h0
    subst h0
    rw [Nat.mod_eq_of_lt (by omega)]
    omega
  · rename_i h0
    have : r + T = (T + 1) + (r - 1) := by omega
    rw [this, Nat.add_mod_left, Nat.mod_eq_of_lt (by omega)]

theorem prevPos_le (T e : Nat) : prevPos T e ≤ T := by
  rw [prevPos_eq]; have := Nat.mod_lt (e + T) (show 0 < T + 1 by omega); omega

theorem pos_le (T e : Nat) : pos T e ≤ T := by
  unfold pos; have := Nat.mod_lt e (show 0 < T + 1 by omega); omega

theorem prevPos_succ (T e : Nat) : prevPos T (e + 1) = pos T e := by
  rw [prevPos_eq, show e + 1 + T = e + (T + 1) by omega, Nat.add_mod_right]; rfl

/-- Slots of entries less than `T + 1` apart are different. -/
theorem mod_ne {T a b : Nat} (h1 : a < b) (h2 : b < a + (T + 1)) : a % (T + 1) ≠ b % (T + 1) := by
  intro h
  have : (b - a) % (T + 1) = 0 := by
    have e : b = a + (b - a) := by omega
    rw [e, Nat.add_mod] at h
    have hlt : a % (T + 1) < T + 1 := Nat.mod_lt _ (by omega)
    have hlt2 : (b - a) % (T + 1) < T + 1 := Nat.mod_lt _ (by omega)
    have hs : (b - a) % (T + 1) = b - a := Nat.mod_eq_of_lt (by omega)
    rw [hs] at h ⊢
    rcases Nat.lt_or_ge (a % (T + 1) + (b - a)) (T + 1) with hc | hc
    · rw [Nat.mod_eq_of_lt hc] at h; omega
    · have hx : (a % (T + 1) + (b - a)) % (T + 1) = a % (T + 1) + (b - a) - (T + 1) := by
        rw [Nat.mod_eq_sub_mod hc]
        exact Nat.mod_eq_of_lt (by omega)
      rw [hx] at h; omega
  rw [Nat.mod_eq_of_lt (by omega)] at this
  omega

theorem pos_ne_prev {T d e : Nat} (h1 : d ≤ e) (h2 : e < d + T) : pos T e ≠ prevPos T d := by
  rw [prevPos_eq]; exact mod_ne h2 (by omega)

theorem prev_ne_prev {T d e : Nat} (h1 : d < e) (h2 : e ≤ d + T) :
    prevPos T e ≠ prevPos T d := by
  rw [prevPos_eq, prevPos_eq]
  exact (mod_ne (a := d + T) (b := e + T) (by omega) (by omega)).symm

/-! ### Spin lock -/

def Pc.entry : Pc → Option Nat
  | .idle => none
  | .has e => some e
  | .loaded e _ => some e
  | .cleared e _ => some e

structure SInv (T N : Nat) (delta : Nat → Nat) (s : Spin) (d : Nat) : Prop where
  hd : d ≤ s.counter
  hN : s.counter ≤ N
  out : s.out = (List.range d).map fun e => (e, pre delta e)
  hold : Holders T (fun t => (s.pc t).entry) d s.counter
  loaded : ∀ t e v, s.pc t = .loaded e v → e = d ∧ v = pre delta d ∧
    s.buf (prevPos T d) = some (pre delta d)
  cleared : ∀ t e v, s.pc t = .cleared e v → e = d ∧ v = pre delta d
  only : ∀ i v, i ≤ T → s.buf i = some v → i = prevPos T d ∧ v = pre delta d ∧
    ∀ t v, s.pc t ≠ .cleared d v
  there : (∀ t v, s.pc t ≠ .cleared d v) → s.buf (prevPos T d) = some (pre delta d)

theorem entry_upd (s : Nat → Pc) (t : Nat) (p : Pc) :
    (fun u => (upd s t p u).entry) = upd (fun u => (s u).entry) t p.entry := by
  funext u
  unfold upd
  split <;> rfl

theorem SInv.init (T N : Nat) (delta : Nat → Nat) : SInv T N delta (Spin.init T) 0 := by
  refine ⟨Nat.le_refl _, Nat.zero_le _, rfl, ⟨?_, ?_, ?_, ?_⟩, ?_, ?_, ?_, ?_⟩
  · intro t e h; cases h
  · intro t t' e h; cases h
  · intro t e h; cases h
  · intro e _ h; cases h
  · intro t e v h; cases h
  · intro t e v h; cases h
  · intro i v _ h
    simp only [Spin.init] at h
    split at h
    · rename_i hi
      cases h
      refine ⟨?_, rfl, fun t v h => by cases h⟩
      rw [prevPos_eq, Nat.zero_add, Nat.mod_eq_of_lt (by omega)]; exact hi
    · cases h
  · intro _
    have : prevPos T 0 = T := by rw [prevPos_eq, Nat.zero_add, Nat.mod_eq_of_lt (by omega)]
    rw [this]; simp [Spin.init, pre]

theorem SInv.step {T N : Nat} {delta : Nat → Nat} {s : Spin} {d : Nat} (h : SInv T N delta s d)
    (t : Nat) : ∃ d', SInv T N delta (s.step T N delta t) d' := by
  unfold Spin.step
  split
  case isFalse => exact ⟨d, h⟩
  rename_i ht
  split
  · -- next
    rename_i hpc
    split
    · rename_i hc
      have hidle : (fun u => (s.pc u).entry) t = none := by simp [hpc, Pc.entry]
      refine ⟨d, by have := h.hd; simp only; omega, by simp only; omega, h.out, ?_, ?_, ?_, ?_, ?_⟩
      · exact h.hold.take h.hd ht hidle (entry_upd _ _ _)
      · intro u e v hu
        by_cases hut : u = t
        · subst hut; simp at hu
        · simp only [upd_ne _ _ hut] at hu; exact h.loaded u e v hu
      · intro u e v hu
        by_cases hut : u = t
        · subst hut; simp at hu
        · simp only [upd_ne _ _ hut] at hu; exact h.cleared u e v hu
      · intro i v hi hb
        obtain ⟨h1, h2, h3⟩ := h.only i v hi hb
        refine ⟨h1, h2, fun u v hu => ?_⟩
        by_cases hut : u = t
        · subst hut; simp at hu
        · simp only [upd_ne _ _ hut] at hu; exact h3 u v hu
      · intro hn
        apply h.there
        intro u v hu
        by_cases hut : u = t
        · subst hut; rw [hpc] at hu; cases hu
        · exact hn u v (by simp only [upd_ne _ _ hut]; exact hu)
    · exact ⟨d, h⟩
  · -- load
    rename_i e hpc
    split
    · exact ⟨d, h⟩
    · rename_i v hv
      have hent : (fun u => (s.pc u).entry) t = some e := by simp [hpc, Pc.entry]
      obtain ⟨he1, he2⟩ := h.hold.range t e hent
      obtain ⟨h1, h2, h3⟩ := h.only _ v (prevPos_le T e) hv
      have hb := h.hold.bound
      have hed : e = d := by
        rcases Nat.lt_or_ge d e with hlt | hge
        · exact absurd h1 (prev_ne_prev hlt (by omega))
        · omega
      subst hed
      have hnc : ∀ u w x, upd s.pc t (.loaded e v) u = .cleared w x → s.pc u = .cleared w x := by
        intro u w x hu
        by_cases hut : u = t
        · subst hut; simp at hu
        · rwa [upd_ne _ _ hut] at hu
      refine ⟨e, h.hd, h.hN, h.out, ?_, ?_, ?_, ?_, ?_⟩
      · apply h.hold.congr
        intro u
        by_cases hut : u = t
        · subst hut; simp [hpc, Pc.entry]
        · simp only [upd_ne _ _ hut]
      · intro u e' v' hu
        by_cases hut : u = t
        · subst hut; simp only [upd_same, Pc.loaded.injEq] at hu
          obtain ⟨rfl, rfl⟩ := hu
          exact ⟨rfl, h2, h2 ▸ hv⟩
        · simp only [upd_ne _ _ hut] at hu; exact h.loaded u e' v' hu
      · intro u e' v' hu; exact h.cleared u e' v' (hnc u e' v' hu)
      · intro i x hi hb'
        obtain ⟨g1, g2, g3⟩ := h.only i x hi hb'
        exact ⟨g1, g2, fun u y hu => g3 u y (hnc u _ _ hu)⟩
      · intro _; exact h2 ▸ hv
  · -- store the lock value
    rename_i e v hpc
    obtain ⟨rfl, rfl, hbuf⟩ := h.loaded t e v hpc
    have hent : (fun u => (s.pc u).entry) t = some e := by simp [hpc, Pc.entry]
    refine ⟨e, h.hd, h.hN, h.out, ?_, ?_, ?_, ?_, ?_⟩
    · apply h.hold.congr
      intro u
      by_cases hut : u = t
      · subst hut; simp [hpc, Pc.entry]
      · simp only [upd_ne _ _ hut]
    · intro u e' v' hu
      by_cases hut : u = t
      · subst hut; simp at hu
      · simp only [upd_ne _ _ hut] at hu
        obtain ⟨he', _, _⟩ := h.loaded u e' v' hu
        subst he'
        have := h.hold.inj u t e' (by simp [hu, Pc.entry]) hent
        exact absurd this hut
    · intro u e' v' hu
      by_cases hut : u = t
      · subst hut; simp only [upd_same, Pc.cleared.injEq] at hu; exact ⟨hu.1.symm, hu.2.symm⟩
      · simp only [upd_ne _ _ hut] at hu; exact h.cleared u e' v' hu
    · intro i x hi hb'
      by_cases hip : i = prevPos T e
      · subst hip; simp at hb'
      · simp only [upd_ne _ _ hip] at hb'
        obtain ⟨g1, _, _⟩ := h.only i x hi hb'
        exact absurd g1 hip
    · intro hn
      exact absurd (upd_same ..) (hn t _)
  · -- publish
    rename_i e v hpc
    obtain ⟨rfl, rfl⟩ := h.cleared t e v hpc
    have hent : (fun u => (s.pc u).entry) t = some e := by simp [hpc, Pc.entry]
    obtain ⟨_, he2⟩ := h.hold.range t e hent
    have hothers : ∀ u w, s.pc u = .cleared (e + 1) w → False := by
      intro u w hu
      have := (h.cleared u _ _ hu).1
      omega
    refine ⟨e + 1, he2, h.hN, ?_, ?_, ?_, ?_, ?_, ?_⟩
    · simp only [h.out, List.range_succ, List.map_append, List.map_cons, List.map_nil]
    · exact h.hold.finish hent (entry_upd _ _ _)
    · intro u e' v' hu
      by_cases hut : u = t
      · subst hut; simp at hu
      · simp only [upd_ne _ _ hut] at hu
        obtain ⟨he', _, _⟩ := h.loaded u e' v' hu
        subst he'
        exact absurd (h.hold.inj u t e' (by simp [hu, Pc.entry]) hent) hut
    · intro u e' v' hu
      by_cases hut : u = t
      · subst hut; simp at hu
      · simp only [upd_ne _ _ hut] at hu
        obtain ⟨he', _⟩ := h.cleared u e' v' hu
        subst he'
        exact absurd (h.hold.inj u t e' (by simp [hu, Pc.entry]) hent) hut
    · intro i x hi hb'
      by_cases hip : i = pos T e
      · subst hip
        simp only [upd_same, Option.some.injEq] at hb'
        refine ⟨(prevPos_succ T e).symm, by rw [pre_succ, ← hb'], ?_⟩
        intro u w hu
        by_cases hut : u = t
        · subst hut; simp at hu
        · simp only [upd_ne _ _ hut] at hu; exact hothers u w hu
      · simp only [upd_ne _ _ hip] at hb'
        obtain ⟨_, _, g3⟩ := h.only i x hi hb'
        exact absurd hpc (g3 t _)
    · intro _
      simp only [prevPos_succ, upd_same, pre_succ]

theorem SInv.run (T N : Nat) (delta : Nat → Nat) (sched : List Nat) :
    ∃ d, SInv T N delta (Spin.run T N delta sched) d := by
  unfold Spin.run
  suffices h : ∀ s d, SInv T N delta s d →
      ∃ d', SInv T N delta (sched.foldl (Spin.step T N delta) s) d' from
    h _ 0 (SInv.init T N delta)
  induction sched with
  | nil => intro s d h; exact ⟨d, h⟩
  | cons t sched ih =>
    intro s d h
    obtain ⟨d', h'⟩ := h.step t
    exact ih _ d' h'

/-- Not finished: some thread can take a step that makes progress. -/
theorem SInv.progress {T N : Nat} {delta : Nat → Nat} {s : Spin} {d : Nat}
    (h : SInv T N delta s d) (hT : 0 < T) (hd : d < N) :
    ∃ t, t < T ∧ ((s.step T N delta t).pc t ≠ s.pc t) := by
  rcases Nat.lt_or_ge d s.counter with hlt | hge
  · obtain ⟨t, ht⟩ := h.hold.surj d (Nat.le_refl _) hlt
    have htT := h.hold.lt t d ht
    refine ⟨t, htT, ?_⟩
    unfold Spin.step
    rw [if_pos htT]
    cases hpc : s.pc t with
    | idle => rw [hpc] at ht; simp [Pc.entry] at ht
    | has e =>
      rw [hpc] at ht
      simp only [Pc.entry, Option.some.injEq] at ht
      subst ht
      have hnc : ∀ u v, s.pc u ≠ .cleared e v := by
        intro u v hu
        have := h.hold.inj u t e (by simp [hu, Pc.entry]) (by simp [hpc, Pc.entry])
        subst this
        rw [hpc] at hu
        cases hu
      simp only [h.there hnc, upd_same]
      exact fun h => nomatch h
    | loaded e v => simp
    | cleared e v => simp
  · have hc : s.counter = d := by have := h.hd; omega
    refine ⟨0, hT, ?_⟩
    have hidle : s.pc 0 = .idle := by
      cases hpc : s.pc 0 with
      | idle => rfl
      | has e => have := h.hold.range 0 e (by simp [hpc, Pc.entry]); omega
      | loaded e v => have := h.hold.range 0 e (by simp [hpc, Pc.entry]); omega
      | cleared e v => have := h.hold.range 0 e (by simp [hpc, Pc.entry]); omega
    unfold Spin.step
    rw [if_pos hT, hidle]
    simp only
    rw [if_pos (by omega)]
    simp

end Verif.ParallelCompression

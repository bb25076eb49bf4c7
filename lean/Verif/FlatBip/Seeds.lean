import Verif.FlatBip.Fill

/-! Lemmas: the search for a node that is far away. -/

namespace Verif.FlatBip
open Finset
open Verif.InitialFM

theorem seedVisit_fold {n cap : Nat} (hcap : n ≤ cap) : ∀ (l : List (Nat × Int)) (s : Seed), (∀ e ∈ l, e.1 < n) →
    s.pushed = cnt n s.marked → ∃ (N : List Nat) (m : Nat → Bool),
      l.foldlM (seedVisit? cap) s =
        some { s with queue := s.queue ++ N, pushed := s.pushed + N.length, marked := m, next := s.next + N.length } ∧
      s.pushed + N.length = cnt n m ∧ (∀ v, m v = true ↔ s.marked v = true ∨ v ∈ N) ∧
      (∀ v ∈ N, s.marked v = false ∧ ∃ e ∈ l, e.1 = v) ∧ ∀ e ∈ l, m e.1 = true
  | [], s, _, hp => ⟨[], s.marked, by simp [pure], by simpa using hp, by simp, by simp, by simp⟩
  | e :: l, s, hl, hp => by
    have hl' : ∀ e ∈ l, e.1 < n := fun x hx => hl x (List.mem_cons_of_mem _ hx)
    rw [List.foldlM_cons]
    unfold seedVisit?
    by_cases hm : s.marked e.1 = true
    · rw [if_pos hm]
      obtain ⟨N, m, h1, h2, h3, h4, h5⟩ := seedVisit_fold hcap l s hl' hp
      refine ⟨N, m, h1, h2, h3, fun v hv => ?_, fun x hx => ?_⟩
      · obtain ⟨h6, y, hy, h7⟩ := h4 v hv
        exact ⟨h6, y, List.mem_cons_of_mem _ hy, h7⟩
      · rcases List.mem_cons.1 hx with rfl | hx
        · exact (h3 _).2 (Or.inl hm)
        · exact h5 x hx
    · rw [if_neg hm]
      have hm : s.marked e.1 = false := by simpa using hm
      have he := hl e List.mem_cons_self
      have := cnt_lt he hm
      rw [if_pos (by omega)]
      simp only [Option.bind_eq_bind, Option.bind_some]
      obtain ⟨N, m, h1, h2, h3, h4, h5⟩ := seedVisit_fold hcap l { s with
        queue := s.queue ++ [e.1], pushed := s.pushed + 1, marked := upd s.marked e.1 true, next := s.next + 1 } hl'
        (by show s.pushed + 1 = _; rw [hp]; exact (cnt_upd he hm).symm)
      refine ⟨e.1 :: N, m, ?_, ?_, fun v => ?_, fun v hv => ?_, fun x hx => ?_⟩
      · refine h1.trans ?_
        congr 1
        simp only [List.append_assoc, List.singleton_append, List.length_cons, Seed.mk.injEq, true_and]
        omega
      · rw [← h2]
        show s.pushed + (N.length + 1) = s.pushed + 1 + N.length
        omega
      · rw [h3]
        show upd s.marked e.1 true v = true ∨ _ ↔ _
        by_cases hv : v = e.1
        · subst hv; simp
        · rw [upd_ne _ _ hv]; simp [hv]
      · rcases List.mem_cons.1 hv with rfl | hv
        · exact ⟨hm, e, List.mem_cons_self, rfl⟩
        · obtain ⟨h6, y, hy, h7⟩ := h4 v hv
          change upd s.marked e.1 true v = false at h6
          refine ⟨?_, y, List.mem_cons_of_mem _ hy, h7⟩
          by_cases hve : v = e.1
          · rw [hve]; exact hm
          · rwa [upd_ne _ _ hve] at h6
      · rcases List.mem_cons.1 hx with rfl | hx
        · exact (h3 _).2 (Or.inl (by show upd s.marked x.1 true x.1 = true; simp))
        · exact h5 x hx

/-- The invariant of the search from `r`: `A` is what is left of the current level, `B` what is known of the next one. -/
structure SInv (g : Graph) (r : Nat) (A B : List Nat) (s : Seed) : Prop where
  queue : s.queue = A ++ B
  rem : s.remaining = A.length
  next : s.next = B.length
  empty : A = [] → B = []
  pushed : s.pushed = cnt g.n s.marked
  mA : ∀ v ∈ A, IsDist g r v s.dist
  mB : ∀ v ∈ B, IsDist g r v (s.dist + 1)
  lt : ∀ v, s.marked v = true → v < g.n
  mem : ∀ v ∈ A ++ B, s.marked v = true
  done : ∀ v, s.marked v = true → v ∈ A ∨ v ∈ B ∨
    ((∀ e ∈ g.adj v, s.marked e.1 = true) ∧ ∃ k, IsDist g r v k ∧ k ≤ s.dist ∧ (A = [] → k < s.dist))
  all : ∀ d v, d ≤ s.dist → Walk g d r v → s.marked v = true
  last : A = [] → 0 < s.dist ∧ IsDist g r s.last (s.dist - 1) ∧ s.marked s.last = true

theorem isDist_unique {g : Graph} {u v d d' : Nat} (h : IsDist g u v d) (h' : IsDist g u v d') : d = d' :=
  le_antisymm (h.2 _ h'.1) (h'.2 _ h.1)

theorem seed_step {g : Graph} (hg : g.WF) {cap : Nat} (hcap : g.n ≤ cap) {r u : Nat} {A B : List Nat} {s : Seed} (h : SInv g r (u :: A) B s) :
    ∃ A' B' s1 s', (g.adj u).foldlM (seedVisit? cap) { s with queue := A ++ B, last := u } = some s1 ∧ seedLevel? s1 = some s' ∧
      SInv g r A' B' s' ∧ (g.n - cnt g.n s'.marked) + s'.queue.length + 1 = (g.n - cnt g.n s.marked) + s.queue.length := by
  have hmu := h.mem u (by simp)
  have hu := h.lt u hmu
  have hdu := h.mA u List.mem_cons_self
  obtain ⟨N, m, h1, h2, h3, h4, h5⟩ := seedVisit_fold hcap (g.adj u) { s with queue := A ++ B, last := u } (hg u hu) h.pushed
  change s.pushed + N.length = cnt g.n m at h2
  change ∀ v, m v = true ↔ s.marked v = true ∨ v ∈ N at h3
  change ∀ v ∈ N, s.marked v = false ∧ _ at h4
  have hrem : s.remaining = A.length + 1 := by rw [h.rem, List.length_cons]
  -- new nodes have distance `dist + 1`
  have hN : ∀ v ∈ N, v < g.n ∧ IsDist g r v (s.dist + 1) := by
    intro v hv
    obtain ⟨h6, e, he, rfl⟩ := h4 v hv
    refine ⟨hg u hu e he, .snoc hdu.1 e he, fun d hw => ?_⟩
    by_contra hlt
    rw [h.all d e.1 (by omega) hw] at h6; cases h6
  have hmono : ∀ v, s.marked v = true → m v = true := fun v hv => (h3 v).2 (Or.inl hv)
  have hlt : ∀ v, m v = true → v < g.n := by
    intro v hv
    rcases (h3 v).1 hv with h6 | h6
    · exact h.lt v h6
    · exact (hN v h6).1
  have hmB : ∀ v ∈ B ++ N, IsDist g r v (s.dist + 1) := by
    intro v hv
    rcases List.mem_append.1 hv with h6 | h6
    · exact h.mB v h6
    · exact (hN v h6).2
  have hdone : ∀ v, m v = true → v ∈ A ∨ v ∈ B ++ N ∨
      ((∀ e ∈ g.adj v, m e.1 = true) ∧ ∃ k, IsDist g r v k ∧ k ≤ s.dist) := by
    intro v hv
    rcases (h3 v).1 hv with h6 | h6
    · rcases h.done v h6 with h7 | h7 | ⟨h7, k, h8, h9, _⟩
      · rcases List.mem_cons.1 h7 with rfl | h7
        · exact Or.inr (Or.inr ⟨h5, s.dist, hdu, le_refl _⟩)
        · exact Or.inl h7
      · exact Or.inr (Or.inl (List.mem_append_left _ h7))
      · exact Or.inr (Or.inr ⟨fun e he => hmono _ (h7 e he), k, h8, h9⟩)
    · exact Or.inr (Or.inl (List.mem_append_right _ h6))
  have hcnt : (g.n - cnt g.n m) + (A ++ B ++ N).length + 1 = (g.n - cnt g.n s.marked) + s.queue.length := by
    have h6 := cnt_le g.n m
    have h7 := h.pushed
    rw [h.queue]
    simp only [List.length_append, List.length_cons]
    omega
  by_cases hA : A = []
  · subst hA
    let s' : Seed := ⟨[] ++ B ++ N, s.pushed + N.length, m, s.dist + 1, u, s.next + N.length, 0⟩
    refine ⟨B ++ N, [], _, s', h1, ?_, ?_, ?_⟩
    · unfold seedLevel?
      simp only [hrem, List.length_nil]
      rfl
    · refine ⟨(List.append_nil _).symm, ?_, rfl, fun _ => rfl, h2, hmB, by simp, hlt, ?_, ?_, ?_, ?_⟩
      · show s.next + N.length = _; rw [h.next, List.length_append]
      · intro v hv
        rw [List.append_nil] at hv
        show m v = true
        rcases List.mem_append.1 hv with h6 | h6
        · exact hmono v (h.mem v (by simp [h6]))
        · exact (h3 v).2 (Or.inr h6)
      · intro v hv
        rcases hdone v hv with h6 | h6 | ⟨h6, k, h7, h8⟩
        · cases h6
        · exact Or.inl h6
        · exact Or.inr (Or.inr ⟨h6, k, h7, by show k ≤ s.dist + 1; omega, fun _ => by show k < s.dist + 1; omega⟩)
      · intro d v hd hw
        change d ≤ s.dist + 1 at hd
        show m v = true
        rcases (by omega : d ≤ s.dist ∨ d = s.dist + 1) with h6 | h6
        · exact hmono v (h.all d v h6 hw)
        · subst h6
          cases hw with
          | snoc hw e he =>
            rename_i x
            rcases hdone x (hmono x (h.all _ x (le_refl _) hw)) with h7 | h7 | ⟨h7, _⟩
            · cases h7
            · have := (hmB x h7).2 _ hw
              omega
            · exact h7 e he
      · intro _
        exact ⟨Nat.succ_pos _, by show IsDist g r u (s.dist + 1 - 1); simpa using hdu, hmono u hmu⟩
    · exact hcnt
  · let s' : Seed := ⟨A ++ B ++ N, s.pushed + N.length, m, s.dist, u, A.length, s.next + N.length⟩
    refine ⟨A, B ++ N, _, s', h1, ?_, ?_, ?_⟩
    · unfold seedLevel?
      have : A.length ≠ 0 := by simpa using hA
      simp only [hrem]
      rw [if_neg (by omega), if_neg (by omega)]
      rfl
    · refine ⟨List.append_assoc _ _ _, rfl, ?_, fun h => absurd h hA, h2, fun v hv => h.mA v (List.mem_cons_of_mem _ hv), hmB, hlt, ?_, ?_, ?_,
        fun h => absurd h hA⟩
      · show s.next + N.length = _; rw [h.next, List.length_append]
      · intro v hv
        show m v = true
        rcases List.mem_append.1 hv with h6 | h6
        · exact hmono v (h.mem v (by simp [h6]))
        · rcases List.mem_append.1 h6 with h6 | h6
          · exact hmono v (h.mem v (by simp [h6]))
          · exact (h3 v).2 (Or.inr h6)
      · intro v hv
        rcases hdone v hv with h6 | h6 | ⟨h6, k, h7, h8⟩
        · exact Or.inl h6
        · exact Or.inr (Or.inl h6)
        · exact Or.inr (Or.inr ⟨h6, k, h7, h8, fun h => absurd h hA⟩)
      · intro d v hd hw
        exact hmono v (h.all d v hd hw)
    · exact hcnt

theorem seedLoop_ok {g : Graph} (hg : g.WF) {cap : Nat} (hcap : g.n ≤ cap) {r : Nat} : ∀ (fuel : Nat) (A B : List Nat) (s : Seed),
    SInv g r A B s → (g.n - cnt g.n s.marked) + s.queue.length ≤ fuel →
    ∃ s', seedLoop? g cap fuel s = some s' ∧ SInv g r [] [] s'
  | fuel, [], B, s, h, hf => by
    have hB := h.empty rfl
    subst hB
    have hq : s.queue = [] := by simpa using h.queue
    cases fuel with
    | zero => unfold seedLoop?; rw [if_pos hq]; exact ⟨s, rfl, h⟩
    | succ fuel => unfold seedLoop?; rw [hq]; exact ⟨s, rfl, h⟩
  | 0, u :: A, B, s, h, hf => by
    rw [h.queue] at hf; simp at hf
  | fuel + 1, u :: A, B, s, h, hf => by
    obtain ⟨A', B', s1, s', h1, h2, h3, h4⟩ := seed_step hg hcap h
    obtain ⟨s'', h5, h6⟩ := seedLoop_ok hg hcap fuel A' B' s' h3 (by omega)
    refine ⟨s'', ?_, h6⟩
    unfold seedLoop?
    have hq := h.queue
    rw [List.cons_append] at hq
    rw [hq]
    simp only [Option.bind_eq_bind]
    rw [h1]
    simp only [Option.bind_some]
    rw [h2]
    exact h5

theorem isDist_self (g : Graph) (r : Nat) : IsDist g r r 0 := ⟨.nil r, fun _ _ => Nat.zero_le _⟩

theorem walk_closed {g : Graph} {r : Nat} {m : Nat → Bool} (hr : m r = true) (hc : ∀ v, m v = true → ∀ e ∈ g.adj v, m e.1 = true) {d v : Nat}
    (h : Walk g d r v) : m v = true := by
  induction h with
  | nil => exact hr
  | snoc _ e he ih => exact hc _ (ih hr) e he

theorem furthest_ok {g : Graph} (hg : g.WF) {cap : Nat} (hcap : g.n ≤ cap) (inf : Nat) {r : Nat} (hr : r < g.n) :
    ∃ v d, furthest? g cap inf r = some (v, d) ∧ Furthest g inf r v d := by
  unfold furthest?
  have hcnt : cnt g.n (upd (fun _ => false) r true) = 1 := by
    rw [cnt_upd hr rfl]
    simp [cnt]
  obtain ⟨s, h1, h2⟩ := seedLoop_ok hg hcap (r := r) g.n [r] []
    { queue := [r], pushed := 1, marked := upd (fun _ => false) r true, dist := 0, last := r, remaining := 1, next := 0 }
    (by
      refine ⟨rfl, rfl, rfl, (fun h => by cases h), hcnt.symm, ?_, by simp, ?_, ?_, ?_, ?_, (fun h => by cases h)⟩
      · intro v hv; rw [List.mem_singleton.1 hv]; exact isDist_self g r
      · intro v hv
        by_cases h : v = r
        · rw [h]; exact hr
        · change upd (fun _ => false) r true v = true at hv
          rw [upd_ne _ _ h] at hv; cases hv
      · intro v hv
        have : v = r := by simpa using hv
        rw [this]; show upd (fun _ => false) r true r = true; simp
      · intro v hv
        left
        by_cases h : v = r
        · simp [h]
        · change upd (fun _ => false) r true v = true at hv
          rw [upd_ne _ _ h] at hv; cases hv
      · intro d v hd hw
        have : d = 0 := by simpa using hd
        subst this
        cases hw
        show upd (fun _ => false) r true r = true; simp)
    (by show g.n - cnt g.n (upd (fun _ => false) r true) + 1 ≤ g.n; rw [hcnt]; omega)
  rw [if_pos (by omega), h1]
  simp only [Option.bind_eq_bind, Option.bind_some]
  obtain ⟨h3, h4, h5⟩ := h2.last rfl
  rw [if_neg (by omega)]
  have hreach : ∀ d v, Walk g d r v → s.marked v = true := by
    intro d v hw
    refine walk_closed (h2.all 0 r (Nat.zero_le _) (.nil r)) (fun x hx e he => ?_) hw
    rcases h2.done x hx with h6 | h6 | ⟨h6, _⟩
    · cases h6
    · cases h6
    · exact h6 e he
  by_cases hf : firstUnmarked g.n s.marked < g.n
  · rw [if_pos hf]
    refine ⟨_, _, rfl, hf, Or.inr ⟨fun d hw => ?_, rfl⟩⟩
    have := hreach d _ hw
    rw [firstUnmarked_lt hf] at this; cases this
  · rw [if_neg hf]
    refine ⟨_, _, rfl, h2.lt _ h5, Or.inl ⟨h4, fun x hx => ?_⟩⟩
    rcases h2.done x (firstUnmarked_all hf hx) with h6 | h6 | ⟨_, k, h7, _, h8⟩
    · cases h6
    · cases h6
    · have := h8 rfl
      exact ⟨k, by omega, h7.1⟩

/-- The pair that is kept is the best one so far. -/
theorem far_fold {g : Graph} (hg : g.WF) {cap : Nat} (hcap : g.n ≤ cap) {inf : Nat} : ∀ (xs : List (Nat × Bool)) (s : Nat × (Nat × Nat)),
    (∀ x ∈ xs, x.1 < g.n) → ∃ s', xs.foldlM (farStep? g cap inf) s = some s' ∧
      (s' = s ∨ ∃ x ∈ xs, s'.2.1 = x.1 ∧ furthest? g cap inf x.1 = some (s'.2.2, s'.1)) ∧ s.1 ≤ s'.1 ∧
      ∀ x ∈ xs, ∀ v d, furthest? g cap inf x.1 = some (v, d) → d ≤ s'.1
  | [], s, _ => ⟨s, rfl, Or.inl rfl, le_refl _, by simp⟩
  | x :: xs, s, hx => by
    obtain ⟨v, d, h1, h2⟩ := furthest_ok hg hcap inf (hx x List.mem_cons_self)
    rw [List.foldlM_cons]
    unfold farStep?
    rw [h1]
    simp only [Option.bind_eq_bind, Option.bind_some]
    by_cases hc : s.1 < d ∨ (d = s.1 ∧ x.2 = true)
    · rw [if_pos hc]
      obtain ⟨s', h3, h4, h5, h6⟩ := far_fold hg hcap xs (d, (x.1, v)) fun y hy => hx y (List.mem_cons_of_mem _ hy)
      change d ≤ s'.1 at h5
      refine ⟨s', h3, ?_, by rcases hc with h | ⟨h, _⟩ <;> omega, ?_⟩
      · rcases h4 with h4 | ⟨y, hy, h4⟩
        · subst h4; exact Or.inr ⟨x, List.mem_cons_self, rfl, h1⟩
        · exact Or.inr ⟨y, List.mem_cons_of_mem _ hy, h4⟩
      · intro y hy v' d' hy'
        rcases List.mem_cons.1 hy with rfl | hy
        · rw [h1] at hy'; cases hy'; exact h5
        · exact h6 y hy v' d' hy'
    · rw [if_neg hc]
      obtain ⟨s', h3, h4, h5, h6⟩ := far_fold hg hcap xs s fun y hy => hx y (List.mem_cons_of_mem _ hy)
      refine ⟨s', h3, ?_, h5, ?_⟩
      · rcases h4 with h4 | ⟨y, hy, h4⟩
        · exact Or.inl h4
        · exact Or.inr ⟨y, List.mem_cons_of_mem _ hy, h4⟩
      · intro y hy v' d' hy'
        rcases List.mem_cons.1 hy with rfl | hy
        · rw [h1] at hy'; cases hy'
          rw [not_or] at hc
          omega
        · exact h6 y hy v' d' hy'

end Verif.FlatBip

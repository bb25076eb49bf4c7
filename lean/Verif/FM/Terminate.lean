import Verif.FM.Loop

/-! # Every local search ends -/

namespace Verif.FM
open Finset Verif.DynMaps Verif.Maps Verif.Delta Verif.Gains

/-- A node that the search can still pop. -/
def alive (s : State) (w : Worker) (u : Nat) : Bool := s.owner u == unlocked || s.owner u == w.id

/-- A node whose key is larger than its gain. -/
def stale (c : Cfg) (s : State) (w : Worker) (u : Nat) : Bool :=
  match w.pq (s.sh.part u) u, findBestDelta? c s w.loc u with
  | some key, some (_, gain) => decide (gain < key)
  | _, _ => false

/-- Decreases in every iteration. -/
def potential (c : Cfg) (s : State) (w : Worker) : Nat :=
  (c.g.n + 1) * (List.range c.g.n).countP (alive s w) + (List.range c.g.n).countP (stale c s w)

theorem countP_lt {p q : Nat → Bool} {l : List Nat} (h : ∀ x ∈ l, p x = true → q x = true) {u : Nat} (hu : u ∈ l)
    (hp : p u = false) (hq : q u = true) : l.countP p < l.countP q := by
  induction l with
  | nil => exact absurd hu List.not_mem_nil
  | cons a l ih =>
    rw [List.countP_cons, List.countP_cons]
    have hle : l.countP p ≤ l.countP q := List.countP_mono_left fun x hx => h x (List.mem_cons_of_mem _ hx)
    rcases List.mem_cons.1 hu with rfl | hu
    · simp [hp, hq]; omega
    · have := ih (fun x hx => h x (List.mem_cons_of_mem _ hx)) hu
      have ha := h a List.mem_cons_self
      cases hpa : p a with
      | false => cases hqa : q a <;> simp <;> omega
      | true => rw [ha hpa]; simp; omega

theorem iterate_lt {c : Cfg} {p0 : Nat → Nat} {o0 : Nat → Int} {v : Nat → Nat} {s : State} {w : Worker} (hc : Ok c)
    (h : J c p0 o0 v s w) (ht : Targets c s w) {m : Nat} (hr : Room w (m + 1)) {b u : Nat} {key : Int}
    (hx : w.pq b u = some key) :
    ∃ v' s' w', iterate? c (s, w) b u key = some (s', w') ∧ J c p0 o0 v' s' w' ∧ Targets c s' w' ∧ Room w' m ∧
      potential c s' w' < potential c s w := by
  obtain ⟨hu, hbu, ho⟩ := h.pq b u key hx
  obtain ⟨t, gain, h1, h2⟩ := h.best hu
  unfold iterate?
  simp only [h1, Option.bind_eq_bind, Option.bind_some]
  obtain ⟨v', s', w', k1, k2, k3, k4, k5⟩ := process_ok hc h ht hr hx h2
  refine ⟨v', s', w', k1, k2, k3, k4, ?_⟩
  have hun : u ∈ List.range c.g.n := List.mem_range.2 hu
  by_cases hlt : gain < key
  · unfold process? at k1
    rw [if_pos hlt, change_ok hx] at k1
    simp only [Option.bind_eq_bind, Option.bind_some, Option.some.injEq, Prod.mk.injEq] at k1
    obtain ⟨rfl, rfl⟩ := k1
    have h3 : (List.range c.g.n).countP (stale c { s with target := upd s.target u t }
        { w with pq := upd w.pq b (upd (w.pq b) u (some gain)) }) < (List.range c.g.n).countP (stale c s w) := by
      apply countP_lt _ hun
      · show (match upd w.pq b (upd (w.pq b) u (some gain)) (s.sh.part u) u, findBestDelta? c s w.loc u with
          | some key, some (_, gain) => decide (gain < key)
          | _, _ => false) = false
        rw [upd2, if_pos ⟨hbu.symm, rfl⟩, h1]
        simp
      · show (match w.pq (s.sh.part u) u, findBestDelta? c s w.loc u with
          | some key, some (_, gain) => decide (gain < key)
          | _, _ => false) = true
        rw [← hbu, hx, h1]
        simpa using hlt
      · intro x _
        show (match upd w.pq b (upd (w.pq b) u (some gain)) (s.sh.part x) x, findBestDelta? c s w.loc x with
          | some key, some (_, gain) => decide (gain < key)
          | _, _ => false) = true → (match w.pq (s.sh.part x) x, findBestDelta? c s w.loc x with
          | some key, some (_, gain) => decide (gain < key)
          | _, _ => false) = true
        by_cases hxu : x = u
        · subst hxu
          rw [upd2, if_pos ⟨hbu.symm, rfl⟩, h1]
          intro hf; simp at hf
        · rw [upd2, if_neg (by rintro ⟨_, h⟩; exact hxu h)]
          exact id
    unfold potential
    exact Nat.add_lt_add_left h3 _
  · rcases k5 with k5 | ⟨k5, k6, k7, k8⟩
    · exact absurd k5 hlt
    · have h3 : (List.range c.g.n).countP (alive s' w') < (List.range c.g.n).countP (alive s w) := by
        apply countP_lt _ hun
        · unfold alive; rw [k5]; simp [k6, k7]
        · unfold alive; simp [ho]
        · intro x _ hx
          unfold alive at hx ⊢
          rw [k5] at hx
          simp only [Bool.or_eq_true, beq_iff_eq] at hx ⊢
          exact k8 x hx
      have h4 : (List.range c.g.n).countP (stale c s' w') ≤ c.g.n := by
        have := List.countP_le_length (l := List.range c.g.n) (p := stale c s' w')
        rwa [List.length_range] at this
      unfold potential
      have h5 : (c.g.n + 1) * ((List.range c.g.n).countP (alive s' w') + 1) ≤
          (c.g.n + 1) * (List.range c.g.n).countP (alive s w) := Nat.mul_le_mul_left _ h3
      rw [Nat.mul_add, Nat.mul_one] at h5
      omega

/-- More iterations than the potential do not change the result. -/
theorem search_ends {c : Cfg} (hc : Ok c) {p0 : Nat → Nat} {o0 : Nat → Int} (strat : Strategy) : ∀ (fuel : Nat)
    (v : Nat → Nat) (s : State) (w : Worker) (j : Nat), J c p0 o0 v s w → Targets c s w → Room w fuel →
    potential c s w < fuel → search? c strat (fuel + j) (s, w) = search? c strat fuel (s, w)
  | 0, v, s, w, j, _, _, _, hp => absurd hp (Nat.not_lt_zero _)
  | fuel + 1, v, s, w, j, h, ht, hr, hp => by
    rw [show fuel + 1 + j = (fuel + j) + 1 by omega]
    unfold search?
    cases hst : strat s w with
    | none => rfl
    | some bu =>
      obtain ⟨b, u⟩ := bu
      simp only
      cases hx : w.pq b u with
      | none => rfl
      | some key =>
        simp only
        obtain ⟨v1, s1, w1, h1, h2, h3, h4, h5⟩ := iterate_lt hc h ht (m := fuel) hr hx
        simp only [h1, Option.bind_eq_bind, Option.bind_some]
        exact search_ends hc strat fuel v1 s1 w1 j h2 h3 h4 (by omega)

theorem potential_lt (c : Cfg) (s : State) (w : Worker) : potential c s w < (c.g.n + 1) * (c.g.n + 1) := by
  have h1 := List.countP_le_length (l := List.range c.g.n) (p := stale c s w)
  have h2 := List.countP_le_length (l := List.range c.g.n) (p := alive s w)
  rw [List.length_range] at h1 h2
  unfold potential
  have := Nat.mul_le_mul_left (c.g.n + 1) h2
  rw [Nat.mul_add (c.g.n + 1) c.g.n 1]
  omega

end Verif.FM

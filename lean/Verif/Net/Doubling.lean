import Verif.Net.Exchange
import Mathlib.Algebra.BigOperators.Group.List.Basic
import Mathlib.Data.List.GetD
import Mathlib.Tactic.Ring

/-!
# One execution of the doubling allreduce
-/

namespace Verif.Net

variable {μ β : Type}

/-- All ranks exchange a message with a partner. -/
theorem run_pairs {N : Nat} (nb : Nat → Nat) (hlt : ∀ r, r < N → nb r < N) (hinv : ∀ r, r < N → nb (nb r) = r) (e : Nat → Bool) (m : Nat → μ)
    (k : Nat → μ → Prog μ β) (s : St μ β)
    (hs : ∀ r, r < N → s.procs r = .send (nb r) (e r) (m r) (.recv (nb r) fun x => .wait (nb r) (k r x))) (hnet : s.net = idle) :
    ∃ t, Runs N s t ∧ (∀ r, r < N → t.procs r = k r (m (nb r))) ∧ t.net = idle := by
  obtain ⟨s1, hr1, hp1, hn1⟩ := sweep (N := N) (s := s) (fun j t => (∀ r, r < N → t.procs r = if r < j
      then .recv (nb r) fun x => .wait (nb r) (k r x) else s.procs r) ∧
      t.net = fun x y => if x < j ∧ y = nb x then [(m x, e x)] else []) ⟨by simp, by rw [hnet]; funext x y; simp [idle]⟩ (by
    intro j hj t ⟨hp, hn⟩
    have hpj := hp j hj
    rw [if_neg (Nat.lt_irrefl j), hs j hj] at hpj
    refine ⟨_, Runs.step hj (k := .recv (nb j) fun x => .wait (nb j) (k j x)) (net := setNet t.net j (nb j) (t.net j (nb j) ++ [(m j, e j)])) (by
      rw [hpj]; simp only [lstep, hlt j hj, if_true]) (.refl _), ?_, ?_⟩
    · intro r hr
      by_cases he : r = j
      · subst he; simp
      · simp only [upd_ne _ _ he, hp r hr]
        congr 1
        simp only [eq_iff_iff]
        omega
    · funext x y
      simp only [setNet, hn]
      grind)
  obtain ⟨s2, hr2, hp2, hn2⟩ := sweep (N := N) (s := s1) (fun j t => (∀ r, r < N → t.procs r = if r < j
      then .wait (nb r) (k r (m (nb r))) else .recv (nb r) fun x => .wait (nb r) (k r x)) ∧
      t.net = fun x y => if x < N ∧ y = nb x ∧ j ≤ y then [(m x, e x)] else []) ⟨by
        intro r hr
        rw [hp1 r hr, if_pos hr, if_neg (Nat.not_lt_zero r)], by rw [hn1]; funext x y; simp⟩ (by
    intro j hj t ⟨hp, hn⟩
    have hpj := hp j hj
    rw [if_neg (Nat.lt_irrefl j)] at hpj
    refine ⟨_, Runs.step hj (k := .wait (nb j) (k j (m (nb j)))) (net := setNet t.net (nb j) j []) (by
      rw [hpj]
      simp only [lstep, hn, hlt j hj, hinv j hj, Nat.le_refl, and_self, if_true]) (.refl _), ?_, ?_⟩
    · intro r hr
      by_cases he : r = j
      · subst he; simp
      · simp only [upd_ne _ _ he, hp r hr]
        congr 1
        simp only [eq_iff_iff]
        omega
    · funext x y
      simp only [setNet, hn]
      have := hinv x
      by_cases h1 : x < N ∧ y = nb x
      · obtain ⟨h1, rfl⟩ := h1
        by_cases h2 : nb x = j
        · have h3 : x = nb j := by rw [← h2, hinv x h1]
          rw [if_pos ⟨h3, h2⟩, if_neg (by omega)]
        · have h3 : (j + 1 ≤ nb x) = (j ≤ nb x) := by simp only [eq_iff_iff]; omega
          simp only [h2, h3, and_false, if_false]
      · have h3 : ∀ i, ¬(x < N ∧ y = nb x ∧ i ≤ y) := fun i h => h1 ⟨h.1, h.2.1⟩
        simp only [h3, if_false, ite_self])
  have hn2 : s2.net = idle := by
    rw [hn2]; funext x y
    simp only [idle]
    rw [if_neg]
    intro ⟨h1, h2, h3⟩
    have := hlt x h1
    omega
  obtain ⟨s3, hr3, hp3, hn3⟩ := sweep (N := N) (s := s2) (fun j t => (∀ r, r < N → t.procs r = if r < j
      then k r (m (nb r)) else .wait (nb r) (k r (m (nb r)))) ∧ t.net = idle) ⟨by
        intro r hr
        rw [hp2 r hr, if_pos hr, if_neg (Nat.not_lt_zero r)], hn2⟩ (by
    intro j hj t ⟨hp, hn⟩
    have hpj := hp j hj
    rw [if_neg (Nat.lt_irrefl j)] at hpj
    refine ⟨_, Runs.step hj (k := k j (m (nb j))) (net := t.net) (by
      rw [hpj]; simp [lstep, hn, idle]) (.refl _), ?_, hn⟩
    intro r hr
    by_cases he : r = j
    · subst he; simp
    · simp only [upd_ne _ _ he, hp r hr]
      congr 1
      simp only [eq_iff_iff]
      omega)
  exact ⟨s3, (hr1.trans hr2).trans hr3, fun r hr => by rw [hp3 r hr, if_pos hr], hn3⟩

/-! ## Partners -/

theorem neighbor_cases (r it : Nat) : (r % (2 * 2 ^ it) < 2 ^ it ∧ neighbor r it = r + 2 ^ it) ∨
    (2 ^ it ≤ r % (2 * 2 ^ it) ∧ neighbor r it = r - 2 ^ it) := by
  unfold neighbor
  rw [Nat.mul_div_cancel_left _ (by decide)]
  split
  · left; exact ⟨by assumption, rfl⟩
  · right; exact ⟨by omega, rfl⟩

theorem split_rank (D r : Nat) (hD : 0 < D) : ∃ q b, r = q * (2 * D) + b ∧ b < 2 * D ∧ r % (2 * D) = b :=
  ⟨r / (2 * D), r % (2 * D), (by rw [Nat.mul_comm]; exact (Nat.div_add_mod r (2 * D)).symm), Nat.mod_lt _ (by omega), rfl⟩

theorem neighbor_lt {p it r : Nat} (hit : it < p) (hr : r < 2 ^ p) : neighbor r it < 2 ^ p := by
  have hD : 0 < 2 ^ it := Nat.pow_pos (by decide)
  obtain ⟨q, b, h1, h2, h3⟩ := split_rank (2 ^ it) r hD
  rcases neighbor_cases r it with ⟨h4, h5⟩ | ⟨h4, h5⟩
  · have hp : 2 ^ p = 2 ^ (p - (it + 1)) * (2 * 2 ^ it) := by
      rw [← pow_succ', ← pow_add]; congr 1; omega
    rw [h5, hp, h1]
    rw [hp, h1] at hr
    rw [h3] at h4
    have hq : q < 2 ^ (p - (it + 1)) := by
      by_contra hc
      have := Nat.mul_le_mul_right (2 * 2 ^ it) (Nat.le_of_not_lt hc)
      omega
    have := Nat.mul_le_mul_right (2 * 2 ^ it) (Nat.succ_le_of_lt hq)
    rw [Nat.succ_mul] at this
    omega
  · omega

theorem neighbor_inv (r it : Nat) : neighbor (neighbor r it) it = r := by
  have hD : 0 < 2 ^ it := Nat.pow_pos (by decide)
  obtain ⟨q, b, h1, h2, h3⟩ := split_rank (2 ^ it) r hD
  have hmod : ∀ c, c < 2 * 2 ^ it → (q * (2 * 2 ^ it) + c) % (2 * 2 ^ it) = c := by
    intro c hc
    rw [Nat.mul_comm, Nat.mul_add_mod, Nat.mod_eq_of_lt hc]
  rcases neighbor_cases r it with ⟨h4, h5⟩ | ⟨h4, h5⟩
  · have h6 : neighbor r it = q * (2 * 2 ^ it) + (b + 2 ^ it) := by rw [h5]; omega
    have h7 := hmod (b + 2 ^ it) (by omega)
    rw [← h6] at h7
    rcases neighbor_cases (neighbor r it) it with ⟨h8, h9⟩ | ⟨h8, h9⟩ <;> omega
  · have h6 : neighbor r it = q * (2 * 2 ^ it) + (b - 2 ^ it) := by rw [h5]; omega
    have h7 := hmod (b - 2 ^ it) (by omega)
    rw [← h6] at h7
    rcases neighbor_cases (neighbor r it) it with ⟨h8, h9⟩ | ⟨h8, h9⟩ <;> omega

section
variable {α : Type} [AddCommMonoid α] [DecidableEq α]

/-- The sum over the block of `2 ^ it` ranks that contains a rank. -/
def blockSum (f : Nat → α) (it r : Nat) : α := ((List.range (2 ^ it)).map fun j => f (r / 2 ^ it * 2 ^ it + j)).sum

omit [DecidableEq α] in
theorem blockSum_succ (f : Nat → α) (it r : Nat) : blockSum f (it + 1) r = blockSum f it r + blockSum f it (neighbor r it) := by
  have hD : 0 < 2 ^ it := Nat.pow_pos (by decide)
  obtain ⟨q, b, h1, h2, h3⟩ := split_rank (2 ^ it) r hD
  have e0 : ∀ c, c < 2 ^ it → (q * (2 * 2 ^ it) + c) / 2 ^ it * 2 ^ it = q * (2 * 2 ^ it) := by
    intro c hc
    rw [show q * (2 * 2 ^ it) + c = c + 2 ^ it * (2 * q) by ring, Nat.add_mul_div_left _ _ hD, Nat.div_eq_of_lt hc]
    ring
  have e1 : ∀ c, c < 2 ^ it → (q * (2 * 2 ^ it) + (c + 2 ^ it)) / 2 ^ it * 2 ^ it = q * (2 * 2 ^ it) + 2 ^ it := by
    intro c hc
    rw [show q * (2 * 2 ^ it) + (c + 2 ^ it) = c + 2 ^ it * (2 * q + 1) by ring, Nat.add_mul_div_left _ _ hD, Nat.div_eq_of_lt hc]
    ring
  have e2 : blockSum f (it + 1) r = ((List.range (2 ^ it)).map fun j => f (q * (2 * 2 ^ it) + j)).sum +
      ((List.range (2 ^ it)).map fun j => f (q * (2 * 2 ^ it) + 2 ^ it + j)).sum := by
    unfold blockSum
    rw [show 2 ^ (it + 1) = 2 * 2 ^ it by ring]
    have : r / (2 * 2 ^ it) = q := by
      rw [h1, Nat.mul_comm q, Nat.mul_add_div (by omega), Nat.div_eq_of_lt h2, Nat.add_zero]
    rw [this, show 2 * 2 ^ it = 2 ^ it + 2 ^ it by ring, List.range_add, List.map_append, List.sum_append, List.map_map]
    congr 3
    funext j
    simp only [Function.comp_apply, Nat.add_assoc]
  rw [e2]
  rcases neighbor_cases r it with ⟨h4, h5⟩ | ⟨h4, h5⟩
  · have h6 : neighbor r it = q * (2 * 2 ^ it) + (b + 2 ^ it) := by rw [h5]; omega
    unfold blockSum
    rw [h6, e1 b (by omega), h1, e0 b (by omega)]
  · obtain ⟨c, hc⟩ : ∃ c, b = c + 2 ^ it := ⟨b - 2 ^ it, by omega⟩
    have h6 : neighbor r it = q * (2 * 2 ^ it) + c := by rw [h5]; omega
    unfold blockSum
    rw [h6, e0 c (by omega), h1, hc, e1 c (by omega), add_comm]

/-! ## Buffers -/

theorem addSparse_ok (b c : List α) : ∀ (size : Nat), size ≤ b.length →
    ∃ b', addSparse? b (sparse size c) = some b' ∧ b'.length = b.length ∧
      ∀ i, b'.getD i 0 = if i < size then b.getD i 0 + c.getD i 0 else b.getD i 0 := by
  intro size
  induction size with
  | zero => intro _; exact ⟨b, rfl, rfl, fun i => by simp⟩
  | succ n ih =>
    intro hn
    obtain ⟨b', h1, h2, h3⟩ := ih (by omega)
    unfold sparse addSparse? at *
    rw [List.range_succ, List.filterMap_append, List.foldlM_append, h1]
    simp only [Option.bind_eq_bind, Option.bind_some]
    by_cases hc : c.getD n 0 = 0
    · simp only [List.filterMap_cons, List.filterMap_nil, hc, ne_eq, not_true, if_false, List.foldlM_nil]
      refine ⟨b', rfl, h2, fun i => ?_⟩
      rw [h3 i]
      by_cases hi : i = n
      · subst hi; rw [if_neg (Nat.lt_irrefl _), if_pos (Nat.lt_succ_self _), hc, add_zero]
      · have : (i < n + 1) = (i < n) := by simp only [eq_iff_iff]; omega
        simp only [this]
    · simp only [List.filterMap_cons, List.filterMap_nil, hc, ne_eq, not_false_eq_true, if_true, List.foldlM_cons, List.foldlM_nil]
      rw [if_pos (by omega)]
      refine ⟨_, rfl, by simpa using h2, fun i => ?_⟩
      by_cases hi : i = n
      · subst hi
        rw [if_pos (Nat.lt_succ_self _), List.getD_eq_getElem _ _ (by simp; omega), List.getElem_set_self, h3 i, if_neg (Nat.lt_irrefl _)]
      · have : (i < n + 1) = (i < n) := by simp only [eq_iff_iff]; omega
        simp only [this]
        rw [← h3 i, List.getD_eq_getElem?_getD, List.getElem?_set_ne (fun h => hi h.symm), ← List.getD_eq_getElem?_getD]

/-- From an iteration on, the rounds that are left. -/
theorem run_doubling {p size : Nat} (eager : Nat → Nat → Bool) (buf0 : Nat → List α) (k : Nat → List α → Prog (List (Nat × α)) β) :
    ∀ (fuel it : Nat), it ≤ p → p < it + fuel → ∀ (buf : Nat → List α) (s : St (List (Nat × α)) β),
    (∀ r, r < 2 ^ p → (buf r).length = (buf0 r).length ∧ size ≤ (buf0 r).length ∧
      ∀ i, (buf r).getD i 0 = if i < size then blockSum (fun x => (buf0 x).getD i 0) it r else (buf0 r).getD i 0) →
    (∀ r, r < 2 ^ p → s.procs r = doubling (2 ^ p) size r (eager r) fuel it (buf r) (k r)) → s.net = idle →
    ∃ (t : St (List (Nat × α)) β) (res : Nat → List α), Runs (2 ^ p) s t ∧ t.net = idle ∧ ∀ r, r < 2 ^ p → t.procs r = k r (res r) ∧
      (res r).length = (buf0 r).length ∧
      ∀ i, (res r).getD i 0 = if i < size then blockSum (fun x => (buf0 x).getD i 0) p r else (buf0 r).getD i 0 := by
  intro fuel
  induction fuel with
  | zero => intro it h1 h2; omega
  | succ fuel ih =>
    intro it hit hf buf s hb hs hn
    by_cases he : it = p
    · subst he
      refine ⟨s, buf, .refl s, hn, fun r hr => ⟨?_, (hb r hr).1, (hb r hr).2.2⟩⟩
      rw [hs r hr]
      simp only [doubling]
      rw [if_neg]
      have : 0 < 2 ^ it := Nat.pow_pos (by decide)
      omega
    · have hlt : it < p := by omega
      have hc : 2 * 2 ^ it < 2 ^ p + 1 := by
        have := Nat.pow_le_pow_right (n := 2) (by decide) (show it + 1 ≤ p by omega)
        rw [Nat.pow_succ] at this
        omega
      choose! b' hb1 hb2 hb3 using fun r (hr : r < 2 ^ p) => addSparse_ok (buf r) (buf (neighbor r it)) size (by rw [(hb r hr).1]; exact (hb r hr).2.1)
      obtain ⟨t, h1, h2, h3⟩ := run_pairs (N := 2 ^ p) (fun r => neighbor r it) (fun r hr => neighbor_lt hlt hr) (fun r _ => neighbor_inv r it)
        (fun r => eager r it) (fun r => sparse size (buf r)) (fun r m => match addSparse? (buf r) m with
          | some b => doubling (2 ^ p) size r (eager r) fuel (it + 1) b (k r)
          | none => .fail) s (by
          intro r hr
          rw [hs r hr]
          simp only [doubling, hc, if_true]
          rfl) hn
      obtain ⟨u, res, h4, h5, h6⟩ := ih (it + 1) (by omega) (by omega) b' t (by
        intro r hr
        refine ⟨by rw [hb2 r hr, (hb r hr).1], (hb r hr).2.1, fun i => ?_⟩
        rw [hb3 r hr i, (hb r hr).2.2 i, (hb _ (neighbor_lt hlt hr)).2.2 i]
        by_cases hi : i < size
        · simp only [hi, if_true]
          rw [blockSum_succ]
        · simp only [hi, if_false]) (by
        intro r hr
        rw [h2 r hr, hb1 r hr]) h3
      exact ⟨u, res, h1.trans h4, h5, h6⟩

end

end Verif.Net

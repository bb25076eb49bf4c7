import Verif.Dist.Shift
import Verif.Dist.ContractLists

/-!
# Lemmas: filling processes up to a common number of coarse nodes
-/

namespace Verif.Dist
open Verif.Math

/-- The number of coarse nodes that are needed to fill all processes up to `y` coarse nodes, but none above the number of its nodes. -/
def fillTo (caps : Nat → Nat) (l : List (Nat × Nat)) (y : Nat) : Nat := (l.map fun x => min y (caps x.1) - x.2).sum

/-- The same for the processes in the heap, above the level `x`. -/
def heapTo (h : List Nat) (y x : Nat) : Nat := (h.map fun c => min y c - x).sum

theorem heapTo_shift {x c y : Nat} (hx : x ≤ c) (hy : c ≤ y) : ∀ {h : List Nat}, (∀ d, d ∈ h → c ≤ d) → heapTo h y x = heapTo h y c + h.length * (c - x)
  | [], _ => by simp [heapTo]
  | d :: h, hd => by
    have ih := heapTo_shift hx hy (h := h) fun e he => hd e (List.mem_cons_of_mem _ he)
    have := hd d List.mem_cons_self
    unfold heapTo at ih ⊢
    rw [List.map_cons, List.sum_cons, List.map_cons, List.sum_cons, ih, List.length_cons, Nat.succ_mul]
    omega

theorem heapTo_small {x y : Nat} : ∀ {h : List Nat}, (∀ d, d ∈ h → y ≤ d) → heapTo h y x = h.length * (y - x)
  | [], _ => by simp [heapTo]
  | d :: h, hd => by
    have ih := heapTo_small (x := x) (y := y) (h := h) fun e he => hd e (List.mem_cons_of_mem _ he)
    have := hd d List.mem_cons_self
    unfold heapTo at ih ⊢
    rw [List.map_cons, List.sum_cons, ih, List.length_cons, Nat.succ_mul, Nat.min_eq_left this]
    omega

theorem fillTo_append (caps : Nat → Nat) (l l' : List (Nat × Nat)) (y : Nat) : fillTo caps (l ++ l') y = fillTo caps l y + fillTo caps l' y := by
  unfold fillTo; rw [List.map_append, List.sum_append]

theorem fillTo_mono (caps : Nat → Nat) (l : List (Nat × Nat)) {y z : Nat} (h : y ≤ z) : fillTo caps l y ≤ fillTo caps l z :=
  natSum_le fun x _ => by omega

theorem fillTo_perm (caps : Nat → Nat) {l l' : List (Nat × Nat)} (h : l.Perm l') (y : Nat) : fillTo caps l y = fillTo caps l' y :=
  (h.map _).sum_nat

theorem fillTo_zero (caps : Nat → Nat) {y : Nat} : ∀ {l : List (Nat × Nat)}, (∀ x, x ∈ l → y ≤ x.2) → fillTo caps l y = 0
  | [], _ => rfl
  | x :: l, h => by
    have ih := fillTo_zero caps (y := y) (l := l) fun z hz => h z (List.mem_cons_of_mem _ hz)
    have := h x List.mem_cons_self
    unfold fillTo at ih ⊢
    rw [List.map_cons, List.sum_cons, ih]
    omega

/-- The loop over the heap. -/
theorem drain_ok {Φ : Nat → Nat} {incTo O : Nat} : ∀ (h : List Nat) (over num x : Nat), h.Pairwise (· ≤ ·) → (∀ c, c ∈ h → x ≤ c) → num = h.length →
    x ≤ incTo → (∀ y, x ≤ y → Φ y = Φ x + heapTo h y x) → over + Φ x = O → (0 < over ∨ 0 < num) →
    ∃ over' num' x' h', drain? incTo over num x h = some (over', num', x', h') ∧ x' ≤ incTo ∧ over' + Φ x' = O ∧ (0 < over' ∨ 0 < num') ∧
      ((h'.Pairwise (· ≤ ·) ∧ (∀ c, c ∈ h' → incTo ≤ c) ∧ num' = h'.length ∧ ∀ y, x' ≤ y → Φ y = Φ x' + heapTo h' y x') ∨
       (0 < num' ∧ ∃ c, x' ≤ c ∧ c < incTo ∧ over' ≤ num' * (c - x') ∧ ∀ y, x' ≤ y → y ≤ c → Φ y = Φ x' + num' * (y - x')))
  | [], over, num, x, _, _, hn, hx, hJ, hO, hp =>
    ⟨over, num, x, [], rfl, hx, hO, hp, Or.inl ⟨List.Pairwise.nil, fun _ h => absurd h List.not_mem_nil, hn, hJ⟩⟩
  | c :: h, over, num, x, hs, hge, hn, hx, hJ, hO, hp => by
    rw [List.pairwise_cons] at hs
    have hxc := hge c List.mem_cons_self
    have hn' : num = h.length + 1 := by rw [hn, List.length_cons]
    rw [drain?]
    by_cases hc : c < incTo
    · rw [if_pos hc, if_pos ⟨hxc, by omega⟩]
      have hall : ∀ y, x ≤ y → y ≤ c → Φ y = Φ x + num * (y - x) := by
        intro y h1 h2
        rw [hJ y h1, heapTo_small, hn]
        intro d hd
        rcases List.mem_cons.1 hd with rfl | hd
        · exact h2
        · have := hs.1 d hd; omega
      by_cases ho : num * (c - x) < over
      · rw [if_pos ho]
        have hc' := hall c hxc (Nat.le_refl c)
        refine drain_ok h (over - num * (c - x)) (num - 1) c hs.2 hs.1 (by omega) (by omega) ?_ (by omega) (Or.inl (by omega))
        intro y hy
        have h1 := hJ y (by omega)
        have h2 : heapTo (c :: h) y x = (min y c - x) + heapTo h y x := by unfold heapTo; rw [List.map_cons, List.sum_cons]
        have h3 := heapTo_shift hxc hy hs.1
        rw [h2, h3, Nat.min_eq_right hy] at h1
        rw [hn', Nat.succ_mul] at hc'
        omega
      · rw [if_neg ho]
        exact ⟨over, num, x, h, rfl, hx, hO, Or.inr (by omega), Or.inr ⟨by omega, c, hxc, hc, by omega, hall⟩⟩
    · rw [if_neg hc]
      refine ⟨over, num, x, c :: h, rfl, hx, hO, hp, Or.inl ⟨List.pairwise_cons.2 hs, ?_, hn, hJ⟩⟩
      intro d hd
      rcases List.mem_cons.1 hd with rfl | hd
      · omega
      · have := hs.1 d hd; omega

/-- The level `L`, with `r` processes one above it, uses `O` coarse nodes. -/
def Level (Φ : Nat → Nat) (O L r : Nat) : Prop := Φ L + r = O ∧ (r = 0 ∨ O < Φ (L + 1))

theorem level_of {Φ : Nat → Nat} {O over num x c : Nat} (hO : over + Φ x = O) (hn : 0 < num) (hc : over ≤ num * (c - x))
    (hx : x ≤ c) (hall : ∀ y, x ≤ y → y ≤ c → Φ y = Φ x + num * (y - x)) : Level Φ O (x + over / num) (over % num) := by
  have hdiv : over / num ≤ c - x := Nat.div_le_of_le_mul hc
  have hdm := Nat.div_add_mod over num
  have hmod := Nat.mod_lt over hn
  have hz := Nat.zero_le (over / num)
  generalize over / num = d at *
  generalize over % num = m at *
  have h1 := hall (x + d) (by omega) (by omega)
  rw [show x + d - x = d by omega] at h1
  refine ⟨by omega, ?_⟩
  by_cases hr : m = 0
  · exact Or.inl hr
  · right
    have hlt : d < c - x := by
      rcases Nat.lt_or_ge d (c - x) with h | h
      · exact h
      · have he : d = c - x := Nat.le_antisymm hdiv h
        rw [he] at hdm
        omega
    have h2 := hall (x + d + 1) (by omega) (by omega)
    rw [show x + d + 1 - x = d + 1 by omega, Nat.mul_succ] at h2
    omega

/-- The loop over the processes. -/
theorem minLoad_ok {caps : Nat → Nat} {O : Nat} : ∀ (todo P : List (Nat × Nat)) (over num : Nat) (heap : List Nat) (a : Nat × Nat),
    (a :: todo).Pairwise (fun x y => x.2 ≤ y.2) → (∀ x, x ∈ a :: todo → x.2 ≤ caps x.1) → (∀ x, x ∈ P → x.2 ≤ a.2) →
    heap.Pairwise (· ≤ ·) → (∀ c, c ∈ heap → a.2 ≤ c) → num = heap.length →
    (∀ y, a.2 ≤ y → fillTo caps P y = fillTo caps P a.2 + heapTo heap y a.2) → over + fillTo caps P a.2 = O → (0 < over ∨ P = []) →
    ∃ L r rem, minLoad? caps over num heap (a :: todo) = some (L, r, rem) ∧
      ((rem = 0 ∧ Level (fillTo caps (P ++ a :: todo)) O L r ∧ (O = 0 ∨ ∃ b, b ∈ P ++ a :: todo ∧ O ≤ fillTo caps (P ++ a :: todo) b.2)) ∨
       (0 < rem ∧ ∃ b, b ∈ P ++ a :: todo ∧ (∀ x, x ∈ P ++ a :: todo → x.2 ≤ b.2) ∧ rem + fillTo caps (P ++ a :: todo) b.2 = O))
  | [], P, over, num, heap, a, hs, hcap, hP, _, _, _, _, hO, hp => by
    have hlast : ∀ y, y ≤ a.2 → fillTo caps (P ++ [a]) y = fillTo caps P y := by
      intro y hy
      rw [fillTo_append, fillTo_zero caps (l := [a])]
      · omega
      · intro x hx; rw [List.mem_singleton.1 hx]; exact hy
    refine ⟨0, 0, over, rfl, ?_⟩
    rcases Nat.eq_zero_or_pos over with h0 | h0
    · left
      have hPn : P = [] := by
        rcases hp with hp | hp
        · omega
        · exact hp
      subst hPn
      have : O = 0 := by rw [← hO, h0]; rfl
      subst this
      exact ⟨h0, ⟨by rw [hlast 0 (Nat.zero_le _)]; rfl, Or.inl rfl⟩, Or.inl rfl⟩
    · right
      refine ⟨h0, a, List.mem_append_right _ List.mem_cons_self, ?_, by rw [hlast _ (Nat.le_refl _)]; exact hO⟩
      intro x hx
      rcases List.mem_append.1 hx with hx | hx
      · exact hP x hx
      · rw [List.mem_singleton.1 hx]
  | b :: todo, P, over, num, heap, a, hs, hcap, hP, hh, hge, hn, hJ, hO, hp => by
    have hs0 := hs
    rw [List.pairwise_cons] at hs
    have hab := hs.1 b List.mem_cons_self
    have hca := hcap a List.mem_cons_self
    have hb : ∀ x, x ∈ b :: todo → b.2 ≤ x.2 := by
      intro x hx
      rcases List.mem_cons.1 hx with rfl | hx
      · exact Nat.le_refl _
      · exact (List.pairwise_cons.1 hs.2).1 x hx
    have happ : P ++ a :: b :: todo = (P ++ [a]) ++ b :: todo := by rw [List.append_assoc]; rfl
    have hbelow : ∀ y, y ≤ b.2 → fillTo caps (P ++ a :: b :: todo) y = fillTo caps (P ++ [a]) y := by
      intro y hy
      rw [happ, fillTo_append, fillTo_zero caps (l := b :: todo)]
      · omega
      · intro x hx; have := hb x hx; omega
    have hperm := List.perm_orderedInsert (· ≤ ·) (caps a.1) heap
    have hsort : (heap.orderedInsert (· ≤ ·) (caps a.1)).Pairwise (· ≤ ·) := List.Pairwise.orderedInsert _ _ hh
    have hge' : ∀ c, c ∈ heap.orderedInsert (· ≤ ·) (caps a.1) → a.2 ≤ c := by
      intro c hc
      rcases List.mem_cons.1 (hperm.mem_iff.1 hc) with rfl | hc
      · exact hca
      · exact hge c hc
    have hone : ∀ y, fillTo caps [a] y = min y (caps a.1) - a.2 := by
      intro y; unfold fillTo; simp
    have hJ' : ∀ y, a.2 ≤ y → fillTo caps (P ++ [a]) y = fillTo caps (P ++ [a]) a.2 + heapTo (heap.orderedInsert (· ≤ ·) (caps a.1)) y a.2 := by
      intro y hy
      have h1 : heapTo (heap.orderedInsert (· ≤ ·) (caps a.1)) y a.2 = (min y (caps a.1) - a.2) + heapTo heap y a.2 := by
        unfold heapTo
        rw [(hperm.map _).sum_nat, List.map_cons, List.sum_cons]
      rw [fillTo_append, fillTo_append, hone, hone, h1, hJ y hy]
      omega
    have hO' : over + fillTo caps (P ++ [a]) a.2 = O := by
      rw [fillTo_append, hone]; omega
    obtain ⟨over', num', x', h', e, hx', hO'', hp', hcase⟩ := drain_ok (incTo := b.2) _ over (num + 1) a.2 hsort hge'
      (by rw [hperm.length_eq, List.length_cons, hn]) hab hJ' hO' (Or.inr (by omega))
    have hmem : b ∈ P ++ a :: b :: todo := List.mem_append_right _ (List.mem_cons_of_mem _ List.mem_cons_self)
    have hfin : 0 < num' → ∀ c, x' ≤ c → c ≤ b.2 → over' ≤ num' * (c - x') →
        (∀ y, x' ≤ y → y ≤ c → fillTo caps (P ++ [a]) y = fillTo caps (P ++ [a]) x' + num' * (y - x')) →
        Level (fillTo caps (P ++ a :: b :: todo)) O (x' + over' / num') (over' % num') ∧ O ≤ fillTo caps (P ++ a :: b :: todo) b.2 := by
      intro hn0 c h1 h2 h3 h4
      have h4' : ∀ y, x' ≤ y → y ≤ c → fillTo caps (P ++ a :: b :: todo) y = fillTo caps (P ++ a :: b :: todo) x' + num' * (y - x') := by
        intro y g1 g2
        rw [hbelow y (by omega), hbelow x' (by omega), h4 y g1 g2]
      refine ⟨level_of (by rw [hbelow x' (by omega)]; exact hO'') hn0 h3 h1 h4', ?_⟩
      have g1 := h4' c h1 (Nat.le_refl c)
      have g2 := fillTo_mono caps (P ++ a :: b :: todo) h2
      rw [hbelow x' (by omega)] at g1
      omega
    rw [minLoad?, e, Option.bind_some]
    show ∃ L r rem, (if x' ≤ b.2 then
        if num' * (b.2 - x') < over' then minLoad? caps (over' - num' * (b.2 - x')) num' h' (b :: todo)
        else if num' = 0 then none else some (x' + over' / num', over' % num', 0)
      else none) = some (L, r, rem) ∧ _
    rw [if_pos hx']
    rcases hcase with ⟨k1, k2, k3, k4⟩ | ⟨k1, c, k2, k3, k4, k5⟩
    · have hlin : ∀ y, x' ≤ y → y ≤ b.2 → fillTo caps (P ++ [a]) y = fillTo caps (P ++ [a]) x' + num' * (y - x') := by
        intro y g1 g2
        rw [k4 y g1, heapTo_small, k3]
        intro d hd
        have := k2 d hd; omega
      by_cases ho : num' * (b.2 - x') < over'
      · rw [if_pos ho]
        have hl := hlin b.2 hx' (Nat.le_refl _)
        have ih := minLoad_ok (O := O) todo (P ++ [a]) (over' - num' * (b.2 - x')) num' h' b hs.2 (fun x hx => hcap x (List.mem_cons_of_mem _ hx)) ?_ k1 k2 k3
          ?_ (by omega) (Or.inl (by omega))
        · rw [← happ] at ih
          exact ih
        · intro x hx
          rcases List.mem_append.1 hx with hx | hx
          · have := hP x hx; omega
          · rw [List.mem_singleton.1 hx]; exact hab
        · intro y hy
          have g1 := k4 y (by omega)
          have g2 := heapTo_shift hx' hy k2
          rw [← k3] at g2
          rw [g1, g2, hl]
          omega
      · rw [if_neg ho]
        have hn0 : 0 < num' := by
          rcases Nat.eq_zero_or_pos num' with h0 | h0
          · rw [h0] at ho hp'; omega
          · exact h0
        rw [if_neg (by omega)]
        obtain ⟨g1, g2⟩ := hfin hn0 b.2 hx' (Nat.le_refl _) (by omega) hlin
        exact ⟨_, _, _, rfl, Or.inl ⟨rfl, g1, Or.inr ⟨b, hmem, g2⟩⟩⟩
    · have hno : ¬num' * (b.2 - x') < over' := by
        have : num' * (c - x') ≤ num' * (b.2 - x') := Nat.mul_le_mul_left _ (by omega)
        omega
      rw [if_neg hno, if_neg (by omega)]
      obtain ⟨g1, g2⟩ := hfin k1 c k2 (by omega) k4 k5
      exact ⟨_, _, _, rfl, Or.inl ⟨rfl, g1, Or.inr ⟨b, hmem, g2⟩⟩⟩

/-! ## The numbers of coarse nodes that processes receive -/

/-- The processes that can take one more coarse node at level `L`. -/
def room (L : Nat) (xs : List (Nat × Nat)) : Nat := xs.countP fun x => decide (x.2 ≤ L ∧ L < x.1)

theorem fill_succ (L : Nat) : ∀ {xs : List (Nat × Nat)}, (∀ x, x ∈ xs → x.2 ≤ x.1) →
    (xs.map fun x => min (L + 1) x.1 - x.2).sum = (xs.map fun x => min L x.1 - x.2).sum + room L xs
  | [], _ => rfl
  | x :: xs, h => by
    have ih := fill_succ L (xs := xs) fun y hy => h y (List.mem_cons_of_mem _ hy)
    have hx := h x List.mem_cons_self
    unfold room at ih ⊢
    rw [List.map_cons, List.sum_cons, List.map_cons, List.sum_cons, List.countP_cons, ih]
    by_cases hc : x.2 ≤ L ∧ L < x.1
    · rw [if_pos (decide_eq_true hc)]; omega
    · rw [if_neg (by simpa using hc)]; omega

theorem underloads_ok {L r : Nat} : ∀ (xs : List (Nat × Nat)) (nth : Nat), (∀ x, x ∈ xs → x.2 ≤ x.1) → nth ≤ r →
    ∃ us : List Nat, underloads? L r nth xs = some us ∧ us.length = xs.length ∧
      us.sum = (xs.map fun x => min L x.1 - x.2).sum + (min r (nth + room L xs) - nth) ∧
      ∀ (i : Nat) (x : Nat × Nat), xs[i]? = some x → ∃ u, us[i]? = some u ∧ x.2 + u ≤ x.1 ∧ min L x.1 - x.2 ≤ u ∧ u ≤ min L x.1 - x.2 + 1 ∧ (L < x.2 → u = 0) ∧
        (r = 0 → u = min L x.1 - x.2)
  | [], nth, _, h => ⟨[], rfl, rfl, by simp [room], fun i x hi => by cases hi⟩
  | x :: xs, nth, hx, hnr => by
    have hx0 := hx x List.mem_cons_self
    have hx1 : ∀ y, y ∈ xs → y.2 ≤ y.1 := fun y hy => hx y (List.mem_cons_of_mem _ hy)
    have hroom : room L (x :: xs) = room L xs + if x.2 ≤ L ∧ L < x.1 then 1 else 0 := by
      unfold room
      rw [List.countP_cons]
      simp only [decide_eq_true_eq]
    rw [underloads?]
    by_cases hL : x.2 ≤ L
    · rw [if_pos hL, if_pos hx0]
      by_cases hp : nth < r ∧ min (L - x.2) (x.1 - x.2) < x.1 - x.2
      · rw [if_pos hp]
        obtain ⟨us, h1, h2, h3, h4⟩ := underloads_ok (L := L) (r := r) xs (nth + 1) hx1 hp.1
        refine ⟨_ :: us, by rw [h1]; rfl, by rw [List.length_cons, List.length_cons, h2], ?_, ?_⟩
        · rw [List.sum_cons, List.map_cons, List.sum_cons, h3, hroom, if_pos (by omega)]; omega
        · intro i y hi
          cases i with
          | zero =>
            cases hi
            exact ⟨_, rfl, by omega, by omega, by omega, by omega, by omega⟩
          | succ i => exact h4 i y hi
      · rw [if_neg hp]
        obtain ⟨us, h1, h2, h3, h4⟩ := underloads_ok (L := L) (r := r) xs nth hx1 hnr
        refine ⟨_ :: us, by rw [h1]; rfl, by rw [List.length_cons, List.length_cons, h2], ?_, ?_⟩
        · rw [List.sum_cons, List.map_cons, List.sum_cons, h3, hroom]
          by_cases hc : x.2 ≤ L ∧ L < x.1
          · rw [if_pos hc]; omega
          · rw [if_neg hc]; omega
        · intro i y hi
          cases i with
          | zero =>
            cases hi
            exact ⟨_, rfl, by omega, by omega, by omega, by omega, by omega⟩
          | succ i => exact h4 i y hi
    · rw [if_neg hL]
      obtain ⟨us, h1, h2, h3, h4⟩ := underloads_ok (L := L) (r := r) xs nth hx1 hnr
      refine ⟨0 :: us, by rw [h1]; rfl, by rw [List.length_cons, List.length_cons, h2], ?_, ?_⟩
      · rw [List.sum_cons, List.map_cons, List.sum_cons, h3, hroom, if_neg (by omega)]; omega
      · intro i y hi
        cases i with
        | zero =>
          cases hi
          exact ⟨0, rfl, by omega, by omega, by omega, by omega, by omega⟩
        | succ i => exact h4 i y hi

end Verif.Dist

import Verif.Dist.ShiftFill
import Verif.Dist.ShiftSpec

/-!
# Lemmas: the numbers of coarse nodes that processes give away and get
-/

namespace Verif.Dist
open Verif.Math

theorem level_unique {Φ : Nat → Nat} (hm : ∀ {x y}, x ≤ y → Φ x ≤ Φ y) {O L r L' r' : Nat} (h : Level Φ O L r) (h' : Level Φ O L' r') :
    (L = L' ∧ r = r') ∨ (r = 0 ∧ r' = 0 ∧ Φ L = Φ L') := by
  obtain ⟨h1, h2⟩ := h
  obtain ⟨h3, h4⟩ := h'
  rcases Nat.lt_trichotomy L L' with hl | hl | hl
  · have g1 := hm (show L + 1 ≤ L' from hl)
    have g2 := hm (show L ≤ L' by omega)
    omega
  · subst hl
    left; omega
  · have g1 := hm (show L' + 1 ≤ L from hl)
    have g2 := hm (show L' ≤ L by omega)
    omega

theorem sum_eq_of_le {α : Type} {f h : α → Nat} : ∀ {l : List α}, (∀ x, x ∈ l → f x ≤ h x) → (l.map f).sum = (l.map h).sum → ∀ x, x ∈ l → f x = h x
  | [], _, _, _, hx => absurd hx List.not_mem_nil
  | a :: l, hle, hs, x, hx => by
    have h1 := hle a List.mem_cons_self
    have h2 : ∀ y, y ∈ l → f y ≤ h y := fun y hy => hle y (List.mem_cons_of_mem _ hy)
    have h3 := natSum_le h2
    rw [List.map_cons, List.sum_cons, List.map_cons, List.sum_cons] at hs
    rcases List.mem_cons.1 hx with rfl | hx
    · omega
    · exact sum_eq_of_le h2 (by omega) x hx

/-- Two levels that use the same number of coarse nodes give the same numbers to all processes. -/
theorem underloads_unique {xs : List (Nat × Nat)} (hx : ∀ x, x ∈ xs → x.2 ≤ x.1) {O L r L' r' : Nat}
    (h : Level (fun y => (xs.map fun x => min y x.1 - x.2).sum) O L r) (h' : Level (fun y => (xs.map fun x => min y x.1 - x.2).sum) O L' r') :
    underloads? L r 0 xs = underloads? L' r' 0 xs := by
  rcases level_unique (fun {x y} hxy => natSum_le fun z _ => by omega) h h' with ⟨rfl, rfl⟩ | ⟨rfl, rfl, he⟩
  · rfl
  · obtain ⟨us, h1, h2, _, h3⟩ := underloads_ok (L := L) (r := 0) xs 0 hx (Nat.le_refl _)
    obtain ⟨us', h1', h2', _, h3'⟩ := underloads_ok (L := L') (r := 0) xs 0 hx (Nat.le_refl _)
    rw [h1, h1']
    congr 1
    refine List.ext_getElem? fun i => ?_
    rcases Nat.lt_or_ge i xs.length with hi | hi
    · obtain ⟨u, e1, _, _, _, _, e2⟩ := h3 i xs[i] (List.getElem?_eq_getElem hi)
      obtain ⟨u', e1', _, _, _, _, e2'⟩ := h3' i xs[i] (List.getElem?_eq_getElem hi)
      rw [e1, e1', e2 rfl, e2' rfl]
      congr 1
      have hmem : xs[i] ∈ xs := List.getElem_mem hi
      rcases Nat.le_total L L' with hl | hl
      · exact sum_eq_of_le (f := fun x => min L x.1 - x.2) (h := fun x => min L' x.1 - x.2) (fun x _ => by show _ - _ ≤ _ - _; omega) he _ hmem
      · exact (sum_eq_of_le (f := fun x => min L' x.1 - x.2) (h := fun x => min L x.1 - x.2) (fun x _ => by show _ - _ ≤ _ - _; omega) he.symm _ hmem).symm
    · rw [List.getElem?_eq_none (by omega), List.getElem?_eq_none (by omega)]

section
variable (cap cnt : Nat → Nat) (N : Nat)

/-- The processes with their numbers of coarse nodes. -/
def loads : List (Nat × Nat) := (List.range N).map fun q => (q, cnt q)

variable {cap cnt N}

theorem loads_fill (y : Nat) : fillTo cap (loads cnt N) y = (((List.range N).map fun q => (cap q, cnt q)).map fun x => min y x.1 - x.2).sum := by
  unfold fillTo loads
  rw [List.map_map, List.map_map]
  rfl

theorem attempt_ok (hN : 0 < N) (hcap : ∀ q, q < N → cnt q ≤ cap q) (O : Nat) {l : List (Nat × Nat)} (hp : l.Perm (loads cnt N))
    (hs : l.Pairwise fun a b => a.2 ≤ b.2) : ∃ L r rem, minLoad? cap O 0 [] l = some (L, r, rem) ∧
      ((rem = 0 ∧ Level (fillTo cap (loads cnt N)) O L r ∧ (O = 0 ∨ ∃ b, b ∈ loads cnt N ∧ O ≤ fillTo cap (loads cnt N) b.2)) ∨
       (0 < rem ∧ ∃ b, b ∈ loads cnt N ∧ (∀ x, x ∈ loads cnt N → x.2 ≤ b.2) ∧ rem + fillTo cap (loads cnt N) b.2 = O)) := by
  cases l with
  | nil =>
    have := hp.length_eq
    rw [loads, List.length_map, List.length_range] at this
    simp at this
    omega
  | cons a todo =>
    have hf : fillTo cap (a :: todo) = fillTo cap (loads cnt N) := funext fun y => fillTo_perm cap hp y
    obtain ⟨L, r, rem, h1, h2⟩ := minLoad_ok (caps := cap) (O := O) todo [] O 0 [] a hs (by
        intro x hx
        obtain ⟨q, hq, rfl⟩ := List.mem_map.1 (hp.mem_iff.1 hx)
        exact hcap q (List.mem_range.1 hq)) (fun _ h => absurd h List.not_mem_nil) List.Pairwise.nil (fun _ h => absurd h List.not_mem_nil) rfl
        (fun _ _ => rfl) rfl (Or.inr rfl)
    refine ⟨L, r, rem, h1, ?_⟩
    rw [List.nil_append, hf] at h2
    rcases h2 with ⟨k1, k2, k3⟩ | ⟨k1, b, k2, k3, k4⟩
    · refine Or.inl ⟨k1, k2, k3.imp id ?_⟩
      rintro ⟨b, hb, h⟩
      exact ⟨b, hp.mem_iff.1 hb, h⟩
    · exact Or.inr ⟨k1, b, hp.mem_iff.1 k2, fun x hx => k3 x (hp.mem_iff.2 hx), k4⟩

/-- Either there is a number of coarse nodes for each process, or a rest remains, whatever the order of the processes is. -/
theorem attempt (hN : 0 < N) (hcap : ∀ q, q < N → cnt q ≤ cap q) (O : Nat) :
    (∃ L r us, Level (fillTo cap (loads cnt N)) O L r ∧ underloads? L r 0 ((List.range N).map fun q => (cap q, cnt q)) = some us ∧
      ∀ l : List (Nat × Nat), l.Perm (loads cnt N) → l.Pairwise (fun a b => a.2 ≤ b.2) → ∃ L' r', minLoad? cap O 0 [] l = some (L', r', 0) ∧
        underloads? L' r' 0 ((List.range N).map fun q => (cap q, cnt q)) = some us) ∨
    (∃ rem, 0 < rem ∧ (∃ q, q < N ∧ (∀ p, p < N → cnt p ≤ cnt q) ∧ rem + fillTo cap (loads cnt N) (cnt q) = O) ∧
      ∀ l : List (Nat × Nat), l.Perm (loads cnt N) → l.Pairwise (fun a b => a.2 ≤ b.2) → ∃ L r, minLoad? cap O 0 [] l = some (L, r, rem)) := by
  have hxs : ∀ x, x ∈ (List.range N).map (fun q => (cap q, cnt q)) → x.2 ≤ x.1 := by
    intro x hx
    obtain ⟨q, hq, rfl⟩ := List.mem_map.1 hx
    exact hcap q (List.mem_range.1 hq)
  have hfun : fillTo cap (loads cnt N) = fun y => (((List.range N).map fun q => (cap q, cnt q)).map fun x => min y x.1 - x.2).sum :=
    funext fun y => loads_fill y
  have hmono : ∀ {x y}, x ≤ y → fillTo cap (loads cnt N) x ≤ fillTo cap (loads cnt N) y := fun h => fillTo_mono _ _ h
  have hins : ((loads cnt N).insertionSort fun a b => a.2 ≤ b.2).Perm (loads cnt N) := List.perm_insertionSort _ _
  have hsorted : ((loads cnt N).insertionSort fun a b => a.2 ≤ b.2).Pairwise fun a b => a.2 ≤ b.2 := by
    have : Std.Total (fun a b : Nat × Nat => a.2 ≤ b.2) := ⟨fun a b => Nat.le_total _ _⟩
    have : IsTrans (Nat × Nat) (fun a b => a.2 ≤ b.2) := ⟨fun _ _ _ => Nat.le_trans⟩
    exact List.pairwise_insertionSort _ _
  obtain ⟨L, r, rem, h1, h2⟩ := attempt_ok hN hcap O hins hsorted
  rcases h2 with ⟨rfl, k2, k3⟩ | ⟨k1, b, k2, k3, k4⟩
  · left
    obtain ⟨us, e, _⟩ := underloads_ok (L := L) (r := r) ((List.range N).map fun q => (cap q, cnt q)) 0 hxs (Nat.zero_le _)
    refine ⟨L, r, us, k2, e, fun l hl hls => ?_⟩
    obtain ⟨L', r', rem', g1, g2⟩ := attempt_ok hN hcap O hl hls
    rcases g2 with ⟨rfl, g2, _⟩ | ⟨g2, c, g3, g4, g5⟩
    · rw [hfun] at k2 g2
      exact ⟨L', r', g1, by rw [← underloads_unique hxs k2 g2, e]⟩
    · exfalso
      rcases k3 with k3 | ⟨b, k3, k4⟩
      · omega
      · have := hmono (g4 b k3); omega
  · right
    obtain ⟨q, hq, rfl⟩ := List.mem_map.1 k2
    have hq := List.mem_range.1 hq
    have hall : ∀ p, p < N → cnt p ≤ cnt q := fun p hp => k3 (p, cnt p) (List.mem_map.2 ⟨p, List.mem_range.2 hp, rfl⟩)
    refine ⟨rem, k1, ⟨q, hq, hall, k4⟩, fun l hl hls => ?_⟩
    obtain ⟨L', r', rem', g1, g2⟩ := attempt_ok hN hcap O hl hls
    refine ⟨L', r', ?_⟩
    rw [g1]
    rcases g2 with ⟨rfl, g2, g3⟩ | ⟨g2, c, g3, g4, g5⟩
    · exfalso
      rcases g3 with g3 | ⟨b, g3, g4⟩
      · omega
      · have := hmono (k3 b g3); omega
    · have e1 := g4 (q, cnt q) k2
      have e2 := k3 c g3
      have e3 : c.2 = cnt q := Nat.le_antisymm e2 e1
      rw [e3] at g5
      have e4 : rem' = rem := by
        change rem + fillTo cap (loads cnt N) (cnt q) = O at k4
        omega
      rw [e4]

end

theorem sum_const (N c : Nat) : ((List.range N).map fun _ => c).sum = N * c := by simp

theorem sum_add {α : Type} (f h : α → Nat) : ∀ l : List α, (l.map fun q => f q + h q).sum = (l.map f).sum + (l.map h).sum
  | [] => rfl
  | a :: l => by rw [List.map_cons, List.sum_cons, List.map_cons, List.sum_cons, List.map_cons, List.sum_cons, sum_add f h l]; omega

/-- If all coarse nodes fit below the limit, there is room for those that move. -/
theorem overload_fits {cap cnt : Nat → Nat} {N lim : Nat} (hcap : ∀ q, q < N → cnt q ≤ cap q)
    (h : ((List.range N).map cnt).sum ≤ ((List.range N).map fun q => min lim (cap q)).sum) :
    ((List.range N).map fun q => cnt q - lim).sum ≤ fillTo cap (loads cnt N) lim := by
  rw [loads_fill, List.map_map]
  have g1 := sum_add (fun q => min (cnt q) lim) (fun q => cnt q - lim) (List.range N)
  have g2 := sum_add (fun q => min (cnt q) lim) (fun q => min lim (cap q) - cnt q) (List.range N)
  have g3 : ((List.range N).map fun q => min (cnt q) lim + (cnt q - lim)).sum = ((List.range N).map cnt).sum := by
    congr 1
    exact List.map_congr_left fun p _ => by omega
  have g4 : ((List.range N).map fun q => min (cnt q) lim + (min lim (cap q) - cnt q)).sum = ((List.range N).map fun q => min lim (cap q)).sum := by
    congr 1
    refine List.map_congr_left fun p hp => ?_
    have := hcap p (List.mem_range.1 hp)
    omega
  have g5 : ((List.range N).map ((fun x : Nat × Nat => min lim x.1 - x.2) ∘ fun q => (cap q, cnt q))).sum =
      ((List.range N).map fun q => min lim (cap q) - cnt q).sum := rfl
  rw [g5]
  omega

/-- What processes get: facts about the result of a successful attempt. -/
theorem success {cap cnt : Nat → Nat} {N lim L r : Nat} {us : List Nat} (hcap : ∀ q, q < N → cnt q ≤ cap q)
    (hL : Level (fillTo cap (loads cnt N)) ((List.range N).map fun q => cnt q - lim).sum L r)
    (he : underloads? L r 0 ((List.range N).map fun q => (cap q, cnt q)) = some us) :
    us.length = N ∧ us.sum = ((List.range N).map fun q => cnt q - lim).sum ∧ (∀ q, q < N → cnt q + us.getD q 0 ≤ cap q) ∧
      (((List.range N).map cnt).sum ≤ ((List.range N).map fun q => min lim (cap q)).sum → ∀ q, q < N → cnt q - (cnt q - lim) + us.getD q 0 ≤ lim) := by
  have hxs : ∀ x, x ∈ (List.range N).map (fun q => (cap q, cnt q)) → x.2 ≤ x.1 := by
    intro x hx
    obtain ⟨q, hq, rfl⟩ := List.mem_map.1 hx
    exact hcap q (List.mem_range.1 hq)
  obtain ⟨us', e, h1, h2, h3⟩ := underloads_ok (L := L) (r := r) ((List.range N).map fun q => (cap q, cnt q)) 0 hxs (Nat.zero_le _)
  rw [he] at e
  cases e
  rw [List.length_map, List.length_range] at h1
  have hsum : us.sum = ((List.range N).map fun q => cnt q - lim).sum := by
    rw [h2, ← loads_fill]
    have hroom := fill_succ L hxs
    rw [← loads_fill, ← loads_fill] at hroom
    obtain ⟨g1, g2⟩ := hL
    omega
  have hget : ∀ q, q < N → ∃ u, us.getD q 0 = u ∧ cnt q + u ≤ cap q ∧ min L (cap q) - cnt q ≤ u ∧ u ≤ min L (cap q) - cnt q + 1 ∧
      (L < cnt q → u = 0) ∧ (r = 0 → u = min L (cap q) - cnt q) := by
    intro q hq
    obtain ⟨u, e, h⟩ := h3 q (cap q, cnt q) (by rw [List.getElem?_map, List.getElem?_range hq]; rfl)
    exact ⟨u, by rw [List.getD_eq_getElem?_getD, e]; rfl, h⟩
  refine ⟨h1, hsum, fun q hq => ?_, fun htot q hq => ?_⟩
  · obtain ⟨u, e, h, _⟩ := hget q hq
    rw [e]; exact h
  · obtain ⟨u, e, k1, k2, k3, k4, k5⟩ := hget q hq
    rw [e]
    have hO := overload_fits hcap htot
    rcases Nat.lt_or_ge L lim with hl | hl
    · omega
    · obtain ⟨g1, g2⟩ := hL
      have g3 := fillTo_mono cap (loads cnt N) hl
      have hr : r = 0 := by omega
      have heq : fillTo cap (loads cnt N) lim = fillTo cap (loads cnt N) L := by omega
      have := sum_eq_of_le (f := fun x : Nat × Nat => min lim (cap x.1) - x.2) (h := fun x : Nat × Nat => min L (cap x.1) - x.2) (fun x _ => by show _ - _ ≤ _ - _; omega)
        heq (q, cnt q) (List.mem_map.2 ⟨q, List.mem_range.2 hq, rfl⟩)
      change min lim (cap q) - cnt q = min L (cap q) - cnt q at this
      have := k5 hr
      omega

theorem globalN_sum {cdist : List Nat} (h0 : first cdist 0 = 0) (hm : ∀ q, q < procs cdist → first cdist q ≤ first cdist (q + 1)) :
    ∀ k, k ≤ procs cdist → ((List.range k).map (localN cdist)).sum = first cdist k
  | 0, _ => h0.symm
  | k + 1, hk => by
    have := hm k hk
    rw [List.range_succ, List.map_append, List.sum_append, globalN_sum h0 hm k (by omega), List.map_cons, List.map_nil, List.sum_cons, List.sum_nil]
    unfold localN
    omega

theorem overload_eq (limit : Nat) (cdist : List Nat) (q : Nat) : overload limit cdist q = localN cdist q - limit := by
  unfold overload
  change (if limit < localN cdist q then localN cdist q - limit else 0) = _
  split <;> omega

/-- `compute_assignment_shifts` ends with numbers that fit, and they do not depend on the order of the processes. -/
theorem shifts_ok {dist cdist : List Nat} {next : Nat → Nat → Nat} (hN : 0 < procs dist) (hp : procs cdist = procs dist) (h0 : first cdist 0 = 0)
    (hm : ∀ q, q < procs cdist → first cdist q ≤ first cdist (q + 1)) (hcap : ∀ q, q < procs dist → localN cdist q ≤ localN dist q)
    (hnext : ∀ limit rem, 0 < rem → limit < next limit rem) (havg : procs dist ≤ globalN cdist) :
    ∀ (calls limit : Nat), (∀ q, q < procs dist → localN cdist q ≤ limit + calls) → ∃ lim out inc, limit ≤ lim ∧
      (globalN cdist ≤ ((List.range (procs dist)).map fun q => min limit (localN dist q)).sum → lim = limit) ∧ Plan dist cdist lim out inc ∧
      ∀ sort, Sorts sort → shifts? next sort dist cdist (calls + 1) limit =
        some (edgeDistribution ((List.range (procs dist)).map out), edgeDistribution ((List.range (procs dist)).map inc)) := by
  have hlen : cdist.length - 1 = procs dist := hp
  have hover : ∀ limit, (List.range (procs dist)).map (overload limit cdist) = (List.range (procs dist)).map fun q => localN cdist q - limit :=
    fun limit => List.map_congr_left fun q _ => overload_eq limit cdist q
  have hglob := globalN_sum h0 hm _ (Nat.le_refl _)
  rw [hp] at hglob
  have hglob' : ((List.range (procs dist)).map (localN cdist)).sum = globalN cdist := by
    rw [hglob, ← hp]; rfl
  have hlast : cdist.getLastD 0 = globalN cdist := by
    unfold globalN first procs
    rw [List.getLastD_eq_getLast?, List.getLast?_eq_getElem?, List.getD_eq_getElem?_getD]
  have havg' : ¬cdist.getLastD 0 / procs dist = 0 := by
    rw [hlast, Nat.div_eq_zero_iff]
    omega
  have step : ∀ calls limit, (∃ lim out inc, limit ≤ lim ∧
      (globalN cdist ≤ ((List.range (procs dist)).map fun q => min limit (localN dist q)).sum → lim = limit) ∧ Plan dist cdist lim out inc ∧
      ∀ sort, Sorts sort → shifts? next sort dist cdist (calls + 1) limit =
        some (edgeDistribution ((List.range (procs dist)).map out), edgeDistribution ((List.range (procs dist)).map inc))) ∨
      ∃ rem, 0 < rem ∧ (∃ q, q < procs dist ∧ limit < localN cdist q) ∧
        ¬globalN cdist ≤ ((List.range (procs dist)).map fun q => min limit (localN dist q)).sum ∧ ∀ sort, Sorts sort →
        shifts? next sort dist cdist (calls + 1) limit = shifts? next sort dist cdist calls (next limit rem) := by
    intro calls limit
    rcases attempt (cap := localN dist) (cnt := localN cdist) hN hcap ((List.range (procs dist)).map fun q => localN cdist q - limit).sum with
      ⟨L, r, us, h1, h2, h3⟩ | ⟨rem, h1, h2, h3⟩
    · left
      obtain ⟨k1, k2, k3, k4⟩ := success hcap h1 h2
      have hus : (List.range (procs dist)).map (fun q => us.getD q 0) = us := by
        refine List.ext_getElem? fun i => ?_
        rw [List.getElem?_map]
        rcases Nat.lt_or_ge i (procs dist) with hi | hi
        · rw [List.getElem?_range hi, Option.map_some, List.getD_eq_getElem?_getD, List.getElem?_eq_getElem (by omega)]
          rfl
        · rw [List.getElem?_eq_none (by rw [List.length_range]; exact hi), List.getElem?_eq_none (by omega)]
          rfl
      refine ⟨limit, fun q => localN cdist q - limit, fun q => us.getD q 0, Nat.le_refl _, fun _ => rfl, ⟨fun _ _ => rfl, k3, ?_, ?_⟩, fun sort hsort => ?_⟩
      · rw [hus]; exact k2.symm
      · intro g1 q hq
        refine k4 ?_ q hq
        rw [hglob']
        exact g1
      · obtain ⟨L', r', e1, e2⟩ := h3 _ (hsort calls (loads (localN cdist) (procs dist))).1 (hsort calls _).2
        rw [shifts?, hlen, hover, hus]
        change (minLoad? (localN dist) _ 0 [] (sort calls (loads (localN cdist) (procs dist)))).bind _ = _
        rw [e1, Option.bind_some, if_neg (Nat.lt_irrefl 0)]
        change (underloads? L' r' 0 ((List.range (procs dist)).map fun q => (localN dist q, localN cdist q))).map _ = _
        rw [e2]
        rfl
    · right
      obtain ⟨q, hq, hall, he⟩ := h2
      have hlq : limit < localN cdist q := by
        rcases Nat.lt_or_ge limit (localN cdist q) with h | h
        · exact h
        · exfalso
          have : ((List.range (procs dist)).map fun q => localN cdist q - limit).sum = ((List.range (procs dist)).map fun _ => 0).sum := by
            congr 1
            refine List.map_congr_left fun p hp => ?_
            have := hall p (List.mem_range.1 hp)
            omega
          rw [sum_const] at this
          omega
      refine ⟨rem, h1, ⟨q, hq, hlq⟩, fun hfit => ?_, fun sort hsort => ?_⟩
      · rw [← hglob'] at hfit
        have g1 := overload_fits hcap hfit
        have g2 := fillTo_mono (localN dist) (loads (localN cdist) (procs dist)) (Nat.le_of_lt hlq)
        omega
      · obtain ⟨L', r', e1⟩ := h3 _ (hsort calls (loads (localN cdist) (procs dist))).1 (hsort calls _).2
        rw [shifts?, hlen, hover]
        change (minLoad? (localN dist) _ 0 [] (sort calls (loads (localN cdist) (procs dist)))).bind _ = _
        rw [e1, Option.bind_some, if_pos h1, if_neg havg']
  intro calls
  induction calls with
  | zero =>
    intro limit hb
    rcases step 0 limit with h | ⟨_, _, ⟨q, hq, h⟩, _⟩
    · exact h
    · have := hb q hq; omega
  | succ calls ih =>
    intro limit hb
    rcases step (calls + 1) limit with h | ⟨rem, h1, _, hno, h2⟩
    · exact h
    · have hn := hnext limit rem h1
      obtain ⟨lim, out, inc, g1, _, g2, g3⟩ := ih (next limit rem) fun q hq => by have := hb q hq; omega
      exact ⟨lim, out, inc, by omega, fun h => absurd h hno, g2, fun sort hsort => by rw [h2 sort hsort]; exact g3 sort hsort⟩

end Verif.Dist

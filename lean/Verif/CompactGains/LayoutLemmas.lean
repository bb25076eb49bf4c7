import Verif.CompactGains.Run

namespace Verif.CompactGains
open Verif.CompactMap Verif.Math Verif.SparseGains Verif.PrefixSum Verif.Gains

/-! # The layout computed by the initialisation -/

/-- The entries of a node: width, first byte and number. -/
def region? (L : Layout) (u : Nat) : Option (Nat × Nat × Nat) :=
  (L.useHash? u).bind fun h =>
    if h then (L.hashTable? u).map fun t => t.getD (0, L.off u, 0)
    else (L.fullTable? u).map fun t => (t.map fun t => (t.1, t.2, L.k)).getD (0, L.off u, 0)

theorem ceil2_ok {x : Nat} (hx : x ≠ 0) (h : x ≤ 2 ^ 28) : ∃ l, ceil2? 32 x = some (2 ^ l) ∧ l ≤ 28 ∧ x ≤ 2 ^ l ∧ 2 ^ l < 2 * x := by
  obtain ⟨l, h1, h2, h3⟩ := ceilLog2_spec (w := 32) hx (Nat.lt_of_le_of_lt h (by decide))
  have hl := h3 28 h
  refine ⟨l, ?_, hl, h2, ?_⟩
  · unfold ceil2?
    rw [h1]
    simp only [Option.bind_some]
    rw [if_pos (by omega)]
  · cases l with
    | zero => omega
    | succ l =>
      have : ¬ x ≤ 2 ^ l := fun h => by have := h3 l h; omega
      rw [Nat.pow_succ]
      omega

theorem ceil2_bytes {b : Nat} (h0 : 0 < b) (h : b ≤ 8) : ∃ w, ceil2? 32 b = some w ∧ b ≤ w ∧ (w = 1 ∨ w = 2 ∨ w = 4 ∨ w = 8) := by
  have : b = 1 ∨ b = 2 ∨ b = 3 ∨ b = 4 ∨ b = 5 ∨ b = 6 ∨ b = 7 ∨ b = 8 := by omega
  rcases this with rfl | rfl | rfl | rfl | rfl | rfl | rfl | rfl
  · exact ⟨1, by decide, by decide, by decide⟩
  · exact ⟨2, by decide, by decide, by decide⟩
  · exact ⟨4, by decide, by decide, by decide⟩
  · exact ⟨4, by decide, by decide, by decide⟩
  · exact ⟨8, by decide, by decide, by decide⟩
  · exact ⟨8, by decide, by decide, by decide⟩
  · exact ⟨8, by decide, by decide, by decide⟩
  · exact ⟨8, by decide, by decide, by decide⟩

theorem width_ok {L : Layout} {u : Nat} {key : Bool} (h0 : L.maxValue u ≠ 0)
    (hx : (if key then L.bits else 0) ≤ 64) (h : L.maxValue u < 2 ^ (64 - if key then L.bits else 0)) :
    ∃ w, L.width? u key = some w ∧ (w = 1 ∨ w = 2 ∨ w = 4 ∨ w = 8) ∧ (if key then L.bits else 0) ≤ 8 * w ∧
      L.maxValue u < 2 ^ (8 * w - if key then L.bits else 0) := by
  unfold Layout.width?
  rw [if_neg h0]
  generalize (if key = true then L.bits else 0) = x at *
  generalize L.maxValue u = mv at *
  rw [floorLog2_eq h0 (Nat.lt_of_lt_of_le h (Nat.pow_le_pow_right (by decide) (Nat.sub_le _ _)))]
  simp only [Option.bind_some]
  have hlog : mv.log2 < 64 - x := (Nat.log2_lt h0).2 h
  obtain ⟨w, h1, h2, h3⟩ := ceil2_bytes (b := (mv.log2 + 1 + x + 7) / 8) (by omega) (by omega)
  have h4 : mv.log2 + 1 + x ≤ 8 * w := by omega
  refine ⟨w, h1, h3, by omega, ?_⟩
  exact Nat.lt_of_lt_of_le Nat.lt_log2_self (Nat.pow_le_pow_right (by decide) (by omega))

theorem len_le_sum : ∀ {l : List (Nat × Int)}, (∀ e ∈ l, 0 < e.2) → (l.length : Int) ≤ (l.map Prod.snd).sum
  | [], _ => by simp
  | e :: l, h => by
    have := len_le_sum (l := l) fun x hx => h x (List.mem_cons_of_mem _ hx)
    have := h e List.mem_cons_self
    rw [List.length_cons, List.map_cons, List.sum_cons]
    push_cast
    omega

theorem weightedDegree_ok {W : Nat} {g : Graph} (old : Nat → Nat) {u : Nat} (hu : u < g.n) (hpos : ∀ e ∈ g.adj u, 0 < e.2)
    (hfit : wdegOf g u < 2 ^ (W - 1)) : (weightedDegrees W g old u : Int) = wdegOf g u := by
  have hW : (2 : Int) ^ (W - 1) ≤ 2 ^ W := by
    exact_mod_cast Nat.pow_le_pow_right (by decide : 0 < 2) (Nat.sub_le W 1)
  unfold weightedDegrees
  rw [if_pos hu]
  have key : ∀ (l : List (Nat × Int)) (x : Nat), (∀ e ∈ l, 0 < e.2) → (x : Int) + (l.map Prod.snd).sum < 2 ^ W →
      ((l.foldl (fun x e => (x + toUnsigned W e.2) % 2 ^ W) x : Nat) : Int) = x + (l.map Prod.snd).sum := by
    intro l
    induction l with
    | nil => intro x _ _; simp
    | cons e l ih =>
      intro x h1 h2
      have he := h1 e List.mem_cons_self
      have h3 := len_le_sum (l := l) fun x hx => h1 x (List.mem_cons_of_mem _ hx)
      rw [List.map_cons, List.sum_cons] at h2 ⊢
      have h4 := toUnsigned_pos (W := W) he (by omega)
      have h5 : (x + toUnsigned W e.2) % 2 ^ W = x + toUnsigned W e.2 := by
        apply Nat.mod_eq_of_lt
        have : ((x + toUnsigned W e.2 : Nat) : Int) < ((2 ^ W : Nat) : Int) := by push_cast; omega
        exact_mod_cast this
      rw [List.foldl_cons, h5, ih _ (fun x hx => h1 x (List.mem_cons_of_mem _ hx)) (by push_cast; omega)]
      push_cast
      omega
  rw [key (g.adj u) 0 hpos (by unfold wdegOf at hfit; omega)]
  unfold wdegOf
  simp

theorem known_of {w : Nat} (h : w = 0 ∨ w = 1 ∨ w = 2 ∨ w = 4 ∨ w = 8) (h0 : 0 < w) : knownWidth w = true := by
  rcases h with h | h | h | h | h
  · omega
  all_goals rw [h]; decide

theorem log2_mask {s W : Nat} : Nat.log2 ((2 ^ s - 1) % 2 ^ W + 1) = min s W := by
  have hs : 0 < 2 ^ s := Nat.two_pow_pos _
  have hW : 0 < 2 ^ W := Nat.two_pow_pos _
  by_cases h : s ≤ W
  · have : 2 ^ s ≤ 2 ^ W := Nat.pow_le_pow_right (by decide) h
    rw [Nat.mod_eq_of_lt (by omega), Nat.sub_add_cancel hs, Nat.log2_two_pow, Nat.min_eq_left h]
  · have h1 : 2 ^ s - 1 = 2 ^ W * (2 ^ (s - W) - 1) + (2 ^ W - 1) := by
      have h2 : 2 ^ s = 2 ^ W * 2 ^ (s - W) := by rw [← Nat.pow_add]; congr 1; omega
      have h3 : 0 < 2 ^ (s - W) := Nat.two_pow_pos _
      rw [Nat.mul_sub, Nat.mul_one, ← h2]
      have : 2 ^ W ≤ 2 ^ s := Nat.pow_le_pow_right (by decide) (by omega)
      omega
    rw [h1, Nat.mul_add_mod, Nat.mod_eq_of_lt (by omega), Nat.sub_add_cancel hW, Nat.log2_two_pow, Nat.min_eq_right (by omega)]

/-- The offsets: every node gets its bytes and at most 14 more. -/
theorem offsets_ok {l : Nat → Nat × Nat} {n threads : Nat} {calls1 calls2 : List (Nat × Nat × Nat)} {old : Nat → Nat}
    (hal : ∀ i, i < n → (l i).1 = 0 ∨ (l i).1 ∣ 8) (h1n : n = 1 → (l 0).2 = 0) (ht : 0 < threads)
    (h1 : calls1.Perm (deterministicForCalls threads 0 (n - 1))) (h2 : calls2.Perm (deterministicForCalls threads 0 (n - 1))) :
    ∀ r, r = par l n (min threads (n - 1)) calls1 calls2 old → ∀ off, off = lastOffset l n r.1 →
      (∀ u, u < n → off u + (l u).2 ≤ off (u + 1) ∧ off (u + 1) ≤ off u + (l u).2 + 14) ∧
      (0 < n → off 0 = 0 ∧ off n = r.2) ∧ ∀ u, u < n → (l u).1 > 0 → (l u).1 ∣ off u := by
  intro r hr off ho
  rcases Nat.eq_zero_or_pos n with h0 | h0
  · subst h0
    exact ⟨fun _ h => absurd h (Nat.not_lt_zero _), fun h => absurd h (Nat.lt_irrefl _), fun _ h => absurd h (Nat.not_lt_zero _)⟩
  by_cases hn1 : n = 1
  · subst hn1
    have hl := h1n rfl
    have hr0 : r = (upd old 0 0, 0) := by rw [hr]; rfl
    have hoff : off 0 = 0 ∧ off 1 = 0 := by
      rw [ho, hr0]
      unfold lastOffset
      rw [if_pos (by decide)]
      simp only [Nat.sub_self]
      by_cases ha : (l 0).1 > 0
      · rw [if_pos ha]
        have : alignUp (l 0).1 (upd old 0 0 0) = 0 := by
          rw [upd_same]; unfold alignUp
          rw [Nat.zero_mod, Nat.sub_zero, Nat.mod_self]
        rw [this]
        constructor
        · rw [upd_ne _ _ (by decide), upd_same]
        · rw [upd_same, upd_same, hl]
      · rw [if_neg ha]
        constructor
        · rw [upd_ne _ _ (by decide), upd_same]
        · rw [upd_same, upd_same, hl]
    refine ⟨?_, fun _ => ⟨hoff.1, by rw [hoff.2, hr0]⟩, ?_⟩
    · intro u hu
      obtain rfl : u = 0 := by omega
      rw [hoff.1, hoff.2, hl]; omega
    · intro u hu _
      obtain rfl : u = 0 := by omega
      rw [hoff.1]; exact Nat.dvd_zero _
  · have hlay := C16_parallel_partial l n threads hn1 ht hal calls1 calls2 h1 h2 old
    obtain ⟨hp1, hp2⟩ := C16_padding l n threads hn1 ht hal calls1 calls2 h1 h2 old r hr
    rw [← hr] at hlay
    obtain ⟨hp0, hp3⟩ := hp1 h0
    have hlast : ∀ u, off u = if u = n then r.2 else r.1 u := by
      have hal' : (if (l (n - 1)).1 > 0 then upd r.1 (n - 1) (alignUp (l (n - 1)).1 (r.1 (n - 1))) else r.1) = r.1 := by
        by_cases ha : (l (n - 1)).1 > 0
        · rw [if_pos ha]
          have hd := hlay.aligned (n - 1) (by omega) ha
          have : alignUp (l (n - 1)).1 (r.1 (n - 1)) = r.1 (n - 1) := by
            unfold alignUp
            rw [Nat.mod_eq_zero_of_dvd hd, Nat.sub_zero, Nat.mod_self, Nat.add_zero]
          rw [this]
          funext x
          by_cases hx : x = n - 1
          · rw [hx, upd_same]
          · rw [upd_ne _ _ hx]
        · rw [if_neg ha]
      intro u
      rw [ho]
      unfold lastOffset
      rw [if_pos h0]
      simp only [hal']
      by_cases hu : u = n
      · rw [hu, upd_same, if_pos rfl, hp3]
      · rw [upd_ne _ _ hu, if_neg hu]
    refine ⟨?_, ?_, ?_⟩
    · intro u hu
      rw [hlast u, hlast (u + 1), if_neg (by omega)]
      by_cases hun : u + 1 = n
      · rw [if_pos hun, hp3]
        obtain rfl : u = n - 1 := by omega
        omega
      · rw [if_neg hun]
        exact ⟨hlay.disjoint u (u + 1) (by omega) (by omega), hp2 u (by omega)⟩
    · intro _
      rw [hlast 0, hlast n, if_neg (by omega), if_pos rfl]
      exact ⟨hp0, rfl⟩
    · intro u hu ha
      rw [hlast u, if_neg (by omega)]
      exact hlay.aligned u hu ha

theorem off_total {l : Nat → Nat × Nat} {off : Nat → Nat} {B : Nat → Nat} {n : Nat} (h0 : off 0 = 0)
    (h : ∀ u, u < n → off (u + 1) ≤ off u + (l u).2 + 14) (hB : ∀ u, u < n → (l u).2 ≤ 16 * B u) :
    off n ≤ 16 * ((List.range n).map B).sum + 14 * n := by
  have key : ∀ m, m ≤ n → off m ≤ 16 * ((List.range m).map B).sum + 14 * m := by
    intro m
    induction m with
    | zero => intro _; rw [h0]; exact Nat.zero_le _
    | succ m ih =>
      intro hm
      have := ih (by omega)
      have := h m (by omega)
      have := hB m (by omega)
      rw [List.range_succ, List.map_append, List.sum_append]
      simp only [List.map_cons, List.map_nil, List.sum_cons, List.sum_nil, Nat.add_zero]
      omega
  exact key n (Nat.le_refl _)

set_option maxHeartbeats 1000000 in
/-- The layout is as the proofs need it. -/
theorem layout_ok {g : Graph} {W E c0 k threads : Nat} {calls1 calls2 : List (Nat × Nat × Nat)} {old : Old}
    (hpos : ∀ u, u < g.n → ∀ e ∈ g.adj u, 0 < e.2) (hk : 0 < k) (hk' : k < 2 ^ 32)
    (hW : W ≤ 64) (hfit : ∀ u, u < g.n → wdegOf g u < 2 ^ (W - 1))
    (hbits : ∀ bits, k ≤ 2 ^ bits → (∀ j, k ≤ 2 ^ j → bits ≤ j) → ∀ u, u < g.n → wdegOf g u < 2 ^ (64 - bits))
    (hdeg : ∀ u, u < g.n → (g.adj u).length ≤ 2 ^ 28) (h1n : g.n = 1 → g.adj 0 = [])
    (hE : 16 * ((List.range g.n).map fun u => (g.adj u).length).sum + 14 * g.n < 2 ^ E)
    (ht : 0 < threads)
    (h1 : calls1.Perm (deterministicForCalls threads 0 (g.n - 1))) (h2 : calls2.Perm (deterministicForCalls threads 0 (g.n - 1))) :
    ∃ L total, layout? W E c0 k threads calls1 calls2 old g = some (L, total) ∧ L.W = W ∧
      ∀ size, total ≤ size → ∃ hash w p, Lay g k L size hash w p ∧
        ∀ u, u < g.n → (w u = 0 ∨ w u = 1 ∨ w u = 2 ∨ w u = 4 ∨ w u = 8) ∧ (w u > 0 → w u ∣ L.off u) ∧
          ∃ m, region? L u = some (w u, L.off u, m) ∧ L.off u + w u * m ≤ L.off (u + 1) ∧ (m = k ∨ (g.adj u).length ≤ m) := by
  obtain ⟨bits, b1, b2, b3⟩ := ceilLog2_spec (w := 32) (x := k) (by omega) hk'
  have hb32 : bits ≤ 32 := b3 32 (Nat.le_of_lt hk')
  have hbits := hbits bits b2 b3
  unfold layout?
  rw [b1]
  simp only [Option.bind_some]
  generalize hL0 : ({ W := W, c0 := c0, n := g.n, k := k, bits := bits, deg := fun u => (g.adj u).length, wdeg := weightedDegrees W g old.wdeg, off := old.off } : Layout) = L0
  have hL0W : L0.W = W := by rw [← hL0]
  have hL0k : L0.k = k := by rw [← hL0]
  have hL0b : L0.bits = bits := by rw [← hL0]
  have hL0d : ∀ u, L0.deg u = (g.adj u).length := by rw [← hL0]; exact fun _ => rfl
  have hL0c : L0.c0 = c0 := by rw [← hL0]
  have hmv : ∀ u, u < g.n → (L0.maxValue u : Int) = wdegOf g u := by
    intro u hu
    have h3 := weightedDegree_ok old.wdeg hu (hpos u hu) (hfit u hu)
    have h4 := hfit u hu
    unfold Layout.maxValue
    rw [← hL0]
    simp only
    rw [Nat.mod_eq_of_lt, h3]
    have : (weightedDegrees W g old.wdeg u : Int) < ((2 ^ (W - 1) : Nat) : Int) := by push_cast; omega
    exact_mod_cast this
  -- the values of a node
  have hnode : ∀ u, u < g.n → ∃ d hash w, ceilDeg? c0 ((g.adj u).length) = some d ∧ hash = decide (d < k) ∧
      L0.width? u hash = some w ∧ (w = 0 ∨ w = 1 ∨ w = 2 ∨ w = 4 ∨ w = 8) ∧ (w = 0 ↔ g.adj u = []) ∧
      (w > 0 → d ≤ 2 ^ 28 ∧ (∃ l, d = 2 ^ l) ∧ (g.adj u).length ≤ d ∧ d < 2 * (g.adj u).length ∧
        (if hash then bits else 0) ≤ 8 * w ∧ wdegOf g u < 2 ^ (8 * w - if hash then bits else 0)) := by
    intro u hu
    have hm := hmv u hu
    by_cases hz : g.adj u = []
    · refine ⟨c0, decide (c0 < k), 0, ?_, rfl, ?_, Or.inl rfl, ⟨fun _ => hz, fun _ => rfl⟩, fun h => absurd h (Nat.lt_irrefl _)⟩
      · unfold ceilDeg?; rw [hz]; rfl
      · unfold Layout.width?
        rw [if_pos]
        have : wdegOf g u = 0 := by unfold wdegOf; rw [hz]; rfl
        omega
    · have hlen : (g.adj u).length ≠ 0 := fun h => hz (List.length_eq_zero_iff.1 h)
      obtain ⟨l, l1, l2, l3, l4⟩ := ceil2_ok hlen (hdeg u hu)
      have hsum := len_le_sum (hpos u hu)
      have hne : L0.maxValue u ≠ 0 := by unfold wdegOf at hm; omega
      have hb := hbits u hu
      have hf := hfit u hu
      obtain ⟨w, w1, w2, w3, w4⟩ := width_ok (L := L0) (u := u) (key := decide (2 ^ l < k)) hne
        (by rw [hL0b]; split <;> omega)
        (by
          rw [hL0b]
          have h64 : (2 : Int) ^ (W - 1) ≤ 2 ^ 64 := by
            exact_mod_cast Nat.pow_le_pow_right (by decide : 0 < 2) (by omega)
          split
          · have : (L0.maxValue u : Int) < ((2 ^ (64 - bits) : Nat) : Int) := by push_cast; omega
            exact_mod_cast this
          · have : (L0.maxValue u : Int) < ((2 ^ 64 : Nat) : Int) := by push_cast; omega
            exact_mod_cast this)
      rw [hL0b] at w3 w4
      refine ⟨2 ^ l, decide (2 ^ l < k), w, ?_, rfl, w1, by omega, ⟨fun h => by omega, fun h => absurd h hz⟩, fun _ => ⟨?_, ⟨l, rfl⟩, l3, l4, w3, ?_⟩⟩
      · unfold ceilDeg?; rw [if_neg hlen]; exact l1
      · exact Nat.pow_le_pow_right (by decide) l2
      · have : (L0.maxValue u : Int) < ((2 ^ (8 * w - if decide (2 ^ l < k) = true then bits else 0) : Nat) : Int) := by exact_mod_cast w4
        push_cast at this
        rw [← hm]; exact this
  have hex : ∃ d : Nat → Nat, ∃ hash : Nat → Bool, ∃ w : Nat → Nat, ∀ u, u < g.n →
      ceilDeg? c0 ((g.adj u).length) = some (d u) ∧ hash u = decide (d u < k) ∧
      L0.width? u (hash u) = some (w u) ∧ (w u = 0 ∨ w u = 1 ∨ w u = 2 ∨ w u = 4 ∨ w u = 8) ∧ (w u = 0 ↔ g.adj u = []) ∧
      (w u > 0 → d u ≤ 2 ^ 28 ∧ (∃ l, d u = 2 ^ l) ∧ (g.adj u).length ≤ d u ∧ d u < 2 * (g.adj u).length ∧
        (if hash u then bits else 0) ≤ 8 * w u ∧ wdegOf g u < 2 ^ (8 * w u - if hash u then bits else 0)) := by
    have hch : ∀ u, ∃ x : Nat × Bool × Nat, u < g.n →
        ceilDeg? c0 ((g.adj u).length) = some x.1 ∧ x.2.1 = decide (x.1 < k) ∧
        L0.width? u x.2.1 = some x.2.2 ∧ (x.2.2 = 0 ∨ x.2.2 = 1 ∨ x.2.2 = 2 ∨ x.2.2 = 4 ∨ x.2.2 = 8) ∧ (x.2.2 = 0 ↔ g.adj u = []) ∧
        (x.2.2 > 0 → x.1 ≤ 2 ^ 28 ∧ (∃ l, x.1 = 2 ^ l) ∧ (g.adj u).length ≤ x.1 ∧ x.1 < 2 * (g.adj u).length ∧
          (if x.2.1 then bits else 0) ≤ 8 * x.2.2 ∧ wdegOf g u < 2 ^ (8 * x.2.2 - if x.2.1 then bits else 0)) := by
      intro u
      by_cases hu : u < g.n
      · obtain ⟨d, hash, w, h⟩ := hnode u hu
        exact ⟨(d, hash, w), fun _ => h⟩
      · exact ⟨(0, false, 0), fun h => absurd h hu⟩
    obtain ⟨f, hf⟩ := Classical.axiomOfChoice hch
    exact ⟨fun u => (f u).1, fun u => (f u).2.1, fun u => (f u).2.2, hf⟩
  obtain ⟨d, hash, w, hN⟩ := hex
  have hw8 : ∀ u, u < g.n → w u ≤ 8 := fun u hu => by have := (hN u hu).2.2.2.1; omega
  have hnb : ∀ u, u < g.n → w u * (if hash u then d u else k) ≤ 16 * (g.adj u).length ∧ w u * (if hash u then d u else k) < 2 ^ 32 := by
    intro u hu
    obtain ⟨_, n2, _, n4, n5, n6⟩ := hN u hu
    rcases Nat.eq_zero_or_pos (w u) with h0 | h0
    · rw [h0, Nat.zero_mul]; exact ⟨Nat.zero_le _, by decide⟩
    · obtain ⟨m1, _, m3, m4, _⟩ := n6 h0
      have hle : (if hash u = true then d u else k) ≤ d u := by
        rw [n2]
        by_cases hd : d u < k
        · rw [if_pos (by simpa using hd)]
        · rw [if_neg (by simpa using hd)]; omega
      have h3 : w u * (if hash u = true then d u else k) ≤ 8 * d u := Nat.mul_le_mul (hw8 u hu) hle
      have : (2 : Nat) ^ 28 * 8 < 2 ^ 32 := by decide
      omega
  have hvals : (List.range g.n).mapM L0.value? = some ((List.range g.n).map fun u => (w u, w u * (if hash u then d u else k))) := by
    apply mapM_some'
    intro u hu
    have hu := List.mem_range.1 hu
    obtain ⟨n1, n2, n3, _⟩ := hN u hu
    unfold Layout.value?
    rw [hL0c, hL0d, n1]
    simp only [Option.bind_some]
    rw [hL0k, ← n2, n3, Option.map_some]
    congr 2
    rw [← Nat.mod_eq_of_lt (hnb u hu).2]
    congr 1
    rw [n2]
    by_cases hd : d u < k
    · rw [if_pos hd, if_pos (by simpa using hd)]
    · rw [if_neg hd, if_neg (by simpa using hd)]
  rw [hvals]
  simp only [Option.bind_some]
  generalize hl : (fun i => ((List.range g.n).map fun u => (w u, w u * (if hash u then d u else k))).getD i (0, 0)) = l
  have hlu : ∀ u, u < g.n → l u = (w u, w u * (if hash u then d u else k)) := by
    intro u hu
    rw [← hl]
    simp only [List.getD_eq_getElem?_getD, List.getElem?_map, List.getElem?_range hu, Option.map_some, Option.getD_some]
  have hal : ∀ i, i < g.n → (l i).1 = 0 ∨ (l i).1 ∣ 8 := by
    intro i hi
    rw [hlu i hi]
    have := (hN i hi).2.2.2.1
    simp only
    rcases this with h | h | h | h | h <;> rw [h] <;> decide
  have h1l : g.n = 1 → (l 0).2 = 0 := by
    intro hn
    rw [hlu 0 (by omega)]
    have := (hN 0 (by omega)).2.2.2.2.1.2 (h1n hn)
    simp only [this, Nat.zero_mul]
  generalize hr : par l g.n (min threads (g.n - 1)) calls1 calls2 old.off = r
  generalize hoff : lastOffset l g.n r.1 = off
  obtain ⟨o1, o2, o3⟩ := offsets_ok hal h1l ht h1 h2 r hr.symm off hoff.symm
  have htot : g.n = 0 ∨ off g.n < 2 ^ E := by
    rcases Nat.eq_zero_or_pos g.n with h0 | h0
    · exact Or.inl h0
    · have := off_total (l := l) (off := off) (B := fun u => (g.adj u).length) (o2 h0).1 (fun u hu => (o1 u hu).2)
        (fun u hu => by rw [hlu u hu]; exact (hnb u hu).1)
      exact Or.inr (by omega)
  rw [if_pos htot]
  refine ⟨{ L0 with off := off }, r.2, by rw [← hL0], hL0W, ?_⟩
  intro size hsize
  have hmono : ∀ u v, u ≤ v → v ≤ g.n → off u ≤ off v := by
    intro u v huv
    induction v, huv using Nat.le_induction with
    | base => intro _; exact Nat.le_refl _
    | succ v _ ih =>
      intro hv
      have := ih (by omega)
      have := (o1 v (by omega)).1
      omega
  have hgap : ∀ u, u < g.n → w u * (if hash u then d u else k) ≤ off (u + 1) - off u ∧ off (u + 1) - off u ≤ w u * (if hash u then d u else k) + 14 ∧
      off u ≤ off (u + 1) := by
    intro u hu
    have := o1 u hu
    rw [hlu u hu] at this
    simp only at this
    omega
  have hwidth : ∀ u b, ({ L0 with off := off } : Layout).width? u b = L0.width? u b := fun _ _ => rfl
  have huse : ∀ u, u < g.n → ({ L0 with off := off } : Layout).useHash? u = some (hash u) := by
    intro u hu
    obtain ⟨n1, n2, _⟩ := hN u hu
    unfold Layout.useHash?
    show (ceilDeg? L0.c0 (L0.deg u)).map (fun d => decide (d < L0.k)) = _
    rw [hL0c, hL0d, n1, hL0k, Option.map_some, n2]
  refine ⟨hash, w, fun u => min (Nat.log2 ((off (u + 1) - off u) / w u)) (8 * w u), ?_⟩
  have hq : ∀ u, u < g.n → hash u = true → 0 < w u →
      d u ≤ (off (u + 1) - off u) / w u ∧ (off (u + 1) - off u) / w u ≤ 2 ^ 29 ∧ (off (u + 1) - off u) / w u ≠ 0 := by
    intro u hu hh h0
    obtain ⟨g1, g2, _⟩ := hgap u hu
    rw [hh, if_pos rfl] at g1 g2
    obtain ⟨m1, _, m3, _⟩ := (hN u hu).2.2.2.2.2 h0
    have hne : g.adj u ≠ [] := fun h => by have := (hN u hu).2.2.2.2.1.2 h; omega
    have hlen : 0 < (g.adj u).length := List.length_pos_iff.2 hne
    have q1 : d u ≤ (off (u + 1) - off u) / w u := (Nat.le_div_iff_mul_le h0).2 (by rw [Nat.mul_comm]; exact g1)
    refine ⟨q1, ?_, by omega⟩
    have q2 : (off (u + 1) - off u) / w u ≤ (w u * d u + 14) / w u := Nat.div_le_div_right g2
    rw [Nat.mul_add_div h0] at q2
    have q3 : 14 / w u ≤ 14 := Nat.div_le_self _ _
    have : (2 : Nat) ^ 28 + 14 ≤ 2 ^ 29 := by decide
    omega
  have htab : ∀ u, u < g.n → hash u = true → 0 < w u → ({ L0 with off := off } : Layout).hashTable? u =
      some (some (w u, off u, 2 ^ Nat.log2 ((off (u + 1) - off u) / w u))) := by
    intro u hu hh h0
    obtain ⟨_, _, n3, n4, _⟩ := hN u hu
    obtain ⟨q1, q2, q3⟩ := hq u hu hh h0
    unfold Layout.hashTable?
    rw [hwidth]
    rw [hh] at n3
    rw [n3]
    simp only [Option.bind_some]
    rw [if_pos h0]
    unfold floor2?
    rw [floorLog2_eq q3 (Nat.lt_of_le_of_lt q2 (by decide))]
    simp only [Option.bind_some]
    rw [if_pos ((Nat.log2_lt q3).2 (Nat.lt_of_le_of_lt q2 (by decide))), Option.map_some]
    rw [if_pos (known_of n4 h0)]
  have htab0 : ∀ u, u < g.n → hash u = true → w u = 0 → ({ L0 with off := off } : Layout).hashTable? u = some none := by
    intro u hu hh h0
    obtain ⟨_, _, n3, _⟩ := hN u hu
    unfold Layout.hashTable?
    rw [hwidth]
    rw [hh] at n3
    rw [n3, h0]
    rfl
  have hfull : ∀ u, u < g.n → hash u = false → 0 < w u → ({ L0 with off := off } : Layout).fullTable? u = some (some (w u, off u)) := by
    intro u hu hh h0
    obtain ⟨_, _, n3, n4, _⟩ := hN u hu
    unfold Layout.fullTable?
    rw [hwidth]
    rw [hh] at n3
    rw [n3, Option.map_some]
    rw [if_pos (known_of n4 h0)]
  have hfull0 : ∀ u, u < g.n → hash u = false → w u = 0 → ({ L0 with off := off } : Layout).fullTable? u = some none := by
    intro u hu hh h0
    obtain ⟨_, _, n3, _⟩ := hN u hu
    unfold Layout.fullTable?
    rw [hwidth]
    rw [hh] at n3
    rw [n3, h0]
    rfl
  have hpow : ∀ u, u < g.n → hash u = true → 0 < w u → (g.adj u).length ≤ 2 ^ Nat.log2 ((off (u + 1) - off u) / w u) ∧
      w u * 2 ^ Nat.log2 ((off (u + 1) - off u) / w u) ≤ off (u + 1) - off u := by
    intro u hu hh h0
    obtain ⟨q1, q2, q3⟩ := hq u hu hh h0
    obtain ⟨m1, ⟨l', m2⟩, m3, m4, m5, m6⟩ := (hN u hu).2.2.2.2.2 h0
    constructor
    · have : l' ≤ Nat.log2 ((off (u + 1) - off u) / w u) := (Nat.le_log2 q3).2 (by omega)
      exact Nat.le_trans (m2 ▸ m3) (Nat.pow_le_pow_right (by decide) this)
    · exact Nat.le_trans (Nat.mul_le_mul_left _ (Nat.log2_self_le q3)) (Nat.mul_div_le _ _)
  refine ⟨?_, ?_⟩
  · refine ⟨hL0k, huse, ?_, htab0, hfull, hfull0, ?_, ?_, ?_, ?_, ?_, ?_, ?_, ?_, ?_, hmv, ?_⟩
    · intro u hu hh h0
      refine ⟨2 ^ Nat.log2 ((off (u + 1) - off u) / w u), htab u hu hh h0, ?_⟩
      unfold hashCfg
      rw [log2_mask]
    · exact fun u hu => (hN u hu).2.2.2.2.1
    · intro u hu hh h0
      obtain ⟨q1, q2, q3⟩ := hq u hu hh h0
      obtain ⟨m1, ⟨l', m2⟩, m3, m4, m5, m6⟩ := (hN u hu).2.2.2.2.2 h0
      show (g.adj u).length ≤ 2 ^ min _ _
      rcases Nat.le_total (Nat.log2 ((off (u + 1) - off u) / w u)) (8 * w u) with h | h
      · rw [Nat.min_eq_left h]
        exact (hpow u hu hh h0).1
      · rw [Nat.min_eq_right h]
        have h3 := len_le_sum (hpos u hu)
        have h4 : (2 : Int) ^ (8 * w u - if hash u = true then bits else 0) ≤ 2 ^ (8 * w u) := by
          exact_mod_cast Nat.pow_le_pow_right (by decide : 0 < 2) (Nat.sub_le _ _)
        have : ((g.adj u).length : Int) ≤ ((2 ^ (8 * w u) : Nat) : Int) := by
          unfold wdegOf at m6
          push_cast
          omega
        exact_mod_cast this
    · intro u hu hh h0
      obtain ⟨m1, _, m3, m4, m5, m6⟩ := (hN u hu).2.2.2.2.2 h0
      rw [hh, if_pos rfl] at m5
      exact hL0b ▸ m5
    · show k ≤ 2 ^ L0.bits
      rw [hL0b]; exact b2
    · intro u hu hh h0
      obtain ⟨m1, _, m3, m4, m5, m6⟩ := (hN u hu).2.2.2.2.2 h0
      rw [hh, if_pos rfl] at m6
      exact hL0b ▸ m6
    · intro u hu hh h0
      obtain ⟨m1, _, m3, m4, m5, m6⟩ := (hN u hu).2.2.2.2.2 h0
      rw [hh] at m6
      exact m6
    · intro u hu
      show off u + (if hash u = true then 2 ^ min _ _ else k) * w u ≤ off (u + 1)
      obtain ⟨g1, _, g3⟩ := hgap u hu
      cases hh : hash u with
      | false =>
        rw [hh] at g1
        simp only [Bool.false_eq_true, if_false] at g1 ⊢
        rw [Nat.mul_comm]
        omega
      | true =>
        rw [if_pos rfl]
        rcases Nat.eq_zero_or_pos (w u) with h0 | h0
        · rw [h0, Nat.mul_zero]; omega
        · obtain ⟨q1, q2, q3⟩ := hq u hu hh h0
          have e1 : 2 ^ min (Nat.log2 ((off (u + 1) - off u) / w u)) (8 * w u) ≤ (off (u + 1) - off u) / w u :=
            Nat.le_trans (Nat.pow_le_pow_right (by decide) (Nat.min_le_left _ _)) (Nat.log2_self_le q3)
          have e2 := Nat.mul_le_mul_right (w u) e1
          have e3 := Nat.div_mul_le_self (off (u + 1) - off u) (w u)
          omega
    · intro u v huv hv
      exact hmono (u + 1) v (by omega) (by omega)
    · intro u hu
      have := hmono (u + 1) g.n (by omega) (Nat.le_refl _)
      have h3 := (o2 (by omega)).2
      show off (u + 1) ≤ size
      omega
    · intro u hu
      show wdegOf g u < 2 ^ (L0.W - 1)
      rw [hL0W]; exact hfit u hu
  · intro u hu
    have ho3 := o3 u hu
    rw [hlu u hu] at ho3
    refine ⟨(hN u hu).2.2.2.1, ho3, ?_⟩
    obtain ⟨g1, _, g3⟩ := hgap u hu
    unfold region?
    rw [huse u hu]
    simp only [Option.bind_some]
    rcases Nat.eq_zero_or_pos (w u) with h0 | h0
    · have hadj := (hN u hu).2.2.2.2.1.1 h0
      refine ⟨0, ?_, by rw [Nat.mul_zero]; exact g3, Or.inr (by rw [hadj]; exact Nat.le_refl _)⟩
      cases hh : hash u with
      | true => rw [if_pos rfl, htab0 u hu hh h0, h0]; rfl
      | false => rw [if_neg (by decide), hfull0 u hu hh h0, h0]; rfl
    · cases hh : hash u with
      | true =>
        rw [if_pos rfl, htab u hu hh h0]
        obtain ⟨p1, p2⟩ := hpow u hu hh h0
        refine ⟨_, rfl, ?_, Or.inr p1⟩
        show off u + w u * 2 ^ Nat.log2 ((off (u + 1) - off u) / w u) ≤ off (u + 1)
        omega
      | false =>
        rw [if_neg (by decide), hfull u hu hh h0]
        rw [hh, if_neg (by decide)] at g1
        refine ⟨k, by simp only [Option.map_some, Option.getD_some, hL0k], ?_, Or.inl rfl⟩
        show off u + w u * k ≤ off (u + 1)
        omega

end Verif.CompactGains

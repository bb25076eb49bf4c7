import Verif.Util

/-!
# Linear probing

`slot i` is the key stored in slot `i < M`, or `none`; `h` is the position where the search for a key
starts.
-/

namespace Verif.Maps

/-- The search loop shared by `FixedSizeSparseMap::find` (`fixed_size_sparse_map.h:165-176`),
`DynamicFlatMap::find_impl` (`dynamic_map.h:175-184`) and `DynamicRememberingFlatMap::find_impl`
(`dynamic_map.h:286-298`): from position `p` on, stop at an empty slot (`false`) or at the key
(`true`).  The table size `M` is a power of two, `(hash + 1) & (M - 1)` is written `(p + 1) % M`.
`none`: all slots visited without success, the loop does not terminate. -/
def probe (slot : Nat → Option Nat) (M k : Nat) : Nat → Nat → Option (Nat × Bool)
  | 0, _ => none
  | fuel + 1, p =>
    match slot p with
    | none => some (p, false)
    | some k' => if k' = k then some (p, true) else probe slot M k fuel ((p + 1) % M)

/-- Steps from `a` to `i`. -/
def dist (M a i : Nat) : Nat := (i + M - a) % M

theorem dist_lt {M a i : Nat} (hM : 0 < M) : dist M a i < M := Nat.mod_lt _ hM

theorem add_dist {M a i : Nat} (ha : a < M) (hi : i < M) : (a + dist M a i) % M = i := by
  unfold dist
  rcases Nat.lt_or_ge i a with h | h
  · rw [Nat.mod_eq_of_lt (show i + M - a < M by omega)]
    rw [show a + (i + M - a) = i + M by omega, Nat.add_mod_right, Nat.mod_eq_of_lt hi]
  · rw [show i + M - a = (i - a) + M by omega, Nat.add_mod_right,
      Nat.mod_eq_of_lt (show i - a < M by omega), show a + (i - a) = i by omega,
      Nat.mod_eq_of_lt hi]

theorem dist_add {M a d : Nat} (ha : a < M) (hd : d < M) : dist M a ((a + d) % M) = d := by
  unfold dist
  rcases Nat.lt_or_ge (a + d) M with h | h
  · rw [Nat.mod_eq_of_lt h, show a + d + M - a = d + M by omega, Nat.add_mod_right,
      Nat.mod_eq_of_lt hd]
  · rw [Nat.mod_eq_sub_mod h, Nat.mod_eq_of_lt (show a + d - M < M by omega),
      show a + d - M + M - a = d by omega, Nat.mod_eq_of_lt hd]

/-- What a search returns: the first position that stops it. -/
theorem probe_spec (slot : Nat → Option Nat) (M k : Nat) : ∀ (fuel p d : Nat), p < M → d < fuel →
    (slot ((p + d) % M) = none ∨ slot ((p + d) % M) = some k) →
    ∃ d', d' ≤ d ∧ (∀ e, e < d' → slot ((p + e) % M) ≠ none ∧ slot ((p + e) % M) ≠ some k) ∧
      ((slot ((p + d') % M) = none ∧ probe slot M k fuel p = some ((p + d') % M, false)) ∨
       (slot ((p + d') % M) = some k ∧ probe slot M k fuel p = some ((p + d') % M, true)))
  | 0, _, _, _, hd, _ => by omega
  | fuel + 1, p, d, hp, hd, hstop => by
    have hp0 : (p + 0) % M = p := by rw [Nat.add_zero, Nat.mod_eq_of_lt hp]
    unfold probe
    cases hs : slot p with
    | none =>
      refine ⟨0, Nat.zero_le _, by simp, Or.inl ⟨by rw [hp0]; exact hs, by rw [hp0]⟩⟩
    | some k' =>
      simp only
      by_cases hk : k' = k
      · subst hk
        refine ⟨0, Nat.zero_le _, by simp, Or.inr ⟨by rw [hp0]; exact hs, by rw [hp0]; simp⟩⟩
      · rw [if_neg hk]
        have hd0 : d ≠ 0 := by
          rintro rfl
          rw [hp0, hs] at hstop
          simp [hk] at hstop
        have hshift : ∀ e, ((p + 1) % M + e) % M = (p + (e + 1)) % M := by
          intro e
          rw [Nat.add_mod, Nat.mod_mod, ← Nat.add_mod]
          congr 1
          omega
        obtain ⟨d', h1, h2, h3⟩ := probe_spec slot M k fuel ((p + 1) % M) (d - 1)
          (Nat.mod_lt _ (by omega)) (by omega) (by
            rw [hshift, show d - 1 + 1 = d by omega]; exact hstop)
        rw [hshift] at h3
        refine ⟨d' + 1, by omega, ?_, h3⟩
        intro e he
        cases e with
        | zero => rw [hp0, hs]; simp [hk]
        | succ e =>
          have := h2 e (by omega)
          rwa [hshift] at this

/-- The table invariant: no key twice, and no empty slot between a key's start and its slot. -/
structure Probing (slot : Nat → Option Nat) (M : Nat) (h : Nat → Nat) : Prop where
  start : ∀ k, h k < M
  uniq : ∀ i j k, i < M → j < M → slot i = some k → slot j = some k → i = j
  path : ∀ i k, i < M → slot i = some k → ∀ d, d < dist M (h k) i → slot ((h k + d) % M) ≠ none

theorem Probing.found {slot : Nat → Option Nat} {M : Nat} {h : Nat → Nat} (hp : Probing slot M h)
    {i k : Nat} (hi : i < M) (hs : slot i = some k) :
    probe slot M k M (h k) = some (i, true) := by
  have hh := hp.start k
  have hd := dist_lt (a := h k) (i := i) (show 0 < M by omega)
  obtain ⟨d', h1, h2, h3⟩ := probe_spec slot M k M (h k) (dist M (h k) i) hh hd
    (Or.inr (by rw [add_dist hh hi]; exact hs))
  have hno : ∀ d, d < dist M (h k) i → ¬ (slot ((h k + d) % M) = some k) := by
    intro d hdl hsd
    have := hp.uniq _ i k (Nat.mod_lt _ (by omega)) hi hsd hs
    have h4 := dist_add hh (show d < M by omega)
    rw [this] at h4
    omega
  have hd' : d' = dist M (h k) i := by
    rcases Nat.lt_or_ge d' (dist M (h k) i) with hlt | hge
    · rcases h3 with ⟨h3, _⟩ | ⟨h3, _⟩
      · exact absurd h3 (hp.path i k hi hs d' hlt)
      · exact absurd h3 (hno d' hlt)
    · omega
  rw [hd', add_dist hh hi] at h3
  rcases h3 with ⟨h3, _⟩ | ⟨_, h3⟩
  · rw [hs] at h3; cases h3
  · exact h3

theorem Probing.absent {slot : Nat → Option Nat} {M : Nat} {h : Nat → Nat} (hp : Probing slot M h)
    {k : Nat} (hk : ∀ i, i < M → slot i ≠ some k) (he : ∃ i, i < M ∧ slot i = none) :
    ∃ d, d < M ∧ probe slot M k M (h k) = some ((h k + d) % M, false) ∧
      slot ((h k + d) % M) = none ∧ ∀ e, e < d → slot ((h k + e) % M) ≠ none := by
  obtain ⟨i, hi, hs⟩ := he
  have hh := hp.start k
  have hd := dist_lt (a := h k) (i := i) (show 0 < M by omega)
  obtain ⟨d', h1, h2, h3⟩ := probe_spec slot M k M (h k) (dist M (h k) i) hh hd
    (Or.inl (by rw [add_dist hh hi]; exact hs))
  rcases h3 with ⟨h3, h4⟩ | ⟨h3, _⟩
  · exact ⟨d', by omega, h4, h3, fun e he => (h2 e he).1⟩
  · exact absurd h3 (hk _ (Nat.mod_lt _ (by omega)))

/-- Every search answers correctly when there is an empty slot. -/
theorem Probing.probe_iff {slot : Nat → Option Nat} {M : Nat} {h : Nat → Nat}
    (hp : Probing slot M h) (he : ∃ i, i < M ∧ slot i = none) (k : Nat) :
    ∃ p b, probe slot M k M (h k) = some (p, b) ∧ p < M ∧
      (b = true → slot p = some k) ∧ (b = false → slot p = none ∧ ∀ i, i < M → slot i ≠ some k) := by
  by_cases hk : ∃ i, i < M ∧ slot i = some k
  · obtain ⟨i, hi, hs⟩ := hk
    exact ⟨i, true, hp.found hi hs, hi, fun _ => hs, (fun h => nomatch h)⟩
  · have hk' : ∀ i, i < M → slot i ≠ some k := fun i hi hs => hk ⟨i, hi, hs⟩
    obtain ⟨d, _, h2, h3, _⟩ := hp.absent hk' he
    have := hp.start k
    exact ⟨_, false, h2, Nat.mod_lt _ (by omega), (fun h => nomatch h), fun _ => ⟨h3, hk'⟩⟩

/-- Inserting a key where its search ends keeps the invariant. -/
theorem Probing.insert {slot : Nat → Option Nat} {M : Nat} {h : Nat → Nat} (hp : Probing slot M h)
    {k p : Nat} (he : ∃ i, i < M ∧ slot i = none)
    (hpr : probe slot M k M (h k) = some (p, false)) : Probing (upd slot p (some k)) M h := by
  have hk : ∀ i, i < M → slot i ≠ some k := by
    intro i hi hs
    rw [hp.found hi hs] at hpr
    simp at hpr
  obtain ⟨d, d1, d2, d3, d4⟩ := hp.absent hk he
  rw [d2] at hpr
  simp only [Option.some.injEq, Prod.mk.injEq, and_true] at hpr
  have hh := hp.start k
  refine ⟨hp.start, ?_, ?_⟩
  · intro i j k' hi hj hsi hsj
    by_cases h1 : i = p <;> by_cases h2 : j = p
    · omega
    · rw [h1, upd_same] at hsi
      cases hsi
      rw [upd_ne _ _ h2] at hsj
      exact absurd hsj (hk j hj)
    · rw [h2, upd_same] at hsj
      cases hsj
      rw [upd_ne _ _ h1] at hsi
      exact absurd hsi (hk i hi)
    · rw [upd_ne _ _ h1] at hsi
      rw [upd_ne _ _ h2] at hsj
      exact hp.uniq i j k' hi hj hsi hsj
  · intro i k' hi hs e he'
    by_cases hep : (h k' + e) % M = p
    · rw [hep, upd_same]; simp
    · rw [upd_ne _ _ hep]
      by_cases h1 : i = p
      · rw [h1, upd_same] at hs
        cases hs
        rw [h1, ← hpr, dist_add hh d1] at he'
        exact d4 e he'
      · rw [upd_ne _ _ h1] at hs
        exact hp.path i k' hi hs e he'

theorem Probing.empty (M : Nat) (h : Nat → Nat) (hh : ∀ k, h k < M) :
    Probing (fun _ => none) M h :=
  ⟨hh, fun _ _ _ _ _ h => by simp at h, fun _ _ _ h => by simp at h⟩

theorem Probing.congr {slot slot' : Nat → Option Nat} {M : Nat} {h : Nat → Nat}
    (hp : Probing slot M h) (he : ∀ i, i < M → slot' i = slot i) : Probing slot' M h := by
  refine ⟨hp.start, ?_, ?_⟩
  · intro i j k hi hj h1 h2
    rw [he i hi] at h1
    rw [he j hj] at h2
    exact hp.uniq i j k hi hj h1 h2
  · intro i k hi hs d hd
    have := hp.start k
    rw [he _ (Nat.mod_lt _ (by omega))]
    rw [he i hi] at hs
    exact hp.path i k hi hs d hd

/-- The search only looks at slots below the table size. -/
theorem probe_congr {slot slot' : Nat → Option Nat} {M : Nat} (he : ∀ i, i < M → slot' i = slot i)
    (k : Nat) : ∀ (fuel p : Nat), p < M → probe slot' M k fuel p = probe slot M k fuel p
  | 0, _, _ => rfl
  | fuel + 1, p, hp => by
    unfold probe
    rw [he p hp, probe_congr he k fuel _ (Nat.mod_lt _ (by omega))]

/-- Fewer keys than slots: some slot is empty.  `idx` numbers the used slots. -/
theorem exists_empty {slot : Nat → Option Nat} {M n : Nat} (idx : Nat → Nat) (hn : n < M)
    (hlt : ∀ i, i < M → slot i ≠ none → idx i < n)
    (hinj : ∀ i j, i < M → j < M → slot i ≠ none → slot j ≠ none → idx i = idx j → i = j) :
    ∃ i, i < M ∧ slot i = none := by
  apply Classical.byContradiction
  intro hno
  have hall : ∀ i, i < M → slot i ≠ none := fun i hi hs => hno ⟨i, hi, hs⟩
  have hnd : ((List.range M).map idx).Nodup := by
    refine nodup_map_on List.nodup_range ?_
    intro a ha b hb hab
    rw [List.mem_range] at ha hb
    exact hinj a b ha hb (hall a ha) (hall b hb) hab
  have := nodup_length_le hnd (m := List.range n) (by
    intro x hx
    obtain ⟨i, hi, rfl⟩ := List.mem_map.1 hx
    rw [List.mem_range] at hi
    exact List.mem_range.2 (hlt i hi (hall i hi)))
  simp at this
  omega

end Verif.Maps

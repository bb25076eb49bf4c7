import Verif.CompactMap.Model
import Verif.CompactMap.Spec

namespace Verif.CompactMap

open Verif.Maps

/-! ## Bit packing -/

/-- The entry for a key and a value. -/
def Cfg.entry (c : Cfg) (k v : Nat) : Nat := k * 2 ^ c.valueBits + v

theorem decodeKey_entry (c : Cfg) {k v : Nat} (hv : v < 2 ^ c.valueBits) :
    c.decodeKey (c.entry k v) = k := by
  unfold Cfg.decodeKey Cfg.entry
  rw [Nat.shiftRight_eq_div_pow, Nat.mul_comm, Nat.mul_add_div (Nat.two_pow_pos _),
    Nat.div_eq_of_lt hv, Nat.add_zero]

theorem decodeValue_entry (c : Cfg) {k v : Nat} (hb : c.b ≤ c.W) (hv : v < 2 ^ c.valueBits) :
    c.decodeValue (c.entry k v) = v := by
  unfold Cfg.decodeValue Cfg.entry
  have hW : 2 ^ c.W = 2 ^ c.valueBits * 2 ^ c.b := by
    rw [← Nat.pow_add]; unfold Cfg.valueBits; congr 1; omega
  rw [Nat.shiftLeft_eq, Nat.shiftRight_eq_div_pow, hW, Nat.mul_mod_mul_right,
    Nat.mul_div_cancel _ (Nat.two_pow_pos _), Nat.mul_comm, Nat.mul_add_mod, Nat.mod_eq_of_lt hv]

theorem decodeValue_zero (c : Cfg) : c.decodeValue 0 = 0 := by
  simp [Cfg.decodeValue]

theorem encode_eq (c : Cfg) {k v : Nat} (hb : c.b ≤ c.W) (hk : k < 2 ^ c.b)
    (hv : v < 2 ^ c.valueBits) : c.encode k v = c.entry k v := by
  unfold Cfg.encode Cfg.entry
  have hW : 2 ^ c.W = 2 ^ c.b * 2 ^ c.valueBits := by
    rw [← Nat.pow_add]; unfold Cfg.valueBits; congr 1; omega
  have hlt : k <<< c.valueBits < 2 ^ c.W := by
    rw [Nat.shiftLeft_eq, hW]
    exact Nat.mul_lt_mul_of_pos_right hk (Nat.two_pow_pos _)
  rw [Nat.mod_eq_of_lt hlt, Nat.shiftLeft_eq, Nat.mul_comm, ← Nat.two_pow_add_eq_or_of_lt hv]

theorem entry_pos (c : Cfg) {k v : Nat} (hv : 0 < v) : c.entry k v ≠ 0 := by
  unfold Cfg.entry; omega

theorem M_pos (c : Cfg) : 0 < c.M := Nat.two_pow_pos _

theorem hash_eq (c : Cfg) (k : Nat) : c.hash k = k % c.M := by
  unfold Cfg.hash Cfg.M
  exact Nat.and_two_pow_sub_one_eq_mod k c.p

theorem hash_lt (c : Cfg) (k : Nat) : c.hash k < c.M := by
  rw [hash_eq]; exact Nat.mod_lt _ (M_pos c)

/-! ## Positions relative to a cut -/

/-- Position of `x` when counting starts right after the slot `c`, which comes last. -/
def rel (M c x : Nat) : Nat := if x ≤ c then x + M - c - 1 else x - c - 1

theorem rel_lt {M c x : Nat} (hc : c < M) (hx : x < M) : rel M c x < M := by
  unfold rel; split <;> omega

theorem rel_cut {M c : Nat} (hc : c < M) : rel M c c = M - 1 := by
  unfold rel; rw [if_pos (Nat.le_refl _)]; omega

theorem rel_inj {M c x y : Nat} (hc : c < M) (hx : x < M) (hy : y < M)
    (h : rel M c x = rel M c y) : x = y := by
  unfold rel at h; split at h <;> split at h <;> omega

theorem mod_two {M x : Nat} (h : x < 2 * M) : x % M = if x < M then x else x - M := by
  split
  · exact Nat.mod_eq_of_lt ‹_›
  · rw [Nat.mod_eq_sub_mod (by omega), Nat.mod_eq_of_lt (by omega)]

theorem rel_add {M c x d : Nat} (hc : c < M) (hx : x < M) (h : rel M c x + d < M) :
    rel M c ((x + d) % M) = rel M c x + d := by
  have hd : x + d < 2 * M := by
    unfold rel at h; split at h <;> omega
  rw [mod_two hd]
  unfold rel at *
  split <;> split at h <;> split <;> omega

theorem dist_rel {M c x y : Nat} (hc : c < M) (hx : x < M) (hy : y < M)
    (h : rel M c x ≤ rel M c y) : dist M x y = rel M c y - rel M c x := by
  unfold dist
  rw [mod_two (by omega)]
  unfold rel at *
  repeat' split
  all_goals (repeat' split at h) <;> omega

/-- The next position. -/
theorem rel_next {M c x : Nat} (hc : c < M) (hx : x < M) (h : rel M c x + 1 < M) :
    rel M c ((x + 1) % M) = rel M c x + 1 := rel_add hc hx h

/-- After the cut comes relative position 0. -/
theorem rel_wrap {M c x : Nat} (hc : c < M) (hx : x < M) (h : rel M c x = M - 1) :
    rel M c ((x + 1) % M) = 0 := by
  rw [mod_two (by omega)]
  unfold rel at *
  split <;> split at h <;> split <;> omega

theorem movable_iff (c : Cfg) {cut k f t : Nat} (hc : cut < c.M) (hf : f < c.M) (ht : t < c.M)
    (h : rel c.M cut (c.hash k) ≤ rel c.M cut f) :
    c.movable k f t = true ↔
      rel c.M cut (c.hash k) ≤ rel c.M cut t ∧ rel c.M cut t < rel c.M cut f := by
  have hh := hash_lt c k
  unfold Cfg.movable
  simp only [decide_eq_true_eq]
  generalize c.hash k = x at *
  generalize c.M = M at *
  unfold rel at *
  repeat' split
  all_goals (repeat' split at h) <;> omega

theorem movable_self (c : Cfg) (k s : Nat) : c.movable k s s = false := by
  unfold Cfg.movable
  simp only [decide_eq_false_iff_not]
  split <;> split <;> simp <;> omega

/-! ## Slots -/

/-- The key in a slot. -/
def Cfg.slot (c : Cfg) (data : Nat → Nat) (i : Nat) : Option Nat :=
  if data i = 0 then none else some (c.decodeKey (data i))

theorem slot_none {c : Cfg} {data : Nat → Nat} {i : Nat} : c.slot data i = none ↔ data i = 0 := by
  unfold Cfg.slot; split <;> simp [*]

theorem slot_some {c : Cfg} {data : Nat → Nat} {i k : Nat} :
    c.slot data i = some k ↔ data i ≠ 0 ∧ c.decodeKey (data i) = k := by
  unfold Cfg.slot; split <;> simp [*]

/-- The array holds exactly the positive counters of `m`. -/
structure Rep (c : Cfg) (data : Nat → Nat) (m : Nat → Nat) : Prop where
  fwd : ∀ i, i < c.M → data i ≠ 0 →
    ∃ k, k < 2 ^ c.b ∧ 0 < m k ∧ m k < 2 ^ c.valueBits ∧ data i = c.entry k (m k)
  bwd : ∀ k, 0 < m k → m k < 2 ^ c.valueBits ∧ ∃ i, i < c.M ∧ data i = c.entry k (m k)

/-- No probe path crosses the cut. -/
def Cut (c : Cfg) (data : Nat → Nat) (cut : Nat) : Prop :=
  ∀ i, i < c.M → i ≠ cut → data i ≠ 0 →
    rel c.M cut (c.hash (c.decodeKey (data i))) ≤ rel c.M cut i

structure Inv (c : Cfg) (data : Nat → Nat) (m : Nat → Nat) : Prop where
  rep : Rep c data m
  probing : Probing (c.slot data) c.M c.hash
  cut : ∃ cut, cut < c.M ∧ Cut c data cut

theorem Rep.slot_key {c : Cfg} {data m : Nat → Nat} (h : Rep c data m) {i k : Nat} (hi : i < c.M)
    (hs : c.slot data i = some k) : k < 2 ^ c.b ∧ 0 < m k ∧ m k < 2 ^ c.valueBits ∧
      data i = c.entry k (m k) := by
  obtain ⟨h1, h2⟩ := slot_some.1 hs
  obtain ⟨k', a, b, d, e⟩ := h.fwd i hi h1
  rw [e, decodeKey_entry c d] at h2
  subst h2
  exact ⟨a, b, d, e⟩

theorem Rep.live {c : Cfg} {data m : Nat → Nat} (h : Rep c data m) {k : Nat} (hk : 0 < m k) :
    ∃ i, i < c.M ∧ c.slot data i = some k ∧ data i = c.entry k (m k) := by
  obtain ⟨hlt, i, hi, he⟩ := h.bwd k hk
  have hne : data i ≠ 0 := by rw [he]; exact entry_pos c hk
  exact ⟨i, hi, slot_some.2 ⟨hne, by rw [he, decodeKey_entry c hlt]⟩, he⟩

/-- A key is live if and only if it is in a slot. -/
theorem Rep.absent {c : Cfg} {data m : Nat → Nat} (h : Rep c data m) {k : Nat} :
    m k = 0 ↔ ∀ i, i < c.M → c.slot data i ≠ some k := by
  constructor
  · intro hk i hi hs
    have := (h.slot_key hi hs).2.1
    omega
  · intro hn
    rcases Nat.eq_zero_or_pos (m k) with h0 | h0
    · exact h0
    · obtain ⟨i, hi, hs, _⟩ := h.live h0
      exact absurd hs (hn i hi)

/-- Any empty slot is a cut. -/
theorem cut_of_empty {c : Cfg} {data : Nat → Nat} (hp : Probing (c.slot data) c.M c.hash) {e : Nat}
    (he : e < c.M) (h0 : data e = 0) : Cut c data e := by
  intro i hi hie hne
  apply Classical.byContradiction
  intro hrel
  have hh := hash_lt c (c.decodeKey (data i))
  have hs : c.slot data i = some (c.decodeKey (data i)) := slot_some.2 ⟨hne, rfl⟩
  have hpath := hp.path i _ hi hs (dist c.M (c.hash (c.decodeKey (data i))) e)
  rw [add_dist hh he] at hpath
  refine hpath ?_ (slot_none.2 h0)
  generalize c.hash (c.decodeKey (data i)) = x at *
  generalize c.M = M at *
  unfold dist
  rw [mod_two (by omega), mod_two (by omega)]
  unfold rel at hrel
  repeat' split
  all_goals (repeat' split at hrel) <;> omega

/-- The path condition in relative positions. -/
theorem path_rel {c : Cfg} {data : Nat → Nat} (hp : Probing (c.slot data) c.M c.hash) {cut : Nat}
    (hc : cut < c.M) {i : Nat} (hi : i < c.M) (hne : data i ≠ 0)
    (hrel : rel c.M cut (c.hash (c.decodeKey (data i))) ≤ rel c.M cut i) {x : Nat} (hx : x < c.M)
    (h1 : rel c.M cut (c.hash (c.decodeKey (data i))) ≤ rel c.M cut x)
    (h2 : rel c.M cut x < rel c.M cut i) : data x ≠ 0 := by
  have hh := hash_lt c (c.decodeKey (data i))
  have hs : c.slot data i = some (c.decodeKey (data i)) := slot_some.2 ⟨hne, rfl⟩
  have hpath := hp.path i _ hi hs (dist c.M (c.hash (c.decodeKey (data i))) x)
  rw [add_dist hh hx, dist_rel hc hh hx h1, dist_rel hc hh hi hrel] at hpath
  have := hpath (by omega)
  rw [ne_eq, slot_none] at this
  exact this

/-- And back. -/
theorem probing_of_rel {c : Cfg} {data : Nat → Nat} {cut : Nat} (hc : cut < c.M)
    (huniq : ∀ i j, i < c.M → j < c.M → data i ≠ 0 → data j ≠ 0 →
      c.decodeKey (data i) = c.decodeKey (data j) → i = j)
    (hrel : ∀ i, i < c.M → data i ≠ 0 →
      rel c.M cut (c.hash (c.decodeKey (data i))) ≤ rel c.M cut i)
    (hpath : ∀ i, i < c.M → data i ≠ 0 → ∀ x, x < c.M →
      rel c.M cut (c.hash (c.decodeKey (data i))) ≤ rel c.M cut x →
      rel c.M cut x < rel c.M cut i → data x ≠ 0) :
    Probing (c.slot data) c.M c.hash := by
  refine ⟨hash_lt c, ?_, ?_⟩
  · intro i j k hi hj h1 h2
    obtain ⟨a1, a2⟩ := slot_some.1 h1
    obtain ⟨b1, b2⟩ := slot_some.1 h2
    exact huniq i j hi hj a1 b1 (by rw [a2, b2])
  · intro i k hi hs d hd
    obtain ⟨a1, a2⟩ := slot_some.1 hs
    subst a2
    have hh := hash_lt c (c.decodeKey (data i))
    have hr := hrel i hi a1
    have hri := rel_lt hc hi
    rw [dist_rel hc hh hi hr] at hd
    have hadd := rel_add hc hh (d := d) (by omega)
    rw [ne_eq, slot_none]
    exact hpath i hi a1 _ (Nat.mod_lt _ (M_pos c)) (by omega) (by omega)

/-! ## Searching -/

theorem findLoop_of_probe {c : Cfg} {data : Nat → Nat} {k : Nat} :
    ∀ (fuel pos d : Nat), d + fuel = c.M → pos = (c.hash k + d) % c.M →
    ∀ p b, probe (c.slot data) c.M k fuel pos = some (p, b) →
      c.findLoop data k fuel pos = some (p, data p)
  | 0, _, _, _, _, _, _, h => by simp [probe] at h
  | fuel + 1, pos, d, hd, hpos, p, b, h => by
    unfold probe at h
    unfold Cfg.findLoop
    cases hs : c.slot data pos with
    | none =>
      rw [hs] at h
      cases h
      rw [slot_none] at hs
      simp [hs]
    | some k' =>
      rw [hs] at h
      simp only at h
      obtain ⟨h1, h2⟩ := slot_some.1 hs
      by_cases hk : k' = k
      · rw [if_pos hk] at h
        cases h
        subst hk
        simp [h2]
      · rw [if_neg hk] at h
        have hfuel : fuel ≠ 0 := by
          rintro rfl
          simp [probe] at h
        have hnext : c.hash (pos + 1) = (c.hash k + (d + 1)) % c.M := by
          rw [hash_eq c (pos + 1), hpos, Nat.add_mod, Nat.mod_mod, ← Nat.add_mod, Nat.add_assoc]
        have hne : c.hash (pos + 1) ≠ c.hash k := by
          rw [hnext]
          intro he
          have h3 := dist_add (hash_lt c k) (show d + 1 < c.M by omega)
          rw [he] at h3
          unfold dist at h3
          rw [show c.hash k + c.M - c.hash k = c.M by omega, Nat.mod_self] at h3
          omega
        rw [if_pos ⟨h1, by rw [h2]; exact hk, Or.inr hne⟩]
        refine findLoop_of_probe fuel _ (d + 1) (by omega) hnext p b ?_
        rwa [hash_eq c (pos + 1)]

theorem find_of_probe {c : Cfg} {data : Nat → Nat} {k p : Nat} {b : Bool}
    (h : probe (c.slot data) c.M k c.M (c.hash k) = some (p, b)) :
    c.find? data k = some (p, data p) :=
  findLoop_of_probe c.M (c.hash k) 0 (by omega)
    (by rw [Nat.add_zero, Nat.mod_eq_of_lt (hash_lt c k)]) p b h

/-- In a full table that does not contain the key the search still ends, at an entry of another key. -/
theorem findLoop_full {c : Cfg} {data : Nat → Nat} {k : Nat} (hfull : c.full = true)
    (hocc : ∀ i, i < c.M → data i ≠ 0) (habs : ∀ i, i < c.M → c.slot data i ≠ some k) :
    ∀ (fuel pos d : Nat), d + fuel = c.M → 0 < fuel → pos = (c.hash k + d) % c.M →
      ∃ p, p < c.M ∧ c.findLoop data k fuel pos = some (p, data p)
  | 0, _, _, _, h0, _ => by omega
  | fuel + 1, pos, d, hd, _, hpos => by
    have hlt : pos < c.M := by rw [hpos]; exact Nat.mod_lt _ (M_pos c)
    unfold Cfg.findLoop
    simp only
    split
    · rename_i hcond
      have hnext : c.hash (pos + 1) = (c.hash k + (d + 1)) % c.M := by
        rw [hash_eq c (pos + 1), hpos, Nat.add_mod, Nat.mod_mod, ← Nat.add_mod, Nat.add_assoc]
      have hfuel : 0 < fuel := by
        rcases Nat.eq_zero_or_pos fuel with h0 | h0
        · exfalso
          rcases hcond.2.2 with h1 | h1
          · rw [hfull] at h1; cases h1
          · apply h1
            rw [hnext, show d + 1 = c.M by omega, Nat.add_mod_right,
              Nat.mod_eq_of_lt (hash_lt c k)]
        · exact h0
      exact findLoop_full hfull hocc habs fuel _ (d + 1) (by omega) hfuel hnext
    · exact ⟨pos, hlt, rfl⟩

theorem find_present {c : Cfg} {data m : Nat → Nat} (h : Inv c data m) {k : Nat} (hk : 0 < m k) :
    ∃ p, p < c.M ∧ c.find? data k = some (p, data p) ∧ data p = c.entry k (m k) ∧
      c.slot data p = some k := by
  obtain ⟨i, hi, hs, he⟩ := h.rep.live hk
  exact ⟨i, hi, find_of_probe (h.probing.found hi hs), he, hs⟩

theorem find_absent {c : Cfg} {data m : Nat → Nat} (h : Inv c data m) {k : Nat} (hk : m k = 0)
    (he : ∃ i, i < c.M ∧ data i = 0) :
    ∃ p, p < c.M ∧ c.find? data k = some (p, 0) ∧ data p = 0 ∧
      probe (c.slot data) c.M k c.M (c.hash k) = some (p, false) := by
  obtain ⟨e, he1, he2⟩ := he
  obtain ⟨d, _, h2, h3, _⟩ := h.probing.absent (h.rep.absent.1 hk) ⟨e, he1, slot_none.2 he2⟩
  have h4 := find_of_probe h2
  rw [slot_none] at h3
  rw [h3] at h4
  exact ⟨_, Nat.mod_lt _ (M_pos c), h4, h3, h2⟩

theorem get_ok {c : Cfg} {data m : Nat → Nat} (hb : c.b ≤ c.W) (h : Inv c data m) (k : Nat)
    (he : c.full = true ∨ ∃ i, i < c.M ∧ data i = 0) : c.get? data k = some (m k) := by
  rcases Nat.eq_zero_or_pos (m k) with hk | hk
  · by_cases hemp : ∃ i, i < c.M ∧ data i = 0
    · obtain ⟨p, _, h2, _⟩ := find_absent h hk hemp
      unfold Cfg.get?
      rw [h2]
      simp [decodeValue_zero, hk]
    · have hfull : c.full = true := by
        rcases he with he | he
        · exact he
        · exact absurd he hemp
      have hocc : ∀ i, i < c.M → data i ≠ 0 := fun i hi h0 => hemp ⟨i, hi, h0⟩
      obtain ⟨p, hp, h2⟩ := findLoop_full hfull hocc (h.rep.absent.1 hk) c.M (c.hash k) 0 (by omega)
        (M_pos c) (by rw [Nat.add_zero, Nat.mod_eq_of_lt (hash_lt c k)])
      have h3 : c.find? data k = some (p, data p) := h2
      have h4 : c.decodeKey (data p) ≠ k := fun h5 =>
        h.rep.absent.1 hk p hp (slot_some.2 ⟨hocc p hp, h5⟩)
      unfold Cfg.get?
      rw [h3]
      simp [hfull, h4, hk]
  · obtain ⟨p, hp, h2, h3, h4⟩ := find_present h hk
    have hlt := (h.rep.bwd k hk).1
    unfold Cfg.get?
    rw [h2, h3]
    simp only [Option.bind_eq_bind, Option.bind_some, decodeKey_entry c hlt,
      decodeValue_entry c hb hlt]
    split <;> simp

/-! ## Increasing -/

/-- Overwriting the value of a live key. -/
theorem overwrite_ok {c : Cfg} {data m : Nat → Nat} (h : Inv c data m) {k p v : Nat} (hp : p < c.M)
    (hs : c.slot data p = some k) (hv0 : 0 < v) (hv : v < 2 ^ c.valueBits) :
    Inv c (upd data p (c.entry k v)) (upd m k v) := by
  have hslot : ∀ i, c.slot (upd data p (c.entry k v)) i = c.slot data i := by
    intro i
    by_cases hip : i = p
    · subst hip
      rw [hs, slot_some, upd_same]
      exact ⟨entry_pos c hv0, decodeKey_entry c hv⟩
    · unfold Cfg.slot
      rw [upd_ne _ _ hip]
  have hzero : ∀ i, upd data p (c.entry k v) i = 0 ↔ data i = 0 := by
    intro i
    rw [← slot_none (c := c), ← slot_none (c := c), hslot]
  have hkeys : ∀ i, data i ≠ 0 → c.decodeKey (upd data p (c.entry k v) i) = c.decodeKey (data i) := by
    intro i hne
    have h1 : c.slot data i = some (c.decodeKey (data i)) := slot_some.2 ⟨hne, rfl⟩
    rw [← hslot] at h1
    exact (slot_some.1 h1).2
  refine ⟨⟨?_, ?_⟩, h.probing.congr fun i _ => hslot i, ?_⟩
  · intro i hi hne
    by_cases hip : i = p
    · subst hip
      exact ⟨k, (h.rep.slot_key hp hs).1, by rw [upd_same]; exact ⟨hv0, hv, by rw [upd_same]⟩⟩
    · rw [upd_ne _ _ hip] at hne ⊢
      obtain ⟨k', a, b, d, e⟩ := h.rep.fwd i hi hne
      have hkk : k' ≠ k := by
        rintro rfl
        exact hip (h.probing.uniq i p k' hi hp (slot_some.2 ⟨hne, by rw [e, decodeKey_entry c d]⟩) hs)
      exact ⟨k', a, by rw [upd_ne _ _ hkk]; exact ⟨b, d, e⟩⟩
  · intro k' hk'
    by_cases hkk : k' = k
    · subst hkk
      rw [upd_same]
      exact ⟨hv, p, hp, by rw [upd_same]⟩
    · rw [upd_ne _ _ hkk] at hk' ⊢
      obtain ⟨i, hi, hsi, hei⟩ := h.rep.live hk'
      refine ⟨(h.rep.bwd k' hk').1, i, hi, ?_⟩
      rw [upd_ne _ _ (fun hip => ?_), hei]
      subst hip
      rw [hs] at hsi
      cases hsi
      exact hkk rfl
  · obtain ⟨cut, hc1, hc2⟩ := h.cut
    refine ⟨cut, hc1, ?_⟩
    intro i hi hic hne
    have hne' : data i ≠ 0 := fun h0 => hne ((hzero i).2 h0)
    rw [hkeys i hne']
    exact hc2 i hi hic hne'

theorem insert_ok {c : Cfg} {data m : Nat → Nat} (h : Inv c data m) {k p v : Nat} (hk : m k = 0)
    (hkb : k < 2 ^ c.b) (hp : p < c.M) (h0 : data p = 0)
    (hpr : probe (c.slot data) c.M k c.M (c.hash k) = some (p, false)) (hv0 : 0 < v)
    (hv : v < 2 ^ c.valueBits) : Inv c (upd data p (c.entry k v)) (upd m k v) := by
  have hslot : ∀ i, c.slot (upd data p (c.entry k v)) i = upd (c.slot data) p (some k) i := by
    intro i
    by_cases hip : i = p
    · subst hip
      rw [upd_same, slot_some, upd_same]
      exact ⟨entry_pos c hv0, decodeKey_entry c hv⟩
    · rw [upd_ne _ _ hip]
      unfold Cfg.slot
      rw [upd_ne _ _ hip]
  refine ⟨⟨?_, ?_⟩,
    (h.probing.insert ⟨p, hp, slot_none.2 h0⟩ hpr).congr fun i _ => hslot i, p, hp, ?_⟩
  · intro i hi hne
    by_cases hip : i = p
    · subst hip
      exact ⟨k, hkb, by rw [upd_same]; exact ⟨hv0, hv, by rw [upd_same]⟩⟩
    · rw [upd_ne _ _ hip] at hne ⊢
      obtain ⟨k', a, b, d, e⟩ := h.rep.fwd i hi hne
      have hkk : k' ≠ k := by rintro rfl; omega
      exact ⟨k', a, by rw [upd_ne _ _ hkk]; exact ⟨b, d, e⟩⟩
  · intro k' hk'
    by_cases hkk : k' = k
    · subst hkk
      rw [upd_same]
      exact ⟨hv, p, hp, by rw [upd_same]⟩
    · rw [upd_ne _ _ hkk] at hk' ⊢
      obtain ⟨i, hi, hsi, hei⟩ := h.rep.live hk'
      refine ⟨(h.rep.bwd k' hk').1, i, hi, ?_⟩
      rw [upd_ne _ _ (fun hip => ?_), hei]
      subst hip
      rw [slot_none.2 h0] at hsi
      cases hsi
  · intro i hi hip hne
    rw [upd_ne _ _ hip] at hne ⊢
    exact cut_of_empty h.probing hp h0 i hi hip hne

theorem increase_ok {c : Cfg} {data m : Nat → Nat} (hb : c.b ≤ c.W) (h : Inv c data m) {k v : Nat}
    (hkb : k < 2 ^ c.b) (hv0 : 0 < v) (hv : m k + v < 2 ^ c.valueBits)
    (he : m k ≠ 0 ∨ ∃ i, i < c.M ∧ data i = 0) :
    ∃ data', c.increaseBy? data k v = some (data', decide (m k = 0)) ∧
      Inv c data' (upd m k (m k + v)) := by
  have hW : 2 ^ c.valueBits ≤ 2 ^ c.W := Nat.pow_le_pow_right (by omega) (Nat.sub_le _ _)
  unfold Cfg.increaseBy?
  rcases Nat.eq_zero_or_pos (m k) with hk | hk
  · obtain ⟨p, hp, h2, h3, h4⟩ := find_absent h hk (by
      rcases he with he | he
      · omega
      · exact he)
    rw [h2]
    simp only [Option.bind_eq_bind, Option.bind_some, decodeValue_zero]
    rw [hk] at hv ⊢
    rw [Nat.mod_eq_of_lt (by omega), encode_eq c hb hkb hv]
    exact ⟨_, rfl, insert_ok h hk hkb hp h3 h4 (by omega) hv⟩
  · obtain ⟨p, hp, h2, h3, h4⟩ := find_present h hk
    rw [h2]
    simp only [Option.bind_eq_bind, Option.bind_some]
    rw [h3, decodeValue_entry c hb (by omega), Nat.mod_eq_of_lt (by omega),
      encode_eq c hb hkb hv]
    refine ⟨_, ?_, overwrite_ok h hp h4 (by omega) hv⟩
    have h5 := entry_pos c (k := k) hk
    have h6 : (c.entry k (m k) == 0) = false := by simpa using h5
    rw [h6]
    simp
    omega

/-! ## Erasing -/

/-- The loop invariant of the erase loop, started at `s` on array `data0`. -/
structure Er (c : Cfg) (cut s : Nat) (data0 data : Nat → Nat) (hole cur : Nat) : Prop where
  hole_lt : hole < c.M
  cur_lt : cur < c.M
  s_hole : rel c.M cut s ≤ rel c.M cut hole
  hole_cur : rel c.M cut hole ≤ rel c.M cut cur
  occ : ∀ x, x < c.M → (data x = 0 ↔ data0 x = 0)
  start : ∀ i, i < c.M → i ≠ hole → data i ≠ 0 →
    rel c.M cut (c.hash (c.decodeKey (data i))) ≤ rel c.M cut i
  path : ∀ i, i < c.M → i ≠ hole → data i ≠ 0 → ∀ x, x < c.M →
    rel c.M cut (c.hash (c.decodeKey (data i))) ≤ rel c.M cut x →
    rel c.M cut x < rel c.M cut i → data x ≠ 0
  clean : ∀ i, i < c.M → i ≠ hole → data i ≠ 0 → rel c.M cut i ≤ rel c.M cut cur →
    ¬ (rel c.M cut (c.hash (c.decodeKey (data i))) ≤ rel c.M cut hole ∧
      rel c.M cut hole < rel c.M cut i)
  content : ∀ e, e ≠ 0 → ((∃ i, i < c.M ∧ i ≠ hole ∧ data i = e) ↔
    ∃ i, i < c.M ∧ i ≠ s ∧ data0 i = e)
  uniq : ∀ i j, i < c.M → j < c.M → i ≠ hole → j ≠ hole → data i ≠ 0 → data j ≠ 0 →
    c.decodeKey (data i) = c.decodeKey (data j) → i = j

theorem Er.init {c : Cfg} {data : Nat → Nat} {cut s : Nat}
    (hp : Probing (c.slot data) c.M c.hash) (hc : cut < c.M) (hcut : Cut c data cut)
    (hs : s < c.M) : Er c cut s data data s s := by
  have hstart : ∀ i, i < c.M → data i ≠ 0 →
      rel c.M cut (c.hash (c.decodeKey (data i))) ≤ rel c.M cut i := by
    intro i hi hne
    by_cases hic : i = cut
    · subst hic
      rw [rel_cut hc]
      have := rel_lt hc (hash_lt c (c.decodeKey (data i)))
      omega
    · exact hcut i hi hic hne
  refine ⟨hs, hs, Nat.le_refl _, Nat.le_refl _, fun _ _ => Iff.rfl, fun i hi _ => hstart i hi, ?_,
    ?_, fun _ _ => Iff.rfl, ?_⟩
  · intro i hi _ hne x hx h1 h2
    exact path_rel hp hc hi hne (hstart i hi hne) hx h1 h2
  · intro i hi his hne hle hcon
    omega
  · intro i j hi hj _ _ h1 h2 he
    exact hp.uniq i j _ hi hj (slot_some.2 ⟨h1, rfl⟩) (slot_some.2 ⟨h2, he.symm⟩)

/-- One step over an occupied slot before the cut (or the cut itself). -/
theorem Er.step {c : Cfg} {cut s : Nat} {data0 data : Nat → Nat} {hole cur : Nat} (hc : cut < c.M)
    (h : Er c cut s data0 data hole cur) (hr : rel c.M cut cur + 1 < c.M)
    (hne : data (c.hash (cur + 1)) ≠ 0) :
    (c.movable (c.decodeKey (data (c.hash (cur + 1)))) (c.hash (cur + 1)) hole = true →
      Er c cut s data0 (upd data hole (data (c.hash (cur + 1)))) (c.hash (cur + 1))
        (c.hash (cur + 1))) ∧
    (c.movable (c.decodeKey (data (c.hash (cur + 1)))) (c.hash (cur + 1)) hole = false →
      Er c cut s data0 data hole (c.hash (cur + 1))) := by
  have hn := hash_lt c (cur + 1)
  have hrel : rel c.M cut (c.hash (cur + 1)) = rel c.M cut cur + 1 := by
    rw [hash_eq]; exact rel_next hc h.cur_lt hr
  generalize c.hash (cur + 1) = nx at *
  have hh := h.hole_lt
  have hsh := h.s_hole
  have hhc := h.hole_cur
  have hnh : nx ≠ hole := by rintro rfl; omega
  have hst := h.start nx hn hnh hne
  have hmov := movable_iff c (k := c.decodeKey (data nx)) hc hn hh hst
  constructor
  · intro hm
    rw [hmov] at hm
    have hocc : ∀ x, x < c.M → (upd data hole (data nx) x = 0 ↔ data0 x = 0) := by
      intro x hx
      by_cases hxh : x = hole
      · subst hxh
        rw [upd_same]
        -- the hole is occupied in the original array: it lies on the path of the moved element
        have h1 := h.path nx hn hnh hne x hx hm.1 hm.2
        rw [← h.occ x hx]
        exact ⟨fun h0 => absurd h0 hne, fun h0 => absurd h0 h1⟩
      · rw [upd_ne _ _ hxh]; exact h.occ x hx
    have hnz : ∀ x, x < c.M → data x ≠ 0 → upd data hole (data nx) x ≠ 0 := by
      intro x hx hx0
      by_cases hxh : x = hole
      · rw [hxh, upd_same]; exact hne
      · rw [upd_ne _ _ hxh]; exact hx0
    refine ⟨hn, hn, by omega, Nat.le_refl _, hocc, ?_, ?_, ?_, ?_, ?_⟩
    · intro i hi hin hi0
      by_cases hih : i = hole
      · subst hih; rw [upd_same]; exact hm.1
      · rw [upd_ne _ _ hih] at hi0 ⊢; exact h.start i hi hih hi0
    · intro i hi hin hi0 x hx h1 h2
      by_cases hih : i = hole
      · subst hih
        rw [upd_same] at h1
        exact hnz x hx (h.path nx hn hnh hne x hx h1 (by omega))
      · rw [upd_ne _ _ hih] at hi0 h1
        exact hnz x hx (h.path i hi hih hi0 x hx h1 h2)
    · intro i hi hin hi0 hle hcon
      omega
    · intro e he
      rw [← h.content e he]
      constructor
      · rintro ⟨i, hi, hin, hie⟩
        by_cases hih : i = hole
        · rw [hih, upd_same] at hie
          exact ⟨nx, hn, hnh, hie⟩
        · rw [upd_ne _ _ hih] at hie
          exact ⟨i, hi, hih, hie⟩
      · rintro ⟨i, hi, hih, hie⟩
        by_cases hin : i = nx
        · subst hin
          exact ⟨hole, hh, fun he => hnh he.symm, by rw [upd_same, hie]⟩
        · exact ⟨i, hi, hin, by rw [upd_ne _ _ hih, hie]⟩
    · intro i j hi hj hin hjn hi0 hj0 hk
      by_cases h1 : i = hole <;> by_cases h2 : j = hole
      · omega
      · rw [h1, upd_same, upd_ne _ _ h2] at hk
        rw [upd_ne _ _ h2] at hj0
        exact absurd (h.uniq nx j hn hj hnh h2 hne hj0 hk).symm hjn
      · rw [h2, upd_same, upd_ne _ _ h1] at hk
        rw [upd_ne _ _ h1] at hi0
        exact absurd (h.uniq i nx hi hn h1 hnh hi0 hne hk) hin
      · rw [upd_ne _ _ h1, upd_ne _ _ h2] at hk
        rw [upd_ne _ _ h1] at hi0
        rw [upd_ne _ _ h2] at hj0
        exact h.uniq i j hi hj h1 h2 hi0 hj0 hk
  · intro hm
    have hm' : ¬ (rel c.M cut (c.hash (c.decodeKey (data nx))) ≤ rel c.M cut hole ∧
        rel c.M cut hole < rel c.M cut nx) := by
      rw [← hmov, hm]; simp
    refine ⟨hh, hn, hsh, by omega, h.occ, h.start, h.path, ?_, h.content, h.uniq⟩
    intro i hi hih hi0 hle
    by_cases hin : i = nx
    · subst hin; exact hm'
    · refine h.clean i hi hih hi0 ?_
      have : rel c.M cut i ≠ rel c.M cut nx := fun he => hin (rel_inj hc hi hn he)
      omega

/-- What is left when the hole is emptied at the end. -/
theorem Er.final {c : Cfg} {cut s : Nat} {data0 data : Nat → Nat} {hole cur : Nat} (hc : cut < c.M)
    (h : Er c cut s data0 data hole cur)
    (hend : ∀ i, i < c.M → data i ≠ 0 → rel c.M cut i ≤ rel c.M cut cur) :
    Probing (c.slot (upd data hole 0)) c.M c.hash ∧
      ∀ e, e ≠ 0 → ((∃ i, i < c.M ∧ upd data hole 0 i = e) ↔
        ∃ i, i < c.M ∧ i ≠ s ∧ data0 i = e) := by
  have hne : ∀ i, upd data hole 0 i ≠ 0 → i ≠ hole ∧ data i ≠ 0 ∧ upd data hole 0 i = data i := by
    intro i hi
    have h1 : i ≠ hole := by rintro rfl; rw [upd_same] at hi; exact hi rfl
    rw [upd_ne _ _ h1] at hi
    exact ⟨h1, hi, upd_ne _ _ h1⟩
  refine ⟨probing_of_rel hc ?_ ?_ ?_, ?_⟩
  · intro i j hi hj h1 h2 he
    obtain ⟨a1, a2, a3⟩ := hne i h1
    obtain ⟨b1, b2, b3⟩ := hne j h2
    rw [a3, b3] at he
    exact h.uniq i j hi hj a1 b1 a2 b2 he
  · intro i hi h1
    obtain ⟨a1, a2, a3⟩ := hne i h1
    rw [a3]
    exact h.start i hi a1 a2
  · intro i hi h1 x hx h2 h3
    obtain ⟨a1, a2, a3⟩ := hne i h1
    rw [a3] at h2
    have hxh : x ≠ hole := by
      rintro rfl
      exact h.clean i hi a1 a2 (hend i hi a2) ⟨h2, h3⟩
    rw [upd_ne _ _ hxh]
    exact h.path i hi a1 a2 x hx h2 h3
  · intro e he
    rw [← h.content e he]
    constructor
    · rintro ⟨i, hi, hie⟩
      obtain ⟨a1, _, a3⟩ := hne i (by rw [hie]; exact he)
      exact ⟨i, hi, a1, by rw [← a3, hie]⟩
    · rintro ⟨i, hi, hih, hie⟩
      exact ⟨i, hi, by rw [upd_ne _ _ hih, hie]⟩

/-- The wrap-around part in a full table moves nothing. -/
theorem Er.wrap {c : Cfg} {cut s : Nat} {data0 data : Nat → Nat} {hole cur : Nat} (hc : cut < c.M)
    (h : Er c cut s data0 data hole cur) (hocc : ∀ i, i < c.M → data i ≠ 0) {nx : Nat}
    (hn : nx < c.M) (hle : rel c.M cut nx ≤ rel c.M cut s) :
    c.movable (c.decodeKey (data nx)) nx hole = false := by
  have hsh := h.s_hole
  by_cases hnh : nx = hole
  · rw [hnh]; exact movable_self ..
  · have hst := h.start nx hn hnh (hocc nx hn)
    have hmov := movable_iff c (k := c.decodeKey (data nx)) hc hn h.hole_lt hst
    cases hm : c.movable (c.decodeKey (data nx)) nx hole with
    | false => rfl
    | true =>
      rw [hmov] at hm
      omega

theorem eraseLoop_wrap {c : Cfg} {cut s : Nat} {data0 data : Nat → Nat} {hole cur0 : Nat}
    (hfull : c.full = true) (hc : cut < c.M) (hs : s < c.M) (h : Er c cut s data0 data hole cur0)
    (hocc : ∀ i, i < c.M → data i ≠ 0) :
    ∀ (fuel cur : Nat), cur < c.M → c.hash (cur + 1) < c.M →
      rel c.M cut (c.hash (cur + 1)) ≤ rel c.M cut s →
      fuel = rel c.M cut s - rel c.M cut (c.hash (cur + 1)) + 1 →
      c.eraseLoop s fuel data hole cur = some (data, hole)
  | 0, _, _, _, _, hf => by omega
  | fuel + 1, cur, hcur, hn, hle, hf => by
    unfold Cfg.eraseLoop
    have hmov := h.wrap hc hocc hn hle
    have hne := hocc _ hn
    simp only [hmov, hne, Bool.false_eq_true, or_self, if_false]
    by_cases hcs : c.hash (cur + 1) = s
    · rw [if_neg (by simp [hfull, hcs])]
    · rw [if_pos ⟨hne, Or.inr hcs⟩]
      have hlt : rel c.M cut (c.hash (cur + 1)) < rel c.M cut s := by
        have : rel c.M cut (c.hash (cur + 1)) ≠ rel c.M cut s := fun he => hcs (rel_inj hc hn hs he)
        omega
      have hrs := rel_lt hc hs
      have hnext : rel c.M cut (c.hash (c.hash (cur + 1) + 1)) =
          rel c.M cut (c.hash (cur + 1)) + 1 := by
        rw [hash_eq c (c.hash (cur + 1) + 1)]
        exact rel_next hc hn (by omega)
      exact eraseLoop_wrap hfull hc hs h hocc fuel _ hn (hash_lt ..) (by omega) (by omega)

/-- The erase loop up to an empty cut. -/
theorem eraseLoop_empty {c : Cfg} {cut s : Nat} {data0 : Nat → Nat} (hc : cut < c.M) (hs : s < c.M)
    (h0 : data0 cut = 0) (hs0 : data0 s ≠ 0)
    (hseg : ∀ i, i < c.M → i ≠ cut → rel c.M cut s ≤ rel c.M cut i → data0 i ≠ 0) :
    ∀ (n fuel : Nat) (data : Nat → Nat) (hole cur : Nat),
      Er c cut s data0 data hole cur → n = c.M - 1 - rel c.M cut cur → n ≤ fuel → cur ≠ cut →
      ∃ data1 hole1 cur1, c.eraseLoop s fuel data hole cur = some (upd data1 hole1 0, cut) ∧
        Er c cut s data0 data1 hole1 cur1 ∧ rel c.M cut cur1 = c.M - 2
  | 0, fuel, data, hole, cur, h, hn, hf, hcc => by
    exfalso
    have h1 := rel_lt hc h.cur_lt
    exact hcc (rel_inj hc h.cur_lt hc (by rw [rel_cut hc]; omega))
  | n + 1, 0, data, hole, cur, h, hn, hf, hcc => by omega
  | n + 1, fuel + 1, data, hole, cur, h, hn, hf, hcc => by
    have hnx := hash_lt c (cur + 1)
    have hr : rel c.M cut cur + 1 < c.M := by omega
    have hrel : rel c.M cut (c.hash (cur + 1)) = rel c.M cut cur + 1 := by
      rw [hash_eq]; exact rel_next hc h.cur_lt hr
    unfold Cfg.eraseLoop
    by_cases hcut : c.hash (cur + 1) = cut
    · have hz : data (c.hash (cur + 1)) = 0 := by
        rw [hcut, h.occ cut hc]; exact h0
      simp only [hz, true_or, if_true, ne_eq, not_true_eq_false, false_and, if_false]
      refine ⟨data, hole, cur, by rw [hcut], h, ?_⟩
      rw [hcut, rel_cut hc] at hrel
      omega
    · have hne : data (c.hash (cur + 1)) ≠ 0 := by
        rw [ne_eq, h.occ _ hnx]
        have h1 := h.s_hole
        have h2 := h.hole_cur
        exact hseg _ hnx hcut (by omega)
      have hcs : c.hash (cur + 1) ≠ s := by
        intro he
        rw [he] at hrel
        have h1 := h.s_hole
        have h2 := h.hole_cur
        omega
      obtain ⟨st1, st2⟩ := h.step hc hr hne
      cases hm : c.movable (c.decodeKey (data (c.hash (cur + 1)))) (c.hash (cur + 1)) hole with
      | true =>
        simp only [hm, if_true, hne, or_true, ne_eq, not_false_eq_true, hcs, and_true]
        exact eraseLoop_empty hc hs h0 hs0 hseg n fuel _ _ _ (st1 hm) (by omega) (by omega) hcut
      | false =>
        simp only [hm, hne, Bool.false_eq_true, or_self, if_false, ne_eq, not_false_eq_true, hcs, or_true,
          and_true, if_true]
        exact eraseLoop_empty hc hs h0 hs0 hseg n fuel _ _ _ (st2 hm) (by omega) (by omega) hcut

/-- The erase loop in a full table. -/
theorem eraseLoop_full {c : Cfg} {cut s : Nat} {data0 : Nat → Nat} (hfull : c.full = true)
    (hc : cut < c.M) (hs : s < c.M) (hocc : ∀ i, i < c.M → data0 i ≠ 0) :
    ∀ (n fuel : Nat) (data : Nat → Nat) (hole cur : Nat),
      Er c cut s data0 data hole cur → n = c.M - 1 - rel c.M cut cur →
      fuel = n + rel c.M cut s + 1 →
      ∃ data1 hole1 cur1, c.eraseLoop s fuel data hole cur = some (data1, hole1) ∧
        Er c cut s data0 data1 hole1 cur1 ∧ rel c.M cut cur1 = c.M - 1
  | 0, fuel, data, hole, cur, h, hn, hf => by
    have h1 := rel_lt hc h.cur_lt
    have hlast : rel c.M cut cur = c.M - 1 := by omega
    have h0 : rel c.M cut (c.hash (cur + 1)) = 0 := by
      rw [hash_eq]; exact rel_wrap hc h.cur_lt hlast
    refine ⟨data, hole, cur, ?_, h, hlast⟩
    exact eraseLoop_wrap hfull hc hs h (fun i hi hz => hocc i hi ((h.occ i hi).1 hz)) fuel cur
      h.cur_lt (hash_lt ..) (by omega) (by omega)
  | n + 1, fuel, data, hole, cur, h, hn, hf => by
    obtain ⟨fuel, rfl⟩ : ∃ f, fuel = f + 1 := ⟨fuel - 1, by omega⟩
    have hnx := hash_lt c (cur + 1)
    have hr : rel c.M cut cur + 1 < c.M := by omega
    have hrel : rel c.M cut (c.hash (cur + 1)) = rel c.M cut cur + 1 := by
      rw [hash_eq]; exact rel_next hc h.cur_lt hr
    have hne : data (c.hash (cur + 1)) ≠ 0 := fun hz => hocc _ hnx ((h.occ _ hnx).1 hz)
    have hcs : c.hash (cur + 1) ≠ s := by
      intro he
      rw [he] at hrel
      have h1 := h.s_hole
      have h2 := h.hole_cur
      omega
    obtain ⟨st1, st2⟩ := h.step hc hr hne
    unfold Cfg.eraseLoop
    cases hm : c.movable (c.decodeKey (data (c.hash (cur + 1)))) (c.hash (cur + 1)) hole with
    | true =>
      simp only [hm, if_true, hne, or_true, ne_eq, not_false_eq_true, hcs, and_true]
      exact eraseLoop_full hfull hc hs hocc n fuel _ _ _ (st1 hm) (by omega) (by omega)
    | false =>
      simp only [hm, hne, Bool.false_eq_true, or_self, if_false, ne_eq, not_false_eq_true, hcs, or_true,
        and_true, if_true]
      exact eraseLoop_full hfull hc hs hocc n fuel _ _ _ (st2 hm) (by omega) (by omega)

/-- The first empty slot after `s`. -/
theorem first_empty {c : Cfg} {data : Nat → Nat} {s : Nat} (hs : s < c.M) (hs0 : data s ≠ 0)
    (he : ∃ i, i < c.M ∧ data i = 0) :
    ∃ cut, cut < c.M ∧ data cut = 0 ∧
      ∀ i, i < c.M → i ≠ cut → rel c.M cut s ≤ rel c.M cut i → data i ≠ 0 := by
  obtain ⟨e, he1, he2⟩ := he
  -- least distance from `s`
  have hex : ∃ d, data ((s + d) % c.M) = 0 := ⟨dist c.M s e, by rw [add_dist hs he1]; exact he2⟩
  have hmin : ∃ d, data ((s + d) % c.M) = 0 ∧ ∀ d', d' < d → data ((s + d') % c.M) ≠ 0 := by
    obtain ⟨d, hd⟩ := hex
    induction d using Nat.strongRecOn with
    | _ d ih =>
      by_cases h : ∃ d', d' < d ∧ data ((s + d') % c.M) = 0
      · obtain ⟨d', h1, h2⟩ := h
        exact ih d' h1 h2
      · exact ⟨d, hd, fun d' h1 h2 => h ⟨d', h1, h2⟩⟩
  obtain ⟨d, hd1, hd2⟩ := hmin
  have hdM : d < c.M := by
    apply Classical.byContradiction
    intro hge
    have h1 := hd2 (d - c.M) (by have := M_pos c; omega)
    rw [show s + d = s + (d - c.M) + c.M by omega, Nat.add_mod_right] at hd1
    exact h1 hd1
  refine ⟨(s + d) % c.M, Nat.mod_lt _ (M_pos c), hd1, ?_⟩
  intro i hi hic hle
  have hd0 : d ≠ 0 := by
    rintro rfl
    rw [Nat.add_zero, Nat.mod_eq_of_lt hs] at hd1
    exact hs0 hd1
  have hc : (s + d) % c.M < c.M := Nat.mod_lt _ (M_pos c)
  have h1 : rel c.M ((s + d) % c.M) s = c.M - 1 - d := by
    rw [mod_two (by omega)]
    unfold rel
    repeat' split
    all_goals omega
  have h2 := rel_lt hc hi
  have h3 : rel c.M ((s + d) % c.M) i ≠ c.M - 1 := by
    rw [← rel_cut hc]
    exact fun he => hic (rel_inj hc hi hc he)
  have h4 := rel_add hc hs (d := rel c.M ((s + d) % c.M) i - rel c.M ((s + d) % c.M) s) (by omega)
  have h5 := rel_inj hc (Nat.mod_lt _ (M_pos c)) hi (by rw [h4]; omega)
  rw [← h5]
  exact hd2 _ (by omega)

theorem erase_ok {c : Cfg} {data m : Nat → Nat} (h : Inv c data m) {k s : Nat} (hs : s < c.M)
    (hk : c.slot data s = some k) (he : c.full = true ∨ ∃ i, i < c.M ∧ data i = 0) :
    ∃ data' hole', c.eraseLoop s c.M data s s = some (data', hole') ∧
      Inv c (if c.full then upd data' hole' 0 else data') (upd m k 0) := by
  have hs0 : data s ≠ 0 := (slot_some.1 hk).1
  -- the shape of the result
  have main : ∃ data' hole', c.eraseLoop s c.M data s s = some (data', hole') ∧
      ∃ cut data1 hole1 cur1, cut < c.M ∧ Er c cut s data data1 hole1 cur1 ∧
        (∀ i, i < c.M → data1 i ≠ 0 → rel c.M cut i ≤ rel c.M cut cur1) ∧
        (if c.full then upd data' hole' 0 else data') = upd data1 hole1 0 := by
    by_cases hemp : ∃ i, i < c.M ∧ data i = 0
    · obtain ⟨cut, hc, hc0, hseg⟩ := first_empty hs hs0 hemp
      have hcut := cut_of_empty h.probing hc hc0
      have hsc : s ≠ cut := by rintro rfl; exact hs0 hc0
      obtain ⟨data1, hole1, cur1, a, b, d⟩ := eraseLoop_empty hc hs hc0 hs0 hseg _ c.M data s s
        (Er.init h.probing hc hcut hs) rfl (by omega) hsc
      refine ⟨_, _, a, cut, data1, hole1, cur1, hc, b, ?_, ?_⟩
      · intro i hi hi0
        have hic : i ≠ cut := by
          rintro rfl
          exact hi0 ((b.occ i hi).2 hc0)
        have h1 := rel_lt hc hi
        have h2 : rel c.M cut i ≠ c.M - 1 := by
          rw [← rel_cut hc]
          exact fun he => hic (rel_inj hc hi hc he)
        omega
      · split
        · funext x
          by_cases hx : x = cut
          · subst hx
            rw [upd_same]
            by_cases hxh : x = hole1
            · rw [hxh, upd_same]
            · rw [upd_ne _ _ hxh, (b.occ x hc).2 hc0]
          · rw [upd_ne _ _ hx]
        · rfl
    · have hfull : c.full = true := by
        rcases he with he | he
        · exact he
        · exact absurd he hemp
      have hocc : ∀ i, i < c.M → data i ≠ 0 := fun i hi h0 => hemp ⟨i, hi, h0⟩
      obtain ⟨cut, hc, hcut⟩ := h.cut
      have hrs := rel_lt hc hs
      obtain ⟨data1, hole1, cur1, a, b, d⟩ := eraseLoop_full hfull hc hs hocc
        (c.M - 1 - rel c.M cut s) c.M data s s (Er.init h.probing hc hcut hs) rfl (by omega)
      refine ⟨_, _, a, cut, data1, hole1, cur1, hc, b, ?_, by rw [hfull]; rfl⟩
      intro i hi _
      have h1 := rel_lt hc hi
      omega
  obtain ⟨data', hole', a, cut, data1, hole1, cur1, hc, b, hend, heq⟩ := main
  refine ⟨data', hole', a, ?_⟩
  rw [heq]
  obtain ⟨hp, hcontent⟩ := b.final hc hend
  refine ⟨⟨?_, ?_⟩, hp, hole1, b.hole_lt, cut_of_empty hp b.hole_lt (upd_same ..)⟩
  · intro i hi hne
    obtain ⟨j, hj, hjs, hje⟩ := (hcontent _ hne).1 ⟨i, hi, rfl⟩
    have hj0 : data j ≠ 0 := by rw [hje]; exact hne
    obtain ⟨k', e1, e2, e3, e4⟩ := h.rep.fwd j hj hj0
    have hkk : k' ≠ k := by
      rintro rfl
      exact hjs (h.probing.uniq j s k' hj hs
        (slot_some.2 ⟨hj0, by rw [e4, decodeKey_entry c e3]⟩) hk)
    refine ⟨k', e1, ?_⟩
    rw [upd_ne _ _ hkk, ← hje]
    exact ⟨e2, e3, e4⟩
  · intro k' hk'
    have hkk : k' ≠ k := by
      rintro rfl
      rw [upd_same] at hk'
      omega
    rw [upd_ne _ _ hkk] at hk' ⊢
    obtain ⟨j, hj, hjs, hje⟩ := h.rep.live hk'
    refine ⟨(h.rep.bwd k' hk').1, ?_⟩
    refine (hcontent _ (entry_pos c hk')).2 ⟨j, hj, ?_, hje⟩
    rintro rfl
    rw [hk] at hjs
    cases hjs
    exact hkk rfl

theorem decrease_ok {c : Cfg} {data m : Nat → Nat} (hb : c.b ≤ c.W) (h : Inv c data m) {k v : Nat}
    (hv0 : 0 < v) (hv : v ≤ m k) (he : c.full = true ∨ ∃ i, i < c.M ∧ data i = 0) :
    ∃ data', c.decreaseBy? data k v = some (data', decide (v = m k)) ∧
      Inv c data' (upd m k (m k - v)) := by
  obtain ⟨p, hp, h2, h3, h4⟩ := find_present h (show 0 < m k by omega)
  have hlt := (h.rep.bwd k (by omega)).1
  unfold Cfg.decreaseBy?
  rw [h2]
  simp only [Option.bind_eq_bind, Option.bind_some]
  have hdv : c.decodeValue (data p) = m k := by rw [h3, decodeValue_entry c hb hlt]
  rw [hdv]
  by_cases hlt' : m k > v
  · rw [if_pos hlt']
    refine ⟨upd data p (data p - v), ?_, ?_⟩
    · rw [show decide (v = m k) = false by simpa using (by omega : v ≠ m k)]
    · have h5 : data p - v = c.entry k (m k - v) := by
        rw [h3]; unfold Cfg.entry; omega
      rw [h5]
      exact overwrite_ok h hp h4 (by omega) (by omega)
  · rw [if_neg hlt']
    obtain ⟨data', hole', a, b⟩ := erase_ok h hp h4 he
    rw [a]
    simp only [Option.bind_some]
    have hvk : v = m k := by omega
    refine ⟨if c.full then upd data' hole' 0 else data', ?_, ?_⟩
    · rw [show decide (v = m k) = true by simpa using hvk]
    · rw [show m k - v = 0 by omega]
      exact b

/-! ## Counting -/

theorem Inv.has_empty {c : Cfg} {data m : Nat → Nat} (h : Inv c data m) {n : Nat} (hn : n < c.M)
    (hl : LiveAtMost n m) : ∃ i, i < c.M ∧ data i = 0 := by
  apply Classical.byContradiction
  intro hno
  have hocc : ∀ i, i < c.M → data i ≠ 0 := fun i hi h0 => hno ⟨i, hi, h0⟩
  obtain ⟨keys, hk1, hk2⟩ := hl
  have hnd : ((List.range c.M).map fun i => c.decodeKey (data i)).Nodup := by
    refine nodup_map_on List.nodup_range ?_
    intro a ha b hb hab
    rw [List.mem_range] at ha hb
    exact h.probing.uniq a b _ ha hb (slot_some.2 ⟨hocc a ha, rfl⟩)
      (slot_some.2 ⟨hocc b hb, hab.symm⟩)
  have := nodup_length_le hnd (m := keys) (by
    intro x hx
    obtain ⟨i, hi, rfl⟩ := List.mem_map.1 hx
    rw [List.mem_range] at hi
    apply hk2
    have := (h.rep.slot_key hi (slot_some.2 ⟨hocc i hi, rfl⟩)).2.1
    omega)
  simp at this
  omega

theorem forEach_ok {c : Cfg} {data m : Nat → Nat} (hb : c.b ≤ c.W) (h : Inv c data m) :
    ((c.forEach data).map Prod.fst).Nodup ∧
      (∀ k v, (k, v) ∈ c.forEach data ↔ 0 < v ∧ m k = v) ∧
      c.count data = (c.forEach data).length := by
  have hmem : ∀ k v, (k, v) ∈ c.forEach data ↔ 0 < v ∧ m k = v := by
    intro k v
    unfold Cfg.forEach
    rw [List.mem_filterMap]
    constructor
    · rintro ⟨i, hi, he⟩
      rw [List.mem_range] at hi
      split at he
      · rename_i hne
        obtain ⟨k', a, b, d, e⟩ := h.rep.fwd i hi hne
        rw [e, decodeKey_entry c d, decodeValue_entry c hb d] at he
        cases he
        exact ⟨b, rfl⟩
      · cases he
    · rintro ⟨hv, rfl⟩
      obtain ⟨i, hi, hs, he⟩ := h.rep.live hv
      have hlt := (h.rep.bwd k hv).1
      refine ⟨i, List.mem_range.2 hi, ?_⟩
      rw [if_pos (slot_some.1 hs).1, he, decodeKey_entry c hlt, decodeValue_entry c hb hlt]
  refine ⟨?_, hmem, ?_⟩
  · unfold Cfg.forEach
    have key : ∀ l : List Nat, l.Nodup → (∀ i ∈ l, i < c.M) →
        ((l.filterMap fun i => if data i ≠ 0 then
          some (c.decodeKey (data i), c.decodeValue (data i)) else none).map Prod.fst).Nodup := by
      intro l
      induction l with
      | nil => intro _ _; exact List.nodup_nil
      | cons a l ih =>
        intro hnd hlt
        obtain ⟨ha, hnd⟩ := List.nodup_cons.1 hnd
        have ih := ih hnd fun i hi => hlt i (List.mem_cons_of_mem _ hi)
        by_cases h0 : data a ≠ 0
        · rw [List.filterMap_cons_some (by rw [if_pos h0]), List.map_cons, List.nodup_cons]
          refine ⟨?_, ih⟩
          intro hm
          obtain ⟨x, hx, hxe⟩ := List.mem_map.1 hm
          obtain ⟨i, hi, he⟩ := List.mem_filterMap.1 hx
          split at he
          · rename_i hi0
            cases he
            have := h.probing.uniq i a _ (hlt i (List.mem_cons_of_mem _ hi))
              (hlt a (List.mem_cons_self ..)) (slot_some.2 ⟨hi0, rfl⟩)
              (slot_some.2 ⟨h0, hxe.symm⟩)
            rw [this] at hi
            exact ha hi
          · cases he
        · rw [List.filterMap_cons_none (by rw [if_neg h0])]
          exact ih
    exact key _ List.nodup_range fun i hi => List.mem_range.1 hi
  · unfold Cfg.count Cfg.forEach
    have key : ∀ (l : List Nat) (n : Nat),
        l.foldl (fun n i => n + if data i ≠ 0 then 1 else 0) n =
          n + (l.filterMap fun i => if data i ≠ 0 then
            some (c.decodeKey (data i), c.decodeValue (data i)) else none).length := by
      intro l
      induction l with
      | nil => intro n; rfl
      | cons a l ih =>
        intro n
        rw [List.foldl_cons, ih]
        by_cases h0 : data a ≠ 0
        · rw [List.filterMap_cons_some (by rw [if_pos h0]), List.length_cons, if_pos h0]
          omega
        · rw [List.filterMap_cons_none (by rw [if_neg h0]), if_neg h0]
          rfl
    rw [key, Nat.zero_add]

theorem Inv.new (c : Cfg) : Inv c (fun _ => 0) (fun _ => 0) := by
  refine ⟨⟨fun _ _ h => absurd rfl h, fun _ h => absurd h (Nat.lt_irrefl _)⟩,
    (Probing.empty c.M _ (hash_lt c)).congr fun i _ => slot_none.2 rfl, 0, M_pos c,
    fun _ _ _ h => absurd rfl h⟩

end Verif.CompactMap

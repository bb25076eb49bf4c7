import Verif.CompactMap.Lemmas

/-!
# C11: the compact hash map is a map of counters

Specification: `Verif/CompactMap/Spec.lean`.
-/

namespace Verif.CompactMap

/-- Executing one operation. -/
def Cfg.op (c : Cfg) (data : Nat → Nat) : Op → Option ((Nat → Nat) × Bool)
  | .inc k v => c.increaseBy? data k v
  | .dec k v => c.decreaseBy? data k v

/-- Executing a history: the final array and the answers of the calls; `none` if a loop does not
terminate. -/
def Cfg.run (c : Cfg) : (Nat → Nat) → List Op → Option ((Nat → Nat) × List Bool)
  | data, [] => some (data, [])
  | data, op :: ops => do
    let (data, a) ← c.op data op
    let (data, as) ← c.run data ops
    some (data, a :: as)

/-- How many keys the map may hold: one slot must stay free unless `allow_full_map`. -/
def Cfg.room (c : Cfg) : Nat := if c.full then 2 ^ c.p else 2 ^ c.p - 1

theorem Inv.empty_or {c : Cfg} {data m : Nat → Nat} (h : Inv c data m) (hl : LiveAtMost c.room m) :
    c.full = true ∨ ∃ i, i < c.M ∧ data i = 0 := by
  cases hf : c.full with
  | true => exact Or.inl rfl
  | false =>
    refine Or.inr (h.has_empty (n := c.room) ?_ hl)
    have := M_pos c
    unfold Cfg.room
    rw [hf]
    show c.M - 1 < c.M
    omega

theorem run_ok {c : Cfg} (hb : c.b ≤ c.W) : ∀ (ops : List Op) (data m : Nat → Nat), Inv c data m →
    LiveAtMost c.room m → Valid c.b (c.W - c.b) c.room m ops →
    ∃ data', c.run data ops = some (data', answers m ops) ∧
      Inv c data' (ops.foldl Op.step m) ∧ LiveAtMost c.room (ops.foldl Op.step m)
  | [], data, m, h, hl, _ => ⟨data, rfl, h, hl⟩
  | op :: ops, data, m, h, hl, hv => by
    obtain ⟨hv1, hv2, hv3⟩ := hv
    have key : ∃ data', c.op data op = some (data', op.answer m) ∧
        Inv c data' (op.step m) := by
      cases op with
      | inc k v =>
        obtain ⟨h1, h2, h3⟩ := hv1
        refine increase_ok hb h h1 h2 h3 ?_
        by_cases hk : m k = 0
        · right
          -- before the insertion there is one key less
          obtain ⟨keys, hk1, hk2⟩ := hv2
          have hkm : k ∈ keys := hk2 k (by
            show upd m k (m k + v) k ≠ 0
            rw [upd_same]; omega)
          have hroom : c.room ≤ c.M := by
            unfold Cfg.room; show (if c.full then c.M else c.M - 1) ≤ c.M
            split <;> omega
          have hlen : 0 < keys.length := List.length_pos_of_mem hkm
          refine h.has_empty (n := c.room - 1) (by have := M_pos c; omega)
            ⟨keys.erase k, ?_, ?_⟩
          · rw [List.length_erase_of_mem hkm]; omega
          · intro k' hk'
            have hne : k' ≠ k := by rintro rfl; exact hk' hk
            refine (List.mem_erase_of_ne hne).2 (hk2 k' ?_)
            show upd m k (m k + v) k' ≠ 0
            rw [upd_ne _ _ hne]
            exact hk'
        · exact Or.inl hk
      | dec k v => exact decrease_ok hb h hv1.1 hv1.2 (h.empty_or hl)
    obtain ⟨data', e, hi⟩ := key
    obtain ⟨data'', e', hi', hl'⟩ := run_ok hb ops data' _ hi hv2 hv3
    refine ⟨data'', ?_, hi', hl'⟩
    unfold Cfg.run
    rw [e]
    simp only [Option.bind_eq_bind, Option.bind_some]
    rw [e']
    rfl

/-- C11: let the entries have `W` bits, the keys `b` bits (`0 < b`: shifting by all `W` bits is
undefined) and the table `2^p` entries.  For every history of allowed operations that never holds more
keys than there is room, all loops terminate, every call answers correctly whether it added or removed
a key, `get` returns the counter of every key (0 for keys that are not there), and `for_each` visits
the keys with a positive counter, each exactly once and with its counter; `count` is their number. -/
theorem C11_compact_map (W b p : Nat) (full : Bool) (_hb0 : 0 < b) (hb : b ≤ W) (ops : List Op)
    (hops : Valid b (W - b) (if full then 2 ^ p else 2 ^ p - 1) (fun _ => 0) ops) :
    let c : Cfg := { W, b, p, full }
    ∃ data, c.run (fun _ => 0) ops = some (data, answers (fun _ => 0) ops) ∧
      (∀ k, c.get? data k = some (counters ops k)) ∧
      ((c.forEach data).map Prod.fst).Nodup ∧
      (∀ k v, (k, v) ∈ c.forEach data ↔ 0 < v ∧ counters ops k = v) ∧
      c.count data = (c.forEach data).length := by
  intro c
  obtain ⟨data, h1, h2, h3⟩ := run_ok (c := c) hb ops (fun _ => 0) (fun _ => 0) (Inv.new c)
    ⟨[], Nat.zero_le _, fun _ h => absurd rfl h⟩ hops
  exact ⟨data, h1, fun k => get_ok hb h2 k (h2.empty_or h3), forEach_ok hb h2⟩

/-- A history with collisions and wrap-around on a table with 4 entries: 3, 7 and 11 all hash to the
last slot; erasing 3 moves the others back across the end of the array. -/
example : Valid 4 12 3 (fun _ => 0)
    [.inc 3 5, .inc 7 6, .inc 11 7, .dec 3 5, .inc 7 1, .dec 11 2] := by
  simp only [Valid]
  refine ⟨by decide, ⟨[3], by decide, ?_⟩, by decide, ⟨[3, 7], by decide, ?_⟩, by decide,
    ⟨[3, 7, 11], by decide, ?_⟩, by decide, ⟨[7, 11], by decide, ?_⟩, by decide,
    ⟨[7, 11], by decide, ?_⟩, by decide, ⟨[7, 11], by decide, ?_⟩, trivial⟩
  all_goals
    intro k
    simp only [Op.step, upd]
    grind

example :
    let c : Cfg := { W := 16, b := 4, p := 2, full := false }
    ((c.run (fun _ => 0) [.inc 3 5, .inc 7 6, .inc 11 7, .dec 3 5, .inc 7 1, .dec 11 2]).map fun r =>
      (c.forEach r.1, r.2)) =
      some ([(11, 5), (7, 7)], [true, true, true, true, false, false]) := by decide +kernel

/-- The room is needed: increasing the counter of a key that is not in a full table overwrites another
key, even with `allow_full_map`. -/
theorem C11_full_map_overwrites :
    let c : Cfg := { W := 16, b := 4, p := 1, full := true }
    ∃ data, c.run (fun _ => 0) [.inc 0 5, .inc 1 6, .inc 2 1] = some (data, [true, true, false]) ∧
      c.get? data 1 = some 0 ∧ c.get? data 2 = some 7 := by
  refine ⟨_, rfl, ?_, ?_⟩ <;> decide +kernel

end Verif.CompactMap

import Verif.DynMaps.Lemmas
import Verif.Maps.Props

/-!
# C12: the growing flat hash maps behave like maps

`content`, `Lists` and `run` are the specification of `Verif/Maps/Spec.lean` and `Verif/Maps/Props.lean`.
-/

namespace Verif.DynMaps

open Verif.Maps

/-- Operations of `DynamicFlatMap`. -/
def Flat.op (t : Table) : Op → Option Table
  | .set k v => Flat.modify? t k fun _ => v
  | .inc k d => Flat.modify? t k (· + d)
  | .clear => some (Flat.clear t)
  | _ => none

/-- Operations of `DynamicRememberingFlatMap` with a `w`-bit timestamp type. -/
def Rem.op (w : Nat) (s : Rem) : Op → Option Rem
  | .set k v => s.modify? k fun _ => v
  | .inc k d => s.modify? k (· + d)
  | .clear => some (s.clear w)
  | _ => none

/-- How often a history clears the map. -/
def clears (ops : List Op) : Nat := ops.countP (· == Op.clear)

theorem Flat.run_ok : ∀ (ops : List Op) (t : Table) (used : List Nat) (m : Content),
    Good t used → 1 ≤ t.stamp → t.stamp + clears ops < 2 ^ 64 → t.abs = m →
    (∀ op ∈ ops, op.basic = true) →
    ∃ t' used', run Flat.op t ops = some t' ∧ Good t' used' ∧
      t'.abs = ops.foldl (Content.step 0) m
  | [], t, used, m, h, _, _, hm, _ => ⟨t, used, rfl, h, hm⟩
  | op :: ops, t, used, m, h, h1, hw, hm, hb => by
    have hb1 := hb op (List.mem_cons_self ..)
    have hstep : ∃ t' used', Flat.op t op = some t' ∧ Good t' used' ∧ 1 ≤ t'.stamp ∧
        t'.stamp + clears ops < 2 ^ 64 ∧ t'.abs = Content.step 0 m op := by
      subst hm
      cases op with
      | set k v =>
        obtain ⟨t', used', a, b, c, d⟩ := Flat.modify_ok h k fun _ => v
        have hc : clears (Op.set k v :: ops) = clears ops := by simp [clears]
        rw [hc] at hw
        exact ⟨t', used', a, b, by omega, by omega, d⟩
      | inc k v =>
        obtain ⟨t', used', a, b, c, d⟩ := Flat.modify_ok h k (· + v)
        have hc : clears (Op.inc k v :: ops) = clears ops := by simp [clears]
        rw [hc] at hw
        exact ⟨t', used', a, b, by omega, by omega, d⟩
      | insert k v => simp [Op.basic] at hb1
      | remove k => simp [Op.basic] at hb1
      | clear =>
        have hc : clears (Op.clear :: ops) = clears ops + 1 := by simp [clears]
        rw [hc] at hw
        obtain ⟨a, b, c⟩ := Flat.clear_ok h (by omega)
        exact ⟨_, _, rfl, a, by omega, by omega, b⟩
    obtain ⟨t', used', a, b, c, d, e⟩ := hstep
    obtain ⟨t'', used'', a', b', c'⟩ := Flat.run_ok ops t' used' _ b c d e
      (fun o ho => hb o (List.mem_cons_of_mem _ ho))
    exact ⟨t'', used'', by simp only [run, a, Option.bind_some]; exact a', b', c'⟩

theorem Rem.run_ok (w : Nat) : ∀ (ops : List Op) (s : Rem) (m : Content),
    Good s.table s.used → 1 ≤ s.table.stamp → s.table.stamp + clears ops < 2 ^ w →
    s.table.abs = m → (∀ op ∈ ops, op.basic = true) →
    ∃ s', run (Rem.op w) s ops = some s' ∧ Good s'.table s'.used ∧
      s'.table.abs = ops.foldl (Content.step 0) m
  | [], s, m, h, _, _, hm, _ => ⟨s, rfl, h, hm⟩
  | op :: ops, s, m, h, h1, hw, hm, hb => by
    have hb1 := hb op (List.mem_cons_self ..)
    have hstep : ∃ s', Rem.op w s op = some s' ∧ Good s'.table s'.used ∧ 1 ≤ s'.table.stamp ∧
        s'.table.stamp + clears ops < 2 ^ w ∧ s'.table.abs = Content.step 0 m op := by
      subst hm
      cases op with
      | set k v =>
        obtain ⟨s', a, b, c, d⟩ := Rem.modify_ok h k fun _ => v
        have hc : clears (Op.set k v :: ops) = clears ops := by simp [clears]
        rw [hc] at hw
        exact ⟨s', a, b, by omega, by omega, d⟩
      | inc k v =>
        obtain ⟨s', a, b, c, d⟩ := Rem.modify_ok h k (· + v)
        have hc : clears (Op.inc k v :: ops) = clears ops := by simp [clears]
        rw [hc] at hw
        exact ⟨s', a, b, by omega, by omega, d⟩
      | insert k v => simp [Op.basic] at hb1
      | remove k => simp [Op.basic] at hb1
      | clear =>
        have hc : clears (Op.clear :: ops) = clears ops + 1 := by simp [clears]
        rw [hc] at hw
        obtain ⟨a, b, c⟩ := Rem.clear_ok (w := w) h (by omega)
        exact ⟨_, rfl, a, by omega, by omega, b⟩
    obtain ⟨s', a, b, c, d, e⟩ := hstep
    obtain ⟨s'', a', b', c'⟩ := Rem.run_ok w ops s' _ b c d e
      (fun o ho => hb o (List.mem_cons_of_mem _ ho))
    exact ⟨s'', by simp only [run, a, Option.bind_some]; exact a', b', c'⟩

theorem good_new : Good (Table.new 16) [] :=
  ⟨(Core.new (by omega)).1, rfl, Nat.le_refl _, Nat.zero_le _⟩

/-- C12, `DynamicFlatMap`: after every history of accesses (with any number of growth steps) and fewer
than `2^64 - 1` clears, every search terminates, membership and values are those of the history, and
the enumeration lists every key once with its value. -/
theorem C12_flat_map (ops : List Op) (hops : ∀ op ∈ ops, op.basic = true)
    (hw : clears ops + 1 < 2 ^ 64) :
    ∃ t, run Flat.op (Table.new 16) ops = some t ∧
      (∀ k, t.contains? k = some (content 0 ops k).isSome) ∧
      (∀ k, t.getIfContained? k = some (content 0 ops k)) ∧
      Lists (Flat.forEach t) (content 0 ops) ∧ t.size = (Flat.forEach t).length := by
  obtain ⟨t, used, h1, h2, h3⟩ := Flat.run_ok ops (Table.new 16) [] _ good_new (Nat.le_refl _)
    (by show 1 + _ < _; omega) (Core.new (by omega)).2 hops
  refine ⟨t, h1, ?_, ?_, ?_, ?_⟩
  · intro k
    rw [(h2.get_ok k).1, h3]; rfl
  · intro k
    rw [(h2.get_ok k).2, h3]; rfl
  · rw [content, ← h3]
    exact Flat.lists h2
  · rw [h2.size]
    have ha := Flat.lists h2
    have hb := h2.core.lists
    have hperm : (Flat.forEach t).Perm
        (used.map fun p => ((t.elems p).key, (t.elems p).value)) := by
      rw [List.perm_ext_iff_of_nodup (nodup_of_map ha.1) (nodup_of_map hb.1)]
      rintro ⟨k, v⟩
      rw [ha.2, hb.2]
    rw [hperm.length_eq, List.length_map]

/-- C12, `DynamicRememberingFlatMap` with a `w`-bit timestamp type: the same for every history with
fewer than `2^w - 1` clears. -/
theorem C12_remembering_map (w : Nat) (ops : List Op) (hops : ∀ op ∈ ops, op.basic = true)
    (hw : clears ops + 1 < 2 ^ w) :
    ∃ s entries, run (Rem.op w) Rem.new ops = some s ∧
      (∀ k, s.table.contains? k = some (content 0 ops k).isSome) ∧
      (∀ k, s.table.getIfContained? k = some (content 0 ops k)) ∧
      s.forEach = entries ∧ s.entries? = some entries ∧ Lists entries (content 0 ops) ∧
      s.table.size = entries.length := by
  obtain ⟨s, h1, h2, h3⟩ := Rem.run_ok w ops Rem.new _ good_new (Nat.le_refl _)
    (by show 1 + _ < _; omega) (Core.new (by omega)).2 hops
  refine ⟨s, s.forEach, h1, ?_, ?_, rfl, Rem.entries_eq h2, ?_, ?_⟩
  · intro k
    rw [(h2.get_ok k).1, h3]; rfl
  · intro k
    rw [(h2.get_ok k).2, h3]; rfl
  · rw [content, ← h3]
    exact h2.core.lists
  · rw [h2.size, Rem.forEach, List.length_map]

/-- A history with eight keys: the map has grown from 16 to 32 slots, is cleared and refilled. -/
example : (run (Rem.op 32) Rem.new ((List.range 8).map fun k => Op.inc (16 * k) k)).map
      (fun s => (s.table.cap, s.forEach)) =
    some (32, (List.range 8).map fun (k : Nat) => (16 * k, (k : Int))) := by decide +kernel

example : (run Flat.op (Table.new 16) (((List.range 8).map fun k => Op.inc (16 * k) k) ++
      [.clear, .set 5 1, .inc 5 1])).map (fun t => (t.cap, t.size, Flat.forEach t)) =
    some (32, 1, [(5, 2)]) := by decide +kernel

theorem Rem.run_clears (w n : Nat) : run (Rem.op w) Rem.new (List.replicate n .clear) =
    some { table := { Table.new 16 with stamp := (1 + n) % 2 ^ w }, used := [] } ∨ w = 0 := by
  rcases Nat.eq_zero_or_pos w with hw | hw
  · exact Or.inr hw
  left
  have h2 : 1 < 2 ^ w := Nat.one_lt_two_pow (by omega)
  have key : ∀ (n st : Nat), run (Rem.op w)
      { table := { Table.new 16 with stamp := st % 2 ^ w }, used := [] }
      (List.replicate n .clear) =
      some { table := { Table.new 16 with stamp := (st + n) % 2 ^ w }, used := [] } := by
    intro n
    induction n with
    | zero => intro st; rfl
    | succ n ih =>
      intro st
      rw [List.replicate_succ]
      simp only [run, Rem.op, Option.bind_some, Rem.clear, nextStamp]
      have h3 : (st % 2 ^ w + 1) % 2 ^ w = (st + 1) % 2 ^ w := by
        rw [Nat.add_mod, Nat.mod_mod, ← Nat.add_mod]
      rw [h3]
      have := ih (st + 1)
      rw [show st + 1 + n = st + (n + 1) by omega] at this
      exact this
  have := key n 1
  rwa [Nat.mod_eq_of_lt h2] at this

/-- C12, why the number of clears must be bounded: after `2^w - 1` clears of an empty map the timestamp
is 0, the value in memory never written to, so key 0 is reported as present although nothing was
inserted, and the search for key 1 does not terminate.  With `NodeID` timestamps (`w = 32`, used by the
unbuffered contraction) this is `2^32 - 1` clears of the same thread's map. -/
theorem C12_timestamp_wraps : ∃ s,
    run (Rem.op 32) Rem.new (List.replicate (2 ^ 32 - 1) .clear) = some s ∧
      s.table.contains? 0 = some true ∧ s.table.contains? 1 = none ∧
      content 0 (List.replicate (2 ^ 32 - 1) .clear) = fun _ => none := by
  rcases Rem.run_clears 32 (2 ^ 32 - 1) with h | h
  · refine ⟨_, h, ?_, ?_, ?_⟩
    · rw [show (1 + (2 ^ 32 - 1)) % 2 ^ 32 = 0 by decide]
      decide +kernel
    · rw [show (1 + (2 ^ 32 - 1)) % 2 ^ 32 = 0 by decide]
      decide +kernel
    · have : ∀ (n : Nat), content 0 (List.replicate n .clear) = fun _ => none := by
        intro n
        unfold content
        induction n with
        | zero => rfl
        | succ n ih =>
          rw [List.replicate_succ, List.foldl_cons]
          exact ih
      exact this _
  · cases h

end Verif.DynMaps

import Verif.Maps.Lemmas

/-!
# C10: sparse map, fast-reset array and fixed-size sparse map behave like maps

The specification is `Verif/Maps/Spec.lean`: `content` gives the meaning of a history of operations,
`Lists` says what a correct enumeration is.
-/

namespace Verif.Maps

/-- Executing a history; `none` if an operation violates an assertion, writes out of bounds or does
not terminate. -/
def run {σ : Type} (step : σ → Op → Option σ) : σ → List Op → Option σ
  | s, [] => some s
  | s, op :: ops => (step s op).bind fun s' => run step s' ops

/-- Operations of `SparseMap`. -/
def SparseMap.op (s : SparseMap) : Op → Option SparseMap
  | .set k v => s.modify? k fun _ => v
  | .inc k d => s.modify? k (· + d)
  | .insert k v => s.add? k v
  | .remove k => s.remove? k
  | .clear => some s.clear

/-- Operations of `FastResetArray`: there is no conditional insertion and no removal. -/
def FastResetArray.op (s : FastResetArray) : Op → Option FastResetArray
  | .set k v => s.modify? k fun _ => v
  | .inc k d => s.modify? k (· + d)
  | .clear => some s.clear
  | _ => none

/-- Operations of `FixedSizeSparseMap` with the given initial value. -/
def FixedMap.op (init : Int) (s : FixedMap) : Op → Option FixedMap
  | .set k v => s.modify? init k fun _ => v
  | .inc k d => s.modify? init k (· + d)
  | .clear => some s.clear
  | _ => none

/-- The operation is a write, an increment or a clear. -/
def Op.basic : Op → Bool
  | .set .. | .inc .. | .clear => true
  | _ => false

theorem SparseMap.run_ok (cap : Nat) : ∀ (ops : List Op) (s : SparseMap) (m : Content),
    s.Inv → s.cap = cap → s.get? = m → (∀ op ∈ ops, ∀ k, op.key? = some k → k < cap) →
    ∃ s', run SparseMap.op s ops = some s' ∧ s'.Inv ∧ s'.get? = ops.foldl (Content.step 0) m
  | [], s, m, hi, _, hm, _ => ⟨s, rfl, hi, hm⟩
  | op :: ops, s, m, hi, hc, hm, hk => by
    have h1 : ∃ s', s.op op = some s' ∧ s'.Inv ∧ s'.cap = cap ∧ s'.get? = Content.step 0 m op := by
      have hk1 := hk op (List.mem_cons_self ..)
      subst hm hc
      cases op with
      | set k v => exact modify_ok hi (hk1 k rfl) fun _ => v
      | inc k d => exact modify_ok hi (hk1 k rfl) (· + d)
      | insert k v =>
        obtain ⟨s', a, b, c, _, d⟩ := add_ok hi (hk1 k rfl) v
        exact ⟨s', a, b, c, d⟩
      | remove k => exact remove_ok hi (hk1 k rfl)
      | clear => exact ⟨_, rfl, (clear_ok s).1, rfl, (clear_ok s).2⟩
    obtain ⟨s', a, b, c, d⟩ := h1
    obtain ⟨s'', a', b', c'⟩ := run_ok cap ops s' _ b c d
      (fun o ho => hk o (List.mem_cons_of_mem _ ho))
    exact ⟨s'', by simp only [run, a, Option.bind_some]; exact a', b', c'⟩

/-- C10, sparse map: whatever the memory contained, after every history of operations on keys below
the capacity the map is defined, `contains` and `get` answer according to the history, and the
enumeration lists every key once with its current value. -/
theorem C10_sparse_map (cap : Nat) (sparse : Nat → Nat) (dense : Nat → Nat × Int) (ops : List Op)
    (hops : ∀ op ∈ ops, ∀ k, op.key? = some k → k < cap) :
    ∃ s, run SparseMap.op (SparseMap.new cap sparse dense) ops = some s ∧
      (∀ k, s.contains k = (content 0 ops k).isSome) ∧
      (∀ k, s.get? k = content 0 ops k) ∧
      Lists s.entries (content 0 ops) ∧ s.size = s.entries.length ∧ s.size ≤ cap := by
  obtain ⟨s, h1, h2, h3⟩ := SparseMap.run_ok cap ops (SparseMap.new cap sparse dense) _
    (SparseMap.clear_ok (SparseMap.new cap sparse dense)).1 rfl
    (SparseMap.clear_ok (SparseMap.new cap sparse dense)).2 hops
  refine ⟨s, h1, ?_, fun k => congrFun h3 k, ?_, by simp [SparseMap.entries], ?_⟩
  · intro k
    show _ = (ops.foldl (Content.step 0) (fun _ => none) k).isSome
    rw [← h3]
    unfold SparseMap.get?
    cases s.contains k <;> rfl
  · show Lists _ (ops.foldl (Content.step 0) (fun _ => none))
    rw [← h3]
    exact lists_dense (fun i j hi hj he => h2.inj hi hj he) fun k v => h2.get_iff k v
  · have hc : s.cap = cap := by
      have hcap : ∀ (ops : List Op) (s s' : SparseMap), run SparseMap.op s ops = some s' →
          s'.cap = s.cap := by
        intro ops
        induction ops with
        | nil => intro s s' h; cases h; rfl
        | cons op ops ih =>
          intro s s' h
          simp only [run, Option.bind_eq_some_iff] at h
          obtain ⟨t, ht, h⟩ := h
          rw [ih t s' h]
          cases op <;>
            simp only [SparseMap.op, SparseMap.modify?, SparseMap.add?, SparseMap.append?,
              SparseMap.remove?, SparseMap.clear, Option.bind_eq_bind] at ht <;>
            grind
      exact hcap ops _ s h1
    rw [← hc]
    exact h2.size_le

/-- A history with collisions of stale memory: the memory claims that key 2 sits at position 0. -/
example : (run SparseMap.op (SparseMap.new 5 (fun _ => 0) (fun _ => (2, 77)))
    [.inc 3 4, .inc 1 2, .set 4 9, .remove 3, .inc 1 1, .insert 1 100, .insert 0 6]).map
      (fun s => (s.entries, s.contains 2, s.contains 3)) =
    some ([(4, 9), (1, 3), (0, 6)], false, false) := by decide

theorem FastResetArray.run_ok (cap : Nat) : ∀ (ops : List Op) (s : FastResetArray) (m : Content),
    s.Inv m → s.cap = cap → (∀ op ∈ ops, op.basic = true ∧ ∀ k, op.key? = some k → k < cap) →
    ∃ s', run FastResetArray.op s ops = some s' ∧ s'.Inv (ops.foldl (Content.step 0) m) ∧
      s'.cap = cap
  | [], s, m, hi, hc, _ => ⟨s, rfl, hi, hc⟩
  | op :: ops, s, m, hi, hc, hk => by
    have h1 : ∃ s', s.op op = some s' ∧ s'.Inv (Content.step 0 m op) ∧ s'.cap = cap := by
      have hk1 := hk op (List.mem_cons_self ..)
      subst hc
      cases op with
      | set k v => exact modify_ok hi (hk1.2 k rfl) fun _ => v
      | inc k d => exact modify_ok hi (hk1.2 k rfl) (· + d)
      | insert k v => simp [Op.basic] at hk1
      | remove k => simp [Op.basic] at hk1
      | clear =>
        refine ⟨_, rfl, ?_, rfl⟩
        rw [clear_ok hi]
        exact ⟨fun _ => rfl, fun k => by simp [FastResetArray.new, Content.step]⟩
    obtain ⟨s', a, b, c⟩ := h1
    obtain ⟨s'', a', b'⟩ := run_ok cap ops s' _ b c
      (fun o ho => hk o (List.mem_cons_of_mem _ ho))
    exact ⟨s'', by simp only [run, a, Option.bind_some]; exact a', b'⟩

/-- C10, fast-reset array: after every history of writes, increments and clears in range, reading a
position gives the value the history describes (0 if not written since the last clear), the positions
that were accessed are enumerated with their value, and a clear leads to exactly the state of a fresh
array. -/
theorem C10_fast_reset_array (cap : Nat) (ops : List Op)
    (hops : ∀ op ∈ ops, op.basic = true ∧ ∀ k, op.key? = some k → k < cap) :
    ∃ s, run FastResetArray.op (FastResetArray.new cap) ops = some s ∧
      (∀ k, s.get k = (content 0 ops k).getD 0) ∧
      (∀ k, s.existsAt k = true ↔ (content 0 ops k).getD 0 ≠ 0) ∧
      (∀ k v, (k, v) ∈ s.entries ↔ content 0 ops k = some v) ∧
      s.clear = FastResetArray.new cap := by
  obtain ⟨s, h1, h2, h3⟩ := FastResetArray.run_ok cap ops (FastResetArray.new cap) (fun _ => none)
    ⟨fun _ => rfl, fun k => by simp [FastResetArray.new]⟩ rfl hops
  refine ⟨s, h1, h2.data, ?_, ?_, ?_⟩
  · intro k
    unfold FastResetArray.existsAt
    rw [h2.data]
    simp [content]
  · intro k v
    unfold FastResetArray.entries
    simp only [List.mem_map, Prod.mk.injEq]
    show _ ↔ ops.foldl (Content.step 0) (fun _ => none) k = some v
    constructor
    · rintro ⟨k', hk', rfl, rfl⟩
      rw [h2.used] at hk'
      rw [h2.data]
      cases hm : ops.foldl (Content.step 0) (fun _ => none) k' with
      | none => exact absurd hm hk'
      | some v => rfl
    · intro hm
      exact ⟨k, (h2.used k).2 (by rw [hm]; simp), rfl, by rw [h2.data, hm]; rfl⟩
  · rw [FastResetArray.clear_ok h2, h3]

theorem FastResetArray.nodup_step {s s' : FastResetArray} {m : Content} {op : Op} (hi : s.Inv m)
    (hz : ∀ k, m k ≠ some 0) (hu : s.used.Nodup) (h : s.op op = some s') : s'.used.Nodup := by
  have hmod : ∀ k f, s.modify? k f = some s' → s'.used.Nodup := by
    intro k f h
    unfold FastResetArray.modify? at h
    split at h
    · cases h
    · cases h
      show (if s.data k = 0 then s.used ++ [k] else s.used).Nodup
      split
      · rename_i h0
        rw [List.nodup_append]
        refine ⟨hu, by simp, ?_⟩
        intro a ha b hb hab
        simp only [List.mem_singleton] at hb
        subst hb hab
        rw [hi.used] at ha
        rw [hi.data] at h0
        cases hm : m a with
        | none => exact ha hm
        | some v => rw [hm] at h0; exact hz a (by rw [hm]; simpa using h0)
      · exact hu
  cases op with
  | set k v => exact hmod k (fun _ => v) h
  | inc k d => exact hmod k (· + d) h
  | insert k v => simp [FastResetArray.op] at h
  | remove k => simp [FastResetArray.op] at h
  | clear =>
    simp only [FastResetArray.op, Option.some.injEq] at h
    subst h
    exact List.nodup_nil

/-- C10, fast-reset array, enumeration without repetition: holds as long as no position holds the
value 0 after it has been accessed.  (Missing for the full property: positions with value 0, see
`C10_fast_reset_array_repeats`.) -/
theorem C10_fast_reset_array_entries_partial (cap : Nat) (ops : List Op)
    (hops : ∀ op ∈ ops, op.basic = true ∧ ∀ k, op.key? = some k → k < cap)
    (hz : ∀ pre, pre <+: ops → ∀ k, content 0 pre k ≠ some 0) :
    ∃ s, run FastResetArray.op (FastResetArray.new cap) ops = some s ∧
      Lists s.entries (content 0 ops) := by
  obtain ⟨s, h1, _, _, h4, _⟩ := C10_fast_reset_array cap ops hops
  refine ⟨s, h1, ?_, h4⟩
  have key : ∀ (ops : List Op) (s : FastResetArray) (m : Content), s.Inv m → s.cap = cap →
      (∀ op ∈ ops, op.basic = true ∧ ∀ k, op.key? = some k → k < cap) →
      (∀ pre, pre <+: ops → ∀ k, pre.foldl (Content.step 0) m k ≠ some 0) → s.used.Nodup →
      ∀ s', run FastResetArray.op s ops = some s' → s'.used.Nodup := by
    intro ops
    induction ops with
    | nil => intro s m _ _ _ _ hu s' h; cases h; exact hu
    | cons op ops ih =>
      intro s m hi hc hk hz hu s' h
      simp only [run, Option.bind_eq_some_iff] at h
      obtain ⟨t, ht, h⟩ := h
      obtain ⟨t', ht', hti, htc⟩ := FastResetArray.run_ok cap [op] s m hi hc
        (fun o ho => hk o (by simp at ho; subst ho; exact List.mem_cons_self ..))
      simp only [run, ht, Option.bind_some, Option.some.injEq] at ht'
      subst ht'
      refine ih t (Content.step 0 m op) hti htc (fun o ho => hk o (List.mem_cons_of_mem _ ho)) ?_
        (FastResetArray.nodup_step hi (hz [] (List.nil_prefix ..)) hu ht) s' h
      intro pre hpre k
      exact hz (op :: pre) (List.prefix_cons_inj op |>.2 hpre) k
  have hu := key ops (FastResetArray.new cap) (fun _ => none)
    ⟨fun _ => rfl, fun k => by simp [FastResetArray.new]⟩ rfl hops hz List.nodup_nil s h1
  unfold FastResetArray.entries
  rw [List.map_map]
  exact nodup_map_on hu fun a _ b _ h => h

/-- The hypotheses are met by a history with writes, increments and a clear. -/
example : (∀ op ∈ [Op.inc 3 4, .clear, .set 1 7, .inc 1 (-2)], op.basic = true ∧
      ∀ k, op.key? = some k → k < 4) ∧
    (∀ pre, pre <+: [Op.inc 3 4, .clear, .set 1 7, .inc 1 (-2)] →
      ∀ k, content 0 pre k ≠ some 0) := by
  refine ⟨by simp [Op.basic, Op.key?], ?_⟩
  refine forall_prefix_cons ?_ (forall_prefix_cons ?_ (forall_prefix_cons ?_ (forall_prefix_cons ?_
    (forall_prefix_nil ?_)))) <;> intro k <;>
    simp only [content, List.foldl, Content.step, upd] <;> grind

/-- C10, why the proviso is needed: writing 0 and then 5 to position 3 enumerates it twice. -/
theorem C10_fast_reset_array_repeats :
    (run FastResetArray.op (FastResetArray.new 8) [.set 3 0, .set 3 5]).map
      FastResetArray.entries = some [(3, 5), (3, 5)] := by decide

theorem FixedMap.run_ok (init : Int) (M : Nat) : ∀ (ops : List Op) (s : FixedMap) (m : Content),
    s.Inv → s.mapSize = M → s.abs = m → (∀ op ∈ ops, op.basic = true) →
    (∀ pre, pre <+: ops → AtMost (M - 1) (pre.foldl (Content.step init) m)) →
    ∃ s', run (FixedMap.op init) s ops = some s' ∧ s'.Inv ∧ s'.mapSize = M ∧
      s'.abs = ops.foldl (Content.step init) m
  | [], s, m, hi, hc, hm, _, _ => ⟨s, rfl, hi, hc, hm⟩
  | op :: ops, s, m, hi, hc, hm, hb, hn => by
    have hsz : s.size < s.mapSize := by
      have h0 := hn [] (List.nil_prefix ..)
      simp only [List.foldl_nil] at h0
      rw [← hm] at h0
      have := hi.size_le h0
      have := hi.pos
      omega
    have h1 : ∃ s', s.op init op = some s' ∧ s'.Inv ∧ s'.mapSize = M ∧
        s'.abs = Content.step init m op := by
      have hb1 := hb op (List.mem_cons_self ..)
      subst hm hc
      cases op with
      | set k v => exact modify_ok (init := init) hi hsz k fun _ => v
      | inc k d => exact modify_ok hi hsz k (· + d)
      | insert k v => simp [Op.basic] at hb1
      | remove k => simp [Op.basic] at hb1
      | clear => exact ⟨_, rfl, (clear_ok hi).1, rfl, (clear_ok hi).2⟩
    obtain ⟨s', a, b, c, d⟩ := h1
    obtain ⟨s'', a', b', c', d'⟩ := run_ok init M ops s' _ b c d
      (fun o ho => hb o (List.mem_cons_of_mem _ ho)) (fun pre hpre =>
        hn (op :: pre) (List.prefix_cons_inj op |>.2 hpre))
    exact ⟨s'', by simp only [run, a, Option.bind_some]; exact a', b', c', d'⟩

/-- C10, fixed-size sparse map: after every history of writes, increments and clears during which
there are always fewer keys than slots, every search terminates, `contains` and `get` answer according
to the history and the enumeration lists every key once with its value. -/
theorem C10_fixed_size_map (init : Int) (M : Nat) (hM : 0 < M) (ops : List Op)
    (hops : ∀ op ∈ ops, op.basic = true)
    (hn : ∀ pre, pre <+: ops → AtMost (M - 1) (content init pre)) :
    ∃ s, run (FixedMap.op init) (FixedMap.new M) ops = some s ∧
      (∀ k, s.contains? k = some (content init ops k).isSome) ∧
      (∀ k, s.get? k = content init ops k) ∧
      Lists s.entries (content init ops) ∧ s.size = s.entries.length := by
  obtain ⟨s, h1, h2, h3, h4⟩ := FixedMap.run_ok init M ops (FixedMap.new M) _
    (FixedMap.new_ok hM).1 rfl (FixedMap.new_ok hM).2 hops hn
  have hsz : s.size < s.mapSize := by
    have h0 := hn ops (List.prefix_refl _)
    rw [content, ← h4] at h0
    have := h2.size_le h0
    omega
  refine ⟨s, h1, ?_, ?_, ?_, by simp [FixedMap.entries]⟩
  · intro k
    rw [(FixedMap.get_ok h2 hsz k).1, h4]; rfl
  · intro k
    rw [(FixedMap.get_ok h2 hsz k).2, h4]; rfl
  · rw [content, ← h4]
    exact lists_dense h2.inj fun k v => h2.abs_iff k v

/-- The hypotheses are met by a history that puts three keys into four slots, clears and refills. -/
example : (∀ op ∈ [Op.inc 3 4, .inc 7 1, .inc 3 1, .inc 11 6, .clear, .set 7 2], op.basic = true) ∧
    (∀ pre, pre <+: [Op.inc 3 4, .inc 7 1, .inc 3 1, .inc 11 6, .clear, .set 7 2] →
      AtMost (4 - 1) (content 0 pre)) ∧
    (run (FixedMap.op 0) (FixedMap.new 4)
      [Op.inc 3 4, .inc 7 1, .inc 3 1, .inc 11 6]).map FixedMap.entries =
        some [(3, 5), (7, 1), (11, 6)] := by
  refine ⟨by simp [Op.basic], ?_, by decide +kernel⟩
  refine forall_prefix_cons ?_ (forall_prefix_cons ?_ (forall_prefix_cons ?_ (forall_prefix_cons ?_
    (forall_prefix_cons ?_ (forall_prefix_cons ?_ (forall_prefix_nil ?_)))))) <;>
    refine ⟨[3, 7, 11], Nat.le_refl _, ?_⟩ <;> intro k <;>
    simp only [content, List.foldl, Content.step, upd] <;> grind

/-- C10, why fewer keys than slots are required: looking up a fourth key in a map of four slots with
four keys does not terminate (in the code: guarded only by an assertion). -/
theorem C10_fixed_size_map_full_diverges :
    (run (FixedMap.op 0) (FixedMap.new 4) [.inc 0 1, .inc 1 1, .inc 2 1, .inc 3 1]).map
      (fun s => s.contains? 4) = some none := by decide +kernel

end Verif.Maps

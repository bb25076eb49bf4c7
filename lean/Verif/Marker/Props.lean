import Verif.Marker.Lemmas

/-!
# C13: marking and resetting

Specification: `Verif/Marker/Spec.lean`.
-/

namespace Verif.Marker

/-- The number of resets in a history. -/
def resets (ops : List Op) : Nat := ops.countP fun op => match op with | .reset => true | _ => false

/-- The history only uses the tracking variant of `set` and does not resize. -/
def Tracked (ops : List Op) : Prop :=
  ∀ op ∈ ops, match op with | .set t _ _ => t = true | .reset => True | .resize _ => False

theorem run_ok {c : Cfg} (hK : c.K < 32) (hw : c.K ≤ c.w) :
    ∀ (ops : List Op) (s : State) (mk : Marks) (j : Nat), Inv c s mk j →
      InRange c.K s.size ops → (c.w ≤ 32 ∨ 32 < c.w ∧ j + resets ops < 2 ^ (32 - c.K)) →
      ∃ s' j', c.run s ops = some s' ∧ Inv c s' (ops.foldl Op.mark mk) j' ∧
        s'.size = sizeAfter s.size ops ∧
        (Tracked ops → (∀ m, m < c.K → FirstUnmarked mk s.size m (s.first m)) →
          ∀ m, m < c.K → FirstUnmarked (ops.foldl Op.mark mk) s.size m (s'.first m))
  | [], s, mk, j, h, _, _ => ⟨s, j, rfl, h, rfl, fun _ h => h⟩
  | op :: ops, s, mk, j, h, hr, hb => by
    have key : ∃ s1 j1, c.op s op = some s1 ∧ Inv c s1 (op.mark mk) j1 ∧
        InRange c.K s1.size ops ∧
        sizeAfter s1.size ops = sizeAfter s.size (op :: ops) ∧
        (c.w ≤ 32 ∨ 32 < c.w ∧ j1 + resets ops < 2 ^ (32 - c.K)) ∧
        (Tracked [op] → (∀ m, m < c.K → FirstUnmarked mk s.size m (s.first m)) →
          s1.size = s.size ∧
          ∀ m, m < c.K → FirstUnmarked (op.mark mk) s.size m (s1.first m)) := by
      cases op with
      | set t e m =>
        obtain ⟨he, hm, hr⟩ := hr
        obtain ⟨s1, a1, a2, a3, a4, a5, a6⟩ := h.set hK hw he hm t
        refine ⟨s1, j, a1, a2, by rw [a3]; exact hr, by rw [a3]; rfl, ?_, ?_⟩
        · have : resets (Op.set t e m :: ops) = resets ops := by simp [resets]
          rw [← this]; exact hb
        · intro ht hf
          have ht : t = true := ht _ (List.mem_singleton.2 rfl)
          refine ⟨a3, fun m' hm' => ?_⟩
          rw [a6 ht]
          by_cases hmm : m' = m
          · subst hmm
            rw [upd_same, ← a3]
            obtain ⟨f1, f2, f3⟩ := hf m' hm'
            refine advance_ok hK a2 hm' _ _ (by omega) (by omega) ?_
            intro e' he'
            show upd mk e (upd (mk e) m' true) e' m' = true
            by_cases hee : e' = e
            · subst hee; rw [upd_same, upd_same]
            · rw [upd_ne _ _ hee]; exact f2 e' he'
          · rw [upd_ne _ _ hmm]
            obtain ⟨f1, f2, f3⟩ := hf m' hm'
            have hsame : ∀ e', Op.mark mk (.set t e m) e' m' = mk e' m' := by
              intro e'
              show upd mk e (upd (mk e) m true) e' m' = _
              by_cases hee : e' = e
              · subst hee; rw [upd_same, upd_ne _ _ hmm]
              · rw [upd_ne _ _ hee]
            exact ⟨f1, fun e' he' => by rw [hsame]; exact f2 e' he',
              fun hlt => by rw [hsame]; exact f3 hlt⟩
      | reset =>
        have hcount : resets (Op.reset :: ops) = resets ops + 1 := by simp [resets]
        have hfin : ∀ s1 : State, s1.size = s.size → (s1.first = fun _ => 0) →
            (Tracked [Op.reset] → (∀ m, m < c.K → FirstUnmarked mk s.size m (s.first m)) →
              s1.size = s.size ∧
              ∀ m, m < c.K → FirstUnmarked (Op.reset.mark mk) s.size m (s1.first m)) := by
          intro s1 h1 h2 _ _
          refine ⟨h1, fun m _ => ?_⟩
          rw [h2]
          exact ⟨Nat.zero_le _, fun _ h => absurd h (Nat.not_lt_zero _), fun _ => rfl⟩
        rcases hb with hb | ⟨hb1, hb2⟩
        · obtain ⟨⟨j', a1⟩, a2, a3⟩ := h.reset hw hb
          exact ⟨_, j', rfl, a1, by rw [a2]; exact hr, by rw [a2]; rfl, Or.inl hb,
            hfin _ a2 a3⟩
        · obtain ⟨a1, a2, a3⟩ := h.reset_wide hw hb1 hK (by omega)
          exact ⟨_, j + 1, rfl, a1, by rw [a2]; exact hr, by rw [a2]; rfl,
            Or.inr ⟨hb1, by omega⟩, hfin _ a2 a3⟩
      | resize cap =>
        refine ⟨_, j, rfl, h.resize cap, hr, rfl, ?_, ?_⟩
        · have : resets (Op.resize cap :: ops) = resets ops := by simp [resets]
          rw [← this]; exact hb
        · intro ht
          exact (ht _ (List.mem_singleton.2 rfl)).elim
    obtain ⟨s1, j1, k1, k2, k3, k4, k5, k6⟩ := key
    obtain ⟨s2, j2, r1, r2, r3, r4⟩ := run_ok hK hw ops s1 _ j1 k2 k3 k5
    refine ⟨s2, j2, by simp only [Cfg.run, k1, Option.bind_some]; exact r1, r2, by rw [r3, k4], ?_⟩
    intro ht hf
    have ht1 : Tracked [op] := fun o ho => ht o (by
      rw [List.mem_singleton] at ho; rw [ho]; exact List.mem_cons_self ..)
    obtain ⟨q1, q2⟩ := k6 ht1 hf
    have := r4 (fun o ho => ht o (List.mem_cons_of_mem _ ho)) (by rw [q1]; exact q2)
    rw [q1] at this
    exact this

/-- C13: a marker for `K` markers with values of at most 32 bits answers, after any history of
operations on existing elements and markers (however many resets there are, including those for which
the internal counter wraps around), exactly whether the element was marked since the last reset. -/
theorem C13_marker (K w cap : Nat) (hK : K < 32) (hw : K ≤ w) (hw32 : w ≤ 32) (ops : List Op)
    (hops : InRange K cap ops) :
    let c : Cfg := { K, w }
    ∃ s, c.run (State.new cap) ops = some s ∧ s.size = sizeAfter cap ops ∧
      ∀ e m, e < s.size → m < K → c.get s e m = marked ops e m := by
  intro c
  obtain ⟨s, j, h1, h2, h3, _⟩ := run_ok (c := c) hK hw ops (State.new cap) (fun _ _ => false) 0
    (Inv.cleared (s := State.new cap) _) hops (Or.inl hw32)
  exact ⟨s, h1, h3, fun e m he hm => h2.get hK he hm⟩

/-- C13, tracking: if every mark is set with tracking, the reported first unmarked element is the
smallest element that is not marked (the number of elements if all are). -/
theorem C13_first_unmarked (K w cap : Nat) (hK : K < 32) (hw : K ≤ w) (hw32 : w ≤ 32)
    (ops : List Op) (hops : InRange K cap ops) (ht : Tracked ops) :
    let c : Cfg := { K, w }
    ∃ s, c.run (State.new cap) ops = some s ∧
      ∀ m, m < K → FirstUnmarked (marked ops) cap m (s.first m) := by
  intro c
  obtain ⟨s, j, h1, h2, h3, h4⟩ := run_ok (c := c) hK hw ops (State.new cap) (fun _ _ => false) 0
    (Inv.cleared (s := State.new cap) _) hops (Or.inl hw32)
  exact ⟨s, h1, h4 ht fun m _ => ⟨Nat.zero_le _, fun _ h => by exact absurd h (Nat.not_lt_zero _),
    fun _ => rfl⟩⟩

/-- C13 for wider values (the default is 64 bits): only as long as there are fewer than `2^(32 - K)`
resets.  What is missing: it is false afterwards, see `C13_wide_marker_breaks`. -/
theorem C13_wide_marker_partial (K w cap : Nat) (hK : K < 32) (hw : 32 < w) (ops : List Op)
    (hops : InRange K cap ops) (hr : resets ops < 2 ^ (32 - K)) :
    let c : Cfg := { K, w }
    ∃ s, c.run (State.new cap) ops = some s ∧ s.size = sizeAfter cap ops ∧
      (∀ e m, e < s.size → m < K → c.get s e m = marked ops e m) ∧
      (Tracked ops → ∀ m, m < K → FirstUnmarked (marked ops) cap m (s.first m)) := by
  intro c
  obtain ⟨s, j, h1, h2, h3, h4⟩ := run_ok (c := c) hK (show K ≤ w by omega) ops
    (State.new cap) (fun _ _ => false) 0 (Inv.cleared (s := State.new cap) _) hops
    (Or.inr ⟨hw, by rw [Nat.zero_add]; exact hr⟩)
  exact ⟨s, h1, h3, fun e m he hm => h2.get hK he hm,
    fun ht => h4 ht fun m _ => ⟨Nat.zero_le _, fun _ h => by exact absurd h (Nat.not_lt_zero _),
    fun _ => rfl⟩⟩

example : InRange 3 4 [.set true 0 1, .set true 1 1, .reset, .set true 0 2, .resize 6, .set false 5 0] ∧
    resets [.set true 0 1, .set true 1 1, .reset, .set true 0 2] < 2 ^ (32 - 3) := by
  simp [InRange, resets]

/-- Values of 3 bits: the fourth and later resets wrap around. -/
example : (let c : Cfg := { K := 1, w := 3 }
    (c.run (State.new 4) [.set true 0 0, .reset, .set true 1 0, .reset, .reset, .set true 0 0,
      .set true 1 0]).map fun s => (s.id, (List.range 4).map (c.get s · 0), s.first 0)) =
    some (0, [true, true, false, false], 2) := by decide +kernel

/-- After `2^(32 - K)` resets of a marker with 64-bit values, marking an element has no effect: the
mask that separates the generation from the marks is computed in 32 bits. -/
theorem C13_wide_marker_breaks (K : Nat) (hK0 : 0 < K) (hK : K < 32) :
    let c : Cfg := { K, w := 64 }
    ∃ s, c.run (State.new 1) (List.replicate (2 ^ (32 - K)) .reset ++ [.set false 0 0]) = some s ∧
      marked (List.replicate (2 ^ (32 - K)) .reset ++ [.set false 0 0]) 0 0 = true ∧
      c.get s 0 0 = false := by
  intro c
  have hpow : (2 : Nat) ^ (32 - K) * 2 ^ K = 2 ^ 32 := by rw [← Nat.pow_add]; congr 1; omega
  have hp := Nat.two_pow_pos K
  have hKlt : 2 ^ K < 2 ^ 32 := Nat.pow_lt_pow_right (by omega) hK
  -- the id after some resets
  have hid : ∀ n, n ≤ 2 ^ (32 - K) → ∀ j, j + n ≤ 2 ^ (32 - K) → ∀ s : State,
      s.size = 1 → s.data 0 = 0 → s.id = j <<< K → ∀ rest,
      ∃ s', s'.size = 1 ∧ s'.data 0 = 0 ∧ s'.id = (j + n) <<< K ∧
        c.run s (List.replicate n .reset ++ rest) = c.run s' rest := by
    intro n
    induction n with
    | zero => intro _ j _ s h1 h2 h3 rest; exact ⟨s, h1, h2, h3, rfl⟩
    | succ n ih =>
      intro hn j hj s h1 h2 h3 rest
      have hle : (j + 1) * 2 ^ K ≤ 2 ^ 32 := by
        rw [← hpow]; exact Nat.mul_le_mul_right _ (by omega)
      have hidlt : s.id < 2 ^ c.w := by
        rw [h3, Nat.shiftLeft_eq]
        rw [Nat.add_mul] at hle
        show j * 2 ^ K < 2 ^ 64
        generalize j * 2 ^ K = a at *
        omega
      have hr := reset_id (c := c) (show K ≤ 64 by omega) h3 hidlt
      have hlt : (j + 1) <<< K < 2 ^ 33 := by
        rw [Nat.shiftLeft_eq]
        generalize (j + 1) * 2 ^ K = a at *
        omega
      have hmod : (j + 1) <<< c.K % 2 ^ c.w = (j + 1) <<< K :=
        Nat.mod_eq_of_lt (Nat.lt_of_lt_of_le hlt (Nat.pow_le_pow_right (by omega) (show 33 ≤ 64 by decide)))
      have hones : c.ones < 2 ^ 33 := by
        rw [c.ones_eq]
        show 2 ^ K - 1 < _
        generalize 2 ^ K = a at *
        omega
      have hreset : c.reset s = { s with id := (j + 1) <<< K, first := fun _ => 0 } := by
        unfold Cfg.reset
        simp only [hr, hmod]
        rw [if_neg]
        rw [beq_iff_eq]
        intro he
        have := Nat.or_lt_two_pow hlt hones
        rw [he] at this
        revert this
        show ¬ (2 ^ 64 - 1 < 2 ^ 33)
        decide
      obtain ⟨s', e1, e2, e3, e4⟩ := ih (by omega) (j + 1) (by omega)
        { s with id := (j + 1) <<< K, first := fun _ => 0 } h1 h2 rfl rest
      refine ⟨s', e1, e2, by rw [e3]; congr 1; omega, ?_⟩
      rw [List.replicate_succ, List.cons_append]
      show (c.op s .reset).bind _ = _
      show c.run (c.reset s) _ = _
      rw [hreset]
      exact e4
  obtain ⟨s, h1, h2, h3, h4⟩ := hid _ (Nat.le_refl _) 0 (by omega) (State.new 1) rfl rfl
    (by simp [State.new]) [.set false 0 0]
  rw [Nat.zero_add, Nat.shiftLeft_eq, hpow] at h3
  have hset : c.set? false s 0 0 = some { s with data := upd s.data 0 (2 ^ 32 + 1) } := by
    unfold Cfg.set?
    rw [if_neg (by rw [h1]; show ¬ (K ≤ 0 ∨ 1 ≤ 0); omega), h2, h3]
    simp only [Nat.zero_and]
    rfl
  refine ⟨{ s with data := upd s.data 0 (2 ^ 32 + 1) }, ?_, ?_, ?_⟩
  · rw [h4]
    show (c.op s _).bind _ = _
    show (c.set? false s 0 0).bind _ = _
    rw [hset]
    rfl
  · unfold marked
    rw [List.foldl_append]
    simp [Op.mark]
  · unfold Cfg.get
    show ((upd s.data 0 (2 ^ 32 + 1) 0 &&& c.mask) == s.id && _) = false
    rw [upd_same, h3]
    have : (2 ^ 32 + 1) &&& c.mask ≠ 2 ^ 32 := by
      intro he
      have := congrArg (·.testBit 32) he
      simp only [Nat.testBit_and, testBit_mask c hK] at this
      revert this
      simp only [Nat.lt_irrefl, decide_false, Bool.false_and, Bool.and_false]
      decide
    simp [this]

end Verif.Marker

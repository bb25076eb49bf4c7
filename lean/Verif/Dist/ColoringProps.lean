import Verif.Dist.ColoringSim

/-!
# C75: the distributed node colouring ends with a proper colouring on which all processes agree
-/

namespace Verif.Dist
open Verif Verif.Math Verif.Dist.Greedy

variable {dist : List Nat} {inp : Nat → Input} {g : Nat → DGraph} {S : Nat}

/-- The threads of all processes execute the exchange of superstep `i` in some way, and the received messages are handled in some
order. -/
def ColorSchedule.Ok (dist : List Nat) (S i : Nat) (sch : ColorSchedule) : Prop :=
  (∀ p l, (sch.shuffle p l).Perm l) ∧
  ∃ fr ub : Nat → Nat, (∀ p, p < procs dist → localRange? (localN dist p) S i = some (fr p, ub p)) ∧ Executions dist fr ub sch.exec

/-! ## One superstep -/

/-- Process `me` receives nothing in superstep `i`. -/
def QuietAt (dist : List Nat) (inp : Nat → Input) (S i me : Nat) (s : CS) : Prop :=
  ∀ p, p < procs dist → p ≠ me → ∀ u, lrFrom (localN dist p) S i ≤ u → u < lrFrom (localN dist p) S (i + 1) →
    s.2 (first dist p + u) = true → touches dist (inp p) u me = false

theorem colorExchange_ok (W : World dist inp g) (hsym : Symmetric dist inp) {i : Nat} (hi : i < S) {sch : ColorSchedule}
    (hsch : sch.Ok dist S i) {t : Nat → Colors} {s : CS}
    (H : ∀ p, p < procs dist → Holds dist g p (t p) (run (nbs dist inp) (ow dist) s (visits dist S p i))) {me : Nat} (hme : me < procs dist) :
    ∃ r : Colors × Bool, colorExchange? (procs dist) g sch t me = some r ∧ Holds dist g me r.1 (step (nbs dist inp) (ow dist) (visits dist S) s i) ∧
      (r.2 = true ↔ QuietAt dist inp S i me (step (nbs dist inp) (ow dist) (visits dist S) s i)) := by
  have Vs := W.visits (show 0 < S by omega)
  have V := W.valid me hme
  obtain ⟨hsh, fr, ub, hr, hex⟩ := hsch
  have hfu : ∀ p, p < procs dist → fr p = lrFrom (localN dist p) S i ∧ ub p = lrFrom (localN dist p) S (i + 1) := by
    intro p hp
    have := hr p hp
    rw [localRange_eq (by omega) hi] at this
    injection this with this
    injection this with h1 h2
    exact ⟨h1.symm, h2.symm⟩
  obtain ⟨calls, arr, h1, h2, h3, h4⟩ := C65_range_synchronization W hsym ((0, 0) : Nat × Nat) fr ub
    (fun p hp => by rw [(hfu p hp).2]; exact lr_le hi) sch.exec hex (fun p => (t p).active) (fun p => (t p).color) (sch.shuffle me) (hsh me)
    me hme (g me).totalN (Nat.le_refl _) (t me).color
  have hact : ∀ p, p < procs dist → ∀ u, u < localN dist p →
      (t p).active u = (step (nbs dist inp) (ow dist) (visits dist S) s i).2 (first dist p + u) := by
    intro p hp u hu
    rw [(H p hp).active u hu]
    show _ = (run (nbs dist inp) (ow dist) s (visits dist S (ow dist (first dist p + u)) i)).2 (first dist p + u)
    rw [(W.own_at hp hu).1]
  refine ⟨({ t me with color := arr }, calls.all fun c => c.2.isEmpty), ?_, ⟨?_, fun u hu => hact me hme u hu⟩, ?_⟩
  · unfold colorExchange?
    rw [h1, Option.bind_some, h3]
    rfl
  · intro l v hl
    show arr l = _
    have hstep : (step (nbs dist inp) (ow dist) (visits dist S) s i).1 v =
        (run (nbs dist inp) (ow dist) s (visits dist S (ow dist v) i)).1 v := rfl
    rcases (W.node hme hl).2 with ⟨_, h5, h6, h7⟩ | ⟨_, h5, h6, q, _, h7, h8⟩
    · rw [h4 l v me hl h7, if_neg fun h => h.1 rfl, hstep, (H me hme).color l v hl]
      rw [h6, (W.own_at hme h5).1]
    · have hq := h7.lt
      have hb := (V.owns_iff' hq).1 h7
      have hloc : v - first dist q < localN dist q := by unfold localN; omega
      have hv : first dist q + (v - first dist q) = v := by omega
      have hown : ow dist v = q := (W.ow_eq hq (W.lt_global hq hb.2)).2 hb
      have hgq := (W.represents q hq).own _ hloc
      rw [hv] at hgq
      rw [h4 l v q hl h7, (hfu q hq).1, (hfu q hq).2]
      by_cases hc : (lrFrom (localN dist q) S i ≤ v - first dist q ∧ v - first dist q < lrFrom (localN dist q) S (i + 1)) ∧
          (t q).active (v - first dist q) = true
      · rw [if_pos ⟨h8, hc⟩, (H q hq).color _ v hgq, hstep, hown]
      · rw [if_neg fun h => hc h.2, (H me hme).color l v hl]
        have e1 : (run (nbs dist inp) (ow dist) s (visits dist S me i)).1 v = s.1 v :=
          (run_other _ s fun hm => h8 (by rw [← hown]; exact Vs.owner me i v hi hm)).1
        rw [e1]
        by_contra hne
        have hfar : far (nbs dist inp) (ow dist) v = true := by
          obtain ⟨hadj, _⟩ := (W.foreign_mem hme).1 h6
          obtain ⟨u, w, hu, hn⟩ := V.adjncy_neighbour hadj
          have hO : Owns dist me (first dist me + u) := by
            rw [V.owns_iff' hme]; unfold localN at hu; omega
          have he : IsEdge dist inp (first dist me + u) v := ⟨me, w, hme, hO, by rw [Nat.add_sub_cancel_left]; exact hn⟩
          refine far_of (W.mem_nbs.2 (hsym _ _ he)) ?_
          rw [hown, (W.own_at hme hu).1]
          exact h8
        obtain ⟨h9, h10⟩ := step_far Vs hi (Ne.symm hne) hfar
        rw [hown] at h10
        unfold visits at h10
        rw [if_pos hq] at h10
        obtain ⟨u, hu, h11, h12⟩ := mem_visit.1 h10
        have hu' : v - first dist q = u := by omega
        apply hc
        rw [hu']
        refine ⟨⟨h11, h12⟩, ?_⟩
        rw [← hu', hact q hq _ hloc, hv]
        exact h9
  · show (calls.all fun c => c.2.isEmpty) = true ↔ _
    rw [List.all_eq_true]
    have e : (∀ c ∈ calls, c.2.isEmpty = true) ↔ ∀ c ∈ calls, c.2 = [] :=
      forall_congr' fun c => forall_congr' fun _ => List.isEmpty_iff
    rw [e, h2]
    constructor
    · intro h p hp hne u hu1 hu2 ha
      exact h p u hp (by rw [(hfu p hp).1]; exact hu1) (by rw [(hfu p hp).2]; exact hu2)
        (by show (t p).active u = true
            rw [hact p hp u (Nat.lt_of_lt_of_le hu2 (lr_le hi))]; exact ha) hne
    · intro h p u hp hu1 hu2 ha hne
      rw [(hfu p hp).1] at hu1
      rw [(hfu p hp).2] at hu2
      refine h p hp hne u hu1 hu2 ?_
      rw [← hact p hp u (Nat.lt_of_lt_of_le hu2 (lr_le hi))]
      exact ha

theorem colorStep_ok (W : World dist inp g) (hsym : Symmetric dist inp) {size : Nat} (hsize : ∀ a, (nbs dist inp a).length + 1 ≤ size)
    {i : Nat} (hi : i < S) {sch : Nat → ColorSchedule} (hsch : (sch i).Ok dist S i) {x : (Nat → Colors) × (Nat → Bool)} {s : CS}
    (I : Inv (nbs dist inp) (ow dist) s) (H : ∀ p, p < procs dist → Holds dist g p (x.1 p) s) :
    ∃ y, colorStep? (procs dist) g S size sch x i = some y ∧
      (∀ p, p < procs dist → Holds dist g p (y.1 p) (step (nbs dist inp) (ow dist) (visits dist S) s i)) ∧
      ∀ p, p < procs dist → (y.2 p = true ↔ x.2 p = true ∧ QuietAt dist inp S i p (step (nbs dist inp) (ow dist) (visits dist S) s i)) := by
  obtain ⟨t, h1, h2⟩ := forAll_ok (N := procs dist) (⟨fun _ => 0, fun _ => false⟩ : Colors)
    (f := fun p => colorRange? (g p) S size i (x.1 p))
    (Q := fun p c => Holds dist g p c (run (nbs dist inp) (ow dist) s (visits dist S p i))) (fun p hp => by
      obtain ⟨s', h1, h2⟩ := colorRange_ok W hp hsize hi (H p hp) I.bound
      refine ⟨s', h1, ?_⟩
      unfold visits
      rw [if_pos hp]
      exact h2)
  obtain ⟨y, h3, h4⟩ := forAll_ok (N := procs dist) ((⟨fun _ => 0, fun _ => false⟩, false) : Colors × Bool)
    (f := fun p => colorExchange? (procs dist) g (sch i) t p)
    (Q := fun p r => Holds dist g p r.1 (step (nbs dist inp) (ow dist) (visits dist S) s i) ∧
      (r.2 = true ↔ QuietAt dist inp S i p (step (nbs dist inp) (ow dist) (visits dist S) s i)))
    (fun p hp => colorExchange_ok W hsym hi hsch h2 hp)
  refine ⟨(fun p => (y p).1, fun p => x.2 p && (y p).2), ?_, fun p hp => (h4 p hp).1, fun p hp => ?_⟩
  · unfold colorStep?
    rw [h1, Option.bind_some, h3]
    rfl
  · show (x.2 p && (y p).2) = true ↔ _
    rw [Bool.and_eq_true, (h4 p hp).2]

/-! ## One pass -/

theorem colorPass_aux (W : World dist inp g) (hsym : Symmetric dist inp) {size : Nat} (hsize : ∀ a, (nbs dist inp a).length + 1 ≤ size)
    {sch : Nat → ColorSchedule} (hsch : ∀ i, i < S → (sch i).Ok dist S i) {c : Nat → Colors} {s : CS}
    (I : Inv (nbs dist inp) (ow dist) s) (H : ∀ p, p < procs dist → Holds dist g p (c p) s) : ∀ i, i ≤ S →
    ∃ y, (List.range i).foldlM (colorStep? (procs dist) g S size sch) (c, fun _ => true) = some y ∧
      (∀ p, p < procs dist → Holds dist g p (y.1 p) (pass (nbs dist inp) (ow dist) (visits dist S) i s)) ∧
      ∀ p, p < procs dist → (y.2 p = true ↔ ∀ j, j < i → QuietAt dist inp S j p (pass (nbs dist inp) (ow dist) (visits dist S) (j + 1) s))
  | 0, _ => ⟨(c, fun _ => true), rfl, H, fun p _ => ⟨fun _ j h => absurd h (Nat.not_lt_zero _), fun _ => rfl⟩⟩
  | i + 1, hi => by
    have hs : ∀ a b, b ∈ nbs dist inp a → a ∈ nbs dist inp b := fun a b h => W.mem_nbs.2 (hsym _ _ (W.mem_nbs.1 h))
    obtain ⟨y, h1, h2, h3⟩ := colorPass_aux W hsym hsize hsch I H i (by omega)
    obtain ⟨z, h4, h5, h6⟩ := colorStep_ok W hsym hsize (show i < S by omega) (hsch i (by omega))
      (I.pass hs (W.visits (by omega)) (i := i) (by omega)) h2
    refine ⟨z, ?_, fun p hp => ?_, fun p hp => ?_⟩
    · rw [List.range_succ, List.foldlM_append, h1]
      show Option.bind (some y) _ = _
      rw [Option.bind_some, List.foldlM_cons]
      show Option.bind (colorStep? (procs dist) g S size sch y i) _ = _
      rw [h4]; rfl
    · rw [pass_succ]; exact h5 p hp
    · rw [h6 p hp, h3 p hp, ← pass_succ]
      constructor
      · rintro ⟨ha, hb⟩ j hj
        by_cases hji : j = i
        · subst hji; exact hb
        · exact ha j (by omega)
      · intro h
        exact ⟨fun j hj => h j (by omega), h i (by omega)⟩

theorem quiet_iff (W : World dist inp g) (s : CS) :
    (∀ p, p < procs dist → ∀ j, j < S → QuietAt dist inp S j p (pass (nbs dist inp) (ow dist) (visits dist S) (j + 1) s)) ↔
    Quiet (nbs dist inp) (ow dist) (visits dist S) S (procs dist) s := by
  constructor
  · intro h i hi p hp a ha hf
    unfold visits at ha
    rw [if_pos hp] at ha
    obtain ⟨u, rfl, h1, h2⟩ := mem_visit.1 ha
    have hu := Nat.lt_of_lt_of_le h2 (lr_le hi)
    unfold far at hf
    rw [List.any_eq_true] at hf
    obtain ⟨v, hv, hne⟩ := hf
    rw [bne_iff_ne, (W.own_at hp hu).1] at hne
    obtain ⟨h3, h4, h5⟩ := W.ow_bounds (W.edge_lt (W.mem_nbs.1 hv)).2
    rw [← Bool.not_eq_true]
    intro hact
    have h6 := h (ow dist v) h3 i hi p hp (Ne.symm hne) u h1 h2 hact
    rw [W.nbs_own hp hu] at hv
    obtain ⟨x, hx, rfl⟩ := List.mem_map.1 hv
    unfold touches at h6
    rw [List.any_eq_false] at h6
    exact h6 x hx (by rw [decide_eq_true_iff]; exact ⟨h4, h5⟩)
  · intro h me hme j hj p hp hne u h1 h2 hact
    rw [← Bool.not_eq_true]
    intro ht
    have hu := Nat.lt_of_lt_of_le h2 (lr_le hj)
    unfold touches at ht
    rw [List.any_eq_true] at ht
    obtain ⟨x, hx, hx2⟩ := ht
    rw [decide_eq_true_iff] at hx2
    have hmem : x.1 ∈ nbs dist inp (first dist p + u) := by
      rw [W.nbs_own hp hu]; exact List.mem_map.2 ⟨x, hx, rfl⟩
    have hown := (W.ow_eq hme (W.lt_global hme hx2.2)).2 hx2
    have := h j hj p hp (first dist p + u) (by
      unfold visits; rw [if_pos hp]; exact mem_visit.2 ⟨u, rfl, h1, h2⟩) (far_of hmem (by
        rw [(W.own_at hp hu).1, hown]; exact hne))
    rw [hact] at this
    exact absurd this (by decide)

theorem colorPass_ok (W : World dist inp g) (hsym : Symmetric dist inp) {size : Nat} (hsize : ∀ a, (nbs dist inp a).length + 1 ≤ size)
    {sch : Nat → ColorSchedule} (hsch : ∀ i, i < S → (sch i).Ok dist S i) {c : Nat → Colors} {s : CS}
    (I : Inv (nbs dist inp) (ow dist) s) (H : ∀ p, p < procs dist → Holds dist g p (c p) s) :
    ∃ y, colorPass? (procs dist) g S size sch c = some y ∧
      (∀ p, p < procs dist → Holds dist g p (y.1 p) (pass (nbs dist inp) (ow dist) (visits dist S) S s)) ∧
      ((List.range (procs dist)).all y.2 = true ↔ Quiet (nbs dist inp) (ow dist) (visits dist S) S (procs dist) s) := by
  obtain ⟨y, h1, h2, h3⟩ := colorPass_aux W hsym hsize hsch I H S (Nat.le_refl _)
  refine ⟨y, h1, h2, ?_⟩
  rw [List.all_eq_true, ← quiet_iff W]
  exact ⟨fun h p hp => (h3 p hp).1 (h p (List.mem_range.2 hp)), fun h p hp => (h3 p (List.mem_range.1 hp)).2 (h p (List.mem_range.1 hp))⟩

/-! ## All passes -/

theorem passes_add (nb : Nat → List Nat) (own : Nat → Nat) (L : Nat → Nat → List Nat) (s : CS) (t : Nat) :
    passes nb own L S t (pass nb own L S s) = passes nb own L S (t + 1) s := by
  induction t with
  | zero => rfl
  | succ t ih => exact congrArg (pass nb own L S) ih

/-- The loop ends with the first pass without messages. -/
theorem colorLoop_ok (W : World dist inp g) (hsym : Symmetric dist inp) (hS : 0 < S) {size : Nat} (hsize : ∀ a, (nbs dist inp a).length + 1 ≤ size)
    {sch : Nat → Nat → ColorSchedule} (hsch : ∀ t i, i < S → (sch t i).Ok dist S i) :
    ∀ (fuel t : Nat) (c : Nat → Colors) (s : CS), Inv (nbs dist inp) (ow dist) s → (∀ p, p < procs dist → Holds dist g p (c p) s) →
    ∀ T, (∀ m, m < T → ¬ Quiet (nbs dist inp) (ow dist) (visits dist S) S (procs dist) (passes (nbs dist inp) (ow dist) (visits dist S) S m s)) →
    (fuel ≤ T → ∃ y, colorLoop? (procs dist) g S size sch fuel t c = some (y, false)) ∧
    (T < fuel → Quiet (nbs dist inp) (ow dist) (visits dist S) S (procs dist) (passes (nbs dist inp) (ow dist) (visits dist S) S T s) →
      ∃ y, colorLoop? (procs dist) g S size sch fuel t c = some (y, true) ∧
        ∀ p, p < procs dist → Holds dist g p (y p) (passes (nbs dist inp) (ow dist) (visits dist S) S (T + 1) s))
  | 0, t, c, s, I, H, T, hT => ⟨fun _ => ⟨c, rfl⟩, fun h => absurd h (Nat.not_lt_zero _)⟩
  | fuel + 1, t, c, s, I, H, T, hT => by
    have hs : ∀ a b, b ∈ nbs dist inp a → a ∈ nbs dist inp b := fun a b h => W.mem_nbs.2 (hsym _ _ (W.mem_nbs.1 h))
    have hv := W.visits hS
    obtain ⟨y, h1, h2, h3⟩ := colorPass_ok W hsym hsize (hsch t) I H
    have ih := colorLoop_ok W hsym hS hsize hsch fuel (t + 1) y.1 _ (I.pass hs hv (Nat.le_refl _)) h2
    unfold colorLoop?
    rw [h1, Option.bind_some]
    cases T with
    | zero =>
      refine ⟨fun h => by omega, fun _ hq => ?_⟩
      rw [if_pos (h3.2 hq)]
      exact ⟨y.1, rfl, h2⟩
    | succ T =>
      rw [if_neg fun h => hT 0 (by omega) (h3.1 h)]
      obtain ⟨h4, h5⟩ := ih T fun m hm => by
        rw [passes_add]; exact hT (m + 1) (by omega)
      refine ⟨fun h => h4 (by omega), fun h hq => ?_⟩
      rw [passes_add, passes_add] at h5
      exact h5 (by omega) hq

theorem holds_start (p : Nat) : Holds dist g p ⟨fun _ => 0, fun _ => true⟩ (fun _ => 0, fun _ => true) := ⟨fun _ _ _ => rfl, fun _ _ => rfl⟩

/-- **C75**: on an undirected graph without loops, the colouring ends after at most `2 n + 2` passes over the `n` nodes of the whole
graph, for every number of supersteps.  The result is a proper colouring `col` of the whole graph that gives each node one of the first
`d + 1` colours, where `d` is its number of neighbours; it does not depend on what the threads do.  Each process holds this colour for
each of its nodes and each of its ghost nodes. -/
theorem C75_node_coloring (W : World dist inp g) (hsym : Symmetric dist inp) (hirr : ∀ a, ¬ IsEdge dist inp a a) (hS : 0 < S) :
    ∃ col : Nat → Nat, (∀ a b, IsEdge dist inp a b → col a ≠ col b) ∧
      (∀ p u, p < procs dist → u < localN dist p → col (first dist p + u) ≤ ((inp p).neighbours u).length) ∧
      ∀ sch : Nat → Nat → ColorSchedule, (∀ t i, i < S → (sch t i).Ok dist S i) → ∀ fuel, 2 * globalN dist + 2 ≤ fuel →
        ∃ arr, nodeColoring? (procs dist) g S sch fuel = some (arr, true) ∧
          ∀ p l v, p < procs dist → (g p).localToGlobal? l = some v → arr p l = col v := by
  have hs : ∀ a b, b ∈ nbs dist inp a → a ∈ nbs dist inp b := fun a b h => W.mem_nbs.2 (hsym _ _ (W.mem_nbs.1 h))
  have hi : ∀ a, a ∉ nbs dist inp a := fun a h => hirr a (W.mem_nbs.1 h)
  have hv := W.visits hS
  obtain ⟨size, hsz, hsize⟩ := W.maxColors
  have I0 : Inv (nbs dist inp) (ow dist) (fun _ => 0, fun _ => true) := Inv.start
  have hfin := settled_quiet (nb := nbs dist inp) hv (passes_settle hs hi hv I0 (globalN dist) (Nat.le_refl _))
    (fun p i a hp hi' ha => W.visits_lt hp hi' ha)
  have hex : ∃ T, Quiet (nbs dist inp) (ow dist) (visits dist S) S (procs dist)
      (passes (nbs dist inp) (ow dist) (visits dist S) S T (fun _ => 0, fun _ => true)) := ⟨_, hfin⟩
  classical
  let T := Nat.find hex
  have hT1 := Nat.find_spec hex
  have hT2 : ∀ m, m < T → _ := fun m hm => Nat.find_min hex hm
  have hT3 : T ≤ 2 * globalN dist + 1 := Nat.find_min' hex hfin
  refine ⟨fun a => (passes (nbs dist inp) (ow dist) (visits dist S) S (T + 1) (fun _ => 0, fun _ => true)).1 a - 1, ?_, ?_, ?_⟩
  · intro a b hab
    obtain ⟨ha, hb⟩ := W.edge_lt hab
    have h1 := quiet_proper hs hi hv (I0.passes hs hv T) hT1 ha hb (W.mem_nbs.2 hab)
    have h2 := passes_colored hs hv I0 ha T
    have h3 := passes_colored hs hv I0 hb T
    have h4 : (passes (nbs dist inp) (ow dist) (visits dist S) S (T + 1) (fun _ => 0, fun _ => true)).1 a ≠
      (passes (nbs dist inp) (ow dist) (visits dist S) S (T + 1) (fun _ => 0, fun _ => true)).1 b := h1
    dsimp only
    omega
  · intro p u hp hu
    have h1 := (I0.passes hs hv (T + 1)).bound (first dist p + u)
    rw [W.nbs_own hp hu, List.length_map] at h1
    dsimp only
    omega
  · intro sch hsch fuel hfuel
    obtain ⟨y, h1, h2⟩ := (colorLoop_ok W hsym hS hsize hsch fuel 0 _ _ I0 (fun p _ => holds_start p) T hT2).2 (by omega) hT1
    refine ⟨fun p l => (y p).color l - 1, ?_, fun p l v hp hl => ?_⟩
    · unfold nodeColoring?
      rw [hsz, Option.bind_some, h1, Option.bind_some]
      rw [if_neg]
      dsimp only
      rw [Bool.true_and, Bool.not_eq_true', Bool.not_eq_false, List.all_eq_true]
      intro p hp
      rw [List.all_eq_true]
      intro l hl
      obtain ⟨h3, h4⟩ := W.glob_some (List.mem_range.1 hp) (List.mem_range.1 hl)
      rw [bne_iff_ne, (h2 p (List.mem_range.1 hp)).color l _ h3]
      exact passes_colored hs hv I0 h4 T
    · show (y p).color l - 1 = _
      rw [(h2 p hp).color l v hl]

/-- **C75**, loops: if a node has a loop and a neighbour on another process, the algorithm never ends. -/
theorem C75_loop_never_ends (W : World dist inp g) (hsym : Symmetric dist inp) (hS : 0 < S) (a b : Nat) (p q : Nat)
    (hloop : IsEdge dist inp a a) (hab : IsEdge dist inp a b) (ha : Owns dist p a) (hb : Owns dist q b) (hpq : p ≠ q)
    (sch : Nat → Nat → ColorSchedule) (hsch : ∀ t i, i < S → (sch t i).Ok dist S i) (fuel : Nat) :
    ∃ arr, nodeColoring? (procs dist) g S sch fuel = some (arr, false) := by
  have hs : ∀ a b, b ∈ nbs dist inp a → a ∈ nbs dist inp b := fun a b h => W.mem_nbs.2 (hsym _ _ (W.mem_nbs.1 h))
  have hv := W.visits hS
  have V := W.valid p ha.lt
  obtain ⟨size, hsz, hsize⟩ := W.maxColors
  have I0 : Inv (nbs dist inp) (ow dist) (fun _ => 0, fun _ => true) := Inv.start
  obtain ⟨ha1, hb1⟩ := W.edge_lt hab
  have hf : far (nbs dist inp) (ow dist) a = true := by
    refine far_of (W.mem_nbs.2 hab) ?_
    rw [(W.ow_eq ha.lt ha1).2 ((V.owns_iff' ha.lt).1 ha), (W.ow_eq hb.lt hb1).2 ((V.owns_iff' hb.lt).1 hb)]
    exact hpq
  have hact : ∀ m, (passes (nbs dist inp) (ow dist) (visits dist S) S m (fun _ => 0, fun _ => true)).2 a = true := by
    intro m
    induction m with
    | zero => rfl
    | succ m ih => exact loop_active hv (W.mem_nbs.2 hloop) hf ih (Nat.le_refl _)
  have hT : ∀ m, m < fuel → ¬ Quiet (nbs dist inp) (ow dist) (visits dist S) S (procs dist)
      (passes (nbs dist inp) (ow dist) (visits dist S) S m (fun _ => 0, fun _ => true)) := by
    intro m _ hq
    obtain ⟨h1, i, hi, hm⟩ := hv.all a ha1
    have h2 := hq i hi _ h1 a hm hf
    rw [loop_active hv (W.mem_nbs.2 hloop) hf (hact m) (i := i + 1) (by omega)] at h2
    exact absurd h2 (by decide)
  obtain ⟨y, h1⟩ := (colorLoop_ok W hsym hS hsize hsch fuel 0 _ _ I0 (fun p _ => holds_start p) fuel hT).1 (Nat.le_refl _)
  refine ⟨fun p l => (y p).color l - 1, ?_⟩
  unfold nodeColoring?
  rw [hsz, Option.bind_some, h1, Option.bind_some]
  rfl

/-! ## Example -/

theorem irreflexive3 : ∀ a, ¬ IsEdge dist3 inp3 a a := by
  intro a h
  rw [isEdge_iff valid3] at h
  have key : ∀ e, e ∈ edgeList dist3 inp3 → e.1 ≠ e.2 := by decide
  exact key _ h rfl

/-- A schedule with two threads on each process. -/
theorem colorSchedule3 (S : Nat) (hS : 0 < S) : ∃ sch : Nat → Nat → ColorSchedule, ∀ t i, i < S → (sch t i).Ok dist3 S i :=
  ⟨fun _ i => ⟨fun p => ⟨2, _, _⟩, fun _ => List.reverse⟩, fun _ i hi => ⟨fun _ l => List.reverse_perm l, _, _,
    fun p _ => localRange_eq hS hi, fun p _ => ⟨Nat.succ_pos 1, schedule_exists 2 _ _ (by decide), schedule_exists 2 _ _ (by decide)⟩⟩⟩

/-- The hypotheses of the theorem are met by the graph with five nodes on three processes. -/
example : ∃ (g : Nat → DGraph) (sch : Nat → Nat → ColorSchedule), World dist3 inp3 g ∧ Symmetric dist3 inp3 ∧
    (∀ a, ¬ IsEdge dist3 inp3 a a) ∧ ∀ t i, i < 2 → (sch t i).Ok dist3 2 i := by
  obtain ⟨g, W⟩ := world3
  obtain ⟨sch, h⟩ := colorSchedule3 2 (by decide)
  exact ⟨g, sch, W, symmetric3, irreflexive3, h⟩

/-- The colours on processes 0 and 2 of this cycle of five nodes, with one superstep: the nodes 0 to 4 get the colours 0, 1, 0, 2, 1
after conflicts between the nodes of different processes.  The last two nodes of process 0 are ghost nodes of 4 and 3. -/
example : (nodeColoring? 3 g3 1 (fun _ _ => ⟨ex3, fun _ => List.reverse⟩) 12).map (fun r => ((List.range 5).map (r.1 0), (List.range 4).map (r.1 2), r.2)) =
    some ([0, 1, 0, 1, 2], [2, 1, 0, 0], true) := by decide +kernel

/-- Two processes with one node each: the nodes are adjacent, and the first one has a loop. -/
example : ∃ inp g, World [0, 1, 2] inp g ∧ Symmetric [0, 1, 2] inp ∧ IsEdge [0, 1, 2] inp 0 0 ∧ IsEdge [0, 1, 2] inp 0 1 ∧
    Owns [0, 1, 2] 0 0 ∧ Owns [0, 1, 2] 1 1 := by
  let inp : Nat → Input := fun p => if p = 0 then ⟨[0, 2], [0, 1], [], []⟩ else ⟨[0, 1], [0], [], []⟩
  have hv : ∀ p, p < procs [0, 1, 2] → Valid [0, 1, 2] p (inp p)
    | 0, _ => ⟨by decide, by decide, by decide, by decide, by decide, by decide, by decide, by decide, by decide, by decide, by decide⟩
    | 1, _ => ⟨by decide, by decide, by decide, by decide, by decide, by decide, by decide, by decide, by decide, by decide, by decide⟩
  have hf : ∀ p, p < procs [0, 1, 2] → Fits [0, 1, 2] p (inp p)
    | 0, _ => ⟨by decide, by decide, fun w hw => by
        have : w ∈ ([] : List Int) ∨ w ∈ ([] : List Int) := hw
        simp at this, Or.inl rfl⟩
    | 1, _ => ⟨by decide, by decide, fun w hw => by
        have : w ∈ ([] : List Int) ∨ w ∈ ([] : List Int) := hw
        simp at this, Or.inl rfl⟩
  obtain ⟨g, hg⟩ := world_exists (by decide) hv hf
  refine ⟨inp, g, hg, fun a b => ?_, (isEdge_iff hv 0 0).2 (by decide), (isEdge_iff hv 0 1).2 (by decide), ?_, ?_⟩
  · rw [isEdge_iff hv, isEdge_iff hv]
    have key : ∀ e, e ∈ edgeList [0, 1, 2] inp → (e.2, e.1) ∈ edgeList [0, 1, 2] inp := by decide
    exact fun h => key (a, b) h
  · exact ((hv 0 (by decide)).owns_iff' (by decide)).2 (by decide)
  · exact ((hv 1 (by decide)).owns_iff' (by decide)).2 (by decide)

end Verif.Dist

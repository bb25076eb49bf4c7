import Verif.Dist.GlobalLPRun

/-!
# The weights of clusters if there is one process with one thread
-/

namespace Verif.Dist
open Verif Verif.Math

variable {dist : List Nat} {inp : Nat → Input} {g : Nat → DGraph} {C : Nat → Nat} {Wt : Nat → Int} {cfg : GCConfig}

/-- The process knows for each cluster at least its weight, and at most the limit or the weight of the cluster at the start. -/
def GCTracked (dist : List Nat) (Wt : Nat → Int) (cfg : GCConfig) (s : GCState) : Prop :=
  ∀ c, c < globalN dist → ∃ x, s.weight c = some x ∧ blockWeight dist Wt s.cluster c ≤ x ∧ x ≤ max cfg.bound (Wt c)

/-- Each process has one thread. -/
structure GCSchedule.Exact (sch : GCSchedule) : Prop where
  visits : ∀ p v, v ∈ sch.visits p → v.reads = .exact
  events : ∀ p e, e ∈ sch.events p → e.thread = 0 ∧ e.read = none ∧ (e.reload = none ∨ e.reload = some none)

theorem World.single (W : World dist inp g) (h1 : procs dist = 1) : first dist 0 = 0 ∧ localN dist 0 = globalN dist := by
  have h0 : first dist 0 = 0 := (W.valid 0 W.some_process).zero
  refine ⟨h0, ?_⟩
  unfold localN globalN
  rw [h1, h0]; rfl

theorem GCTracked.congr {s r : GCState} (T : GCTracked dist Wt cfg s) (h1 : ∀ a, a < globalN dist → r.cluster a = s.cluster a)
    (h2 : ∀ c, c < globalN dist → r.weight c = s.weight c) : GCTracked dist Wt cfg r := by
  intro c hc
  obtain ⟨x, a1, a2, a3⟩ := T c hc
  exact ⟨x, by rw [h2 c hc, a1], by rw [weight_congr h1]; exact a2, a3⟩

theorem nonneg_weight (hw : ∀ a, a < globalN dist → 0 ≤ Wt a) (P : Nat → Nat) (b : Nat) : 0 ≤ blockWeight dist Wt P b := by
  unfold blockWeight
  have : ∀ l : List Nat, (∀ a, a ∈ l → 0 ≤ Wt a) → 0 ≤ (l.map Wt).sum := by
    intro l
    induction l with
    | nil => intro _; exact Int.le_refl _
    | cons a l ih =>
      intro h
      rw [List.map_cons, List.sum_cons]
      have := ih fun x hx => h x (List.mem_cons_of_mem _ hx)
      have := h a List.mem_cons_self
      omega
  exact this _ fun a ha => hw a (List.mem_range.1 (List.mem_of_mem_filter ha))

theorem member_weight (hw : ∀ a, a < globalN dist → 0 ≤ Wt a) (P : Nat → Nat) {a : Nat} (ha : a < globalN dist) :
    Wt a ≤ blockWeight dist Wt P (P a) := by
  have h1 := weight_move (P := P) Wt ha (P a + 1) (P a)
  have h2 := nonneg_weight hw (upd P a (P a + 1)) (P a)
  rw [if_neg (show ¬ P a + 1 = P a by omega), if_pos rfl] at h1
  omega

theorem World.track_visit (W : World dist inp g) (hfit : SmallDegrees dist inp) (hW : HasWeights dist inp Wt)
    (hw : ∀ a, a < globalN dist → 0 ≤ Wt a) (h1 : procs dist = 1) {fr ub : Nat} (hub : ub ≤ localN dist 0) {v : GCVisit} (hv : v.Ok fr ub)
    (hx : v.reads = .exact) {s : GCState × Nat} (I : GCInv dist g 0 fr ub C s.1) (T : GCTracked dist Wt cfg s.1) :
    ∃ r, gcVisit? cfg (g 0) s v = some r ∧ GCInv dist g 0 fr ub C r.1 ∧ GCTracked dist Wt cfg r.1 := by
  obtain ⟨r, h2, h3, h4⟩ := W.gc_visit (cfg := cfg) hfit W.some_process hub hv I
  refine ⟨r, h2, h3, ?_⟩
  rcases h4 with rfl | ⟨_, b, wt, hb, hne, hm, hr, x, hx1, hx2⟩
  · exact T
  obtain ⟨hf, hl⟩ := W.single h1
  have hu : v.node < localN dist 0 := Nat.lt_of_lt_of_le hv.lt hub
  have hwu := hW 0 W.some_process _ hu
  rw [hf, Nat.zero_add] at hwu
  rw [hx] at hx2
  change x + (inp 0).nodeWeight v.node ≤ cfg.bound at hx2
  rw [← hwu] at hx2 hm
  have hpos := hw v.node (by omega)
  obtain ⟨xa, xb, m1, m2, m3, m4, m5⟩ := moveWeight_value (Ne.symm hne) hm
  rw [hx1] at m2
  injection m2 with m2
  subst m2
  have hmove := weight_move (dist := dist) (P := s.1.cluster) Wt (show v.node < globalN dist by omega) b
  rw [hr]
  intro c hc
  dsimp only
  have := hmove c
  by_cases e1 : c = b
  · subst e1
    obtain ⟨y, a1, a2, a3⟩ := T c hc
    rw [hx1] at a1
    injection a1 with a1
    subst a1
    rw [if_pos rfl, if_neg (Ne.symm hne)] at this
    exact ⟨_, m4, by omega, by omega⟩
  · by_cases e2 : c = s.1.cluster v.node
    · subst e2
      obtain ⟨y, a1, a2, a3⟩ := T _ hc
      rw [m1] at a1
      injection a1 with a1
      subst a1
      rw [if_neg (Ne.symm e1), if_pos rfl] at this
      exact ⟨_, m3, by omega, by omega⟩
    · obtain ⟨y, a1, a2, a3⟩ := T c hc
      rw [if_neg (Ne.symm e1), if_neg (Ne.symm e2)] at this
      exact ⟨y, by rw [m5 c e2 e1, a1], by omega, a3⟩

theorem World.track_visits (W : World dist inp g) (hfit : SmallDegrees dist inp) (hW : HasWeights dist inp Wt)
    (hw : ∀ a, a < globalN dist → 0 ≤ Wt a) (h1 : procs dist = 1) {fr ub : Nat} (hub : ub ≤ localN dist 0) :
    ∀ (vs : List GCVisit) (s : GCState × Nat), (∀ v, v ∈ vs → v.Ok fr ub ∧ v.reads = .exact) → GCInv dist g 0 fr ub C s.1 →
    GCTracked dist Wt cfg s.1 → ∃ r, vs.foldlM (gcVisit? cfg (g 0)) s = some r ∧ GCInv dist g 0 fr ub C r.1 ∧ GCTracked dist Wt cfg r.1
  | [], s, _, I, T => ⟨s, rfl, I, T⟩
  | v :: vs, s, hv, I, T => by
    obtain ⟨r1, h2, h3, h4⟩ := W.track_visit hfit hW hw h1 hub (hv v List.mem_cons_self).1 (hv v List.mem_cons_self).2 I T
    obtain ⟨r, h5, h6⟩ := W.track_visits hfit hW hw h1 hub vs r1 (fun x hx => hv x (List.mem_cons_of_mem _ hx)) h3 h4
    exact ⟨r, by rw [List.foldlM_cons, h2]; exact h5, h6⟩

theorem World.no_keys (W : World dist inp g) (h1 : procs dist = 1) {fr ub : Nat} (hub : ub ≤ localN dist 0) {s : GCState}
    (I : GCInv dist g 0 fr ub C s) : gcKeys (g 0) fr ub s = [] := by
  rw [List.eq_nil_iff_forall_not_mem]
  intro c hc
  have h2 := (mem_gcKeys hc).1
  have h3 := (I.keys W W.some_process hub hc).1
  rw [W.isOwned W.some_process c] at h2
  injection h2 with h2
  have := of_decide_eq_false h2
  unfold globalN at h3
  rw [h1] at h3
  have hf := (W.single h1).1
  rw [hf] at this
  exact this ⟨Nat.zero_le _, h3⟩

theorem World.track_control (W : World dist inp g) (h1 : procs dist = 1) {fr ub : Nat → Nat} (hub : ub 0 ≤ localN dist 0)
    {room : Nat → Nat → Option Int} {s : Nat → GCState} (I : GCInv dist g 0 (fr 0) (ub 0) C (s 0)) (T : GCTracked dist Wt cfg (s 0)) {r : GCState}
    (h : gcControl? (procs dist) cfg g fr ub room s 0 = some r) : GCTracked dist Wt cfg r := by
  unfold gcControl? at h
  have hk := W.no_keys h1 hub I
  rw [hk, List.mapM_nil] at h
  change (if (cfg.enforce && [].any _) = true then _ else some _) = some r at h
  rw [List.any_nil, Bool.and_false, if_neg (by decide)] at h
  injection h with h
  subst h
  refine T.congr (fun _ _ => rfl) fun c _ => ?_
  show gcTotal (procs dist) g fr ub s 0 c = _
  unfold gcTotal
  rw [h1]
  split
  · have : (List.range 1) = [0] := rfl
    rw [this, List.map_singleton, hk, if_neg List.not_mem_nil, List.sum_singleton]
    simp
  · rfl

theorem World.track_sync (W : World dist inp g) (h1 : procs dist = 1) {fr ub : Nat → Nat} (hub : ∀ p, p < procs dist → ub p ≤ localN dist p)
    {sch : SyncSchedule} (hsch : sch.Ok dist fr ub) {s : Nat → GCState} (T : GCTracked dist Wt cfg (s 0)) {keys : Nat → List Nat} {r : GCState}
    (h : gcSync? (procs dist) cfg g fr ub keys sch s 0 = some r) : GCTracked dist Wt cfg r := by
  obtain ⟨calls, h2, h3⟩ := W.mapped_calls ((0, 0) : Nat × Nat) (node := fun _ u => u)
    (fun q hq i _ h => Nat.lt_of_lt_of_le h (hub q hq)) (fun p i => ((s p).changed i).isSome) (fun p u => (s p).cluster u) hsch.exec W.some_process
  have hno : ∀ p msgs, (p, msgs) ∈ calls → sch.shuffle 0 msgs = [] := by
    intro p msgs hc
    rw [List.eq_nil_iff_forall_not_mem]
    rintro ⟨u, y⟩ hm
    obtain ⟨hp, _, _, hne, _⟩ := (h3 p u y).1 ⟨msgs, hc, (hsch.shuffle 0 msgs).mem_iff.1 hm⟩
    omega
  unfold gcSync? at h
  obtain ⟨calls', h4, h⟩ := Option.bind_eq_some_iff.1 h
  have h5 : some calls = some calls' := h2.symm.trans h4
  injection h5 with h5
  subst h5
  obtain ⟨arr, h6, h⟩ := Option.map_eq_some_iff.1 h
  subst h
  refine T.congr (fun a _ => ?_) fun c _ => ?_
  · rcases receive_values h6 a with h7 | ⟨p, msgs, m, h7, h8, _⟩
    · exact h7
    · rw [hno p msgs h7] at h8
      exact absurd h8 List.not_mem_nil
  · have : (calls.flatMap fun c => (sch.shuffle 0 c.2).map fun m => (c.1, m)) = [] := by
      rw [List.eq_nil_iff_forall_not_mem]
      intro x hx
      obtain ⟨⟨p, msgs⟩, hc, hx⟩ := List.mem_flatMap.1 hx
      dsimp only at hx
      rw [hno p msgs hc] at hx
      exact absurd hx List.not_mem_nil
    dsimp only
    rw [this]
    rfl

/-- The state while isolated nodes are merged by one thread. -/
structure TrackMerge (dist : List Nat) (g : Nat → DGraph) (Wt : Nat → Int) (cfg : GCConfig) (s : GCState × (Nat → MergeCursor)) : Prop
    extends MergeInv dist g 0 s where
  tracked : GCTracked dist Wt cfg s.1
  exact : ∀ u c y, s.2 0 = some (u, c, y) → s.1.weight c = some y

theorem World.track_merge_step (W : World dist inp g) (h1 : procs dist = 1) (hw : ∀ a, a < globalN dist → 0 ≤ Wt a) {e : MergeEvent}
    (he : e.node < localN dist 0) (hx : e.thread = 0 ∧ e.read = none ∧ (e.reload = none ∨ e.reload = some none))
    {s r : GCState × (Nat → MergeCursor)} (M : TrackMerge dist g Wt cfg s) (h : mergeStep? cfg (g 0) s e = some r) :
    TrackMerge dist g Wt cfg r := by
  obtain ⟨r', k1, k2, _⟩ := W.merge_step (cfg := cfg) W.some_process M.toMergeInv he
  rw [h] at k1
  injection k1 with k1
  subst k1
  refine ⟨k2, ?_, ?_⟩ <;> clear k2
  all_goals
    unfold mergeStep? at h
    obtain ⟨adj, _, h⟩ := Option.bind_eq_some_iff.1 h
    obtain ⟨cur, hc, h⟩ := Option.bind_eq_some_iff.1 h
    have hcur : ∀ u c y, cur = some (u, c, y) → s.1.weight c = some y := by
      intro u c y hcy
      rw [hx.1] at hc
      have := M.exact
      cases hs : s.2 0 with
      | none =>
        rw [hs] at hc
        have : some none = some cur := by
          rcases hx.2.2 with hr | hr <;> rw [hr] at hc <;> exact hc
        injection this with this
        rw [← this] at hcy
        cases hcy
      | some z =>
        obtain ⟨u', c', y'⟩ := z
        rw [hs] at hc
        rcases hx.2.2 with hr | hr
        · rw [hr] at hc
          have hc : some (some (u', c', y')) = some cur := hc
          injection hc with hc
          rw [← hc] at hcy
          injection hcy with hcy
          injection hcy with e1 e2
          injection e2 with e2 e3
          rw [← e2, ← e3]
          exact this u' c' y' hs
        · rw [hr] at hc
          have hc : (s.1.weight (s.1.cluster u')).map (fun x => some (u', s.1.cluster u', (none : Option Int).getD x)) = some cur := hc
          obtain ⟨x, hx', hc⟩ := Option.map_eq_some_iff.1 hc
          rw [← hc] at hcy
          injection hcy with hcy
          injection hcy with e1 e2
          injection e2 with e2 e3
          rw [← e2, ← e3]
          exact hx'
    by_cases ha : adj = []
    · rw [if_pos ha] at h
      obtain ⟨x, hx', h⟩ := Option.map_eq_some_iff.1 h
      rw [hx.1, hx.2.1] at h
      subst h
      cases hcc : cur with
      | none =>
        first
        | exact M.tracked
        | intro u c y hy
          dsimp only at hy ⊢
          rw [upd_same] at hy
          injection hy with hy
          injection hy with e1 e2
          injection e2 with e2 e3
          rw [← e2, ← e3]
          exact hx'
      | some z =>
        obtain ⟨u, c, y⟩ := z
        have hcw := hcur u c y hcc
        dsimp only
        by_cases hfits : y + x ≤ cfg.bound
        · rw [if_pos (show y + (none : Option Int).getD x ≤ cfg.bound from hfits)]
          first
          | intro b hb
            dsimp only
            have hmove := weight_move (dist := dist) (P := s.1.cluster) Wt (show e.node < globalN dist by rw [← (W.single h1).2]; exact he) c b
            have hmem := member_weight (dist := dist) hw s.1.cluster (show e.node < globalN dist by rw [← (W.single h1).2]; exact he)
            have hpos := hw e.node (by rw [← (W.single h1).2]; exact he)
            obtain ⟨z, a1, a2, a3⟩ := M.tracked (s.1.cluster e.node) (M.known _ _ ((W.represents 0 W.some_process).own e.node he)).1
            rw [hx'] at a1
            injection a1 with a1
            subst a1
            obtain ⟨t, b1, b2, b3⟩ := M.tracked b hb
            unfold changeWeight
            by_cases eb : b = c
            · subst eb
              rw [hcw] at b1
              injection b1 with b1
              subst b1
              rw [if_pos rfl] at hmove
              refine ⟨y + x, by rw [upd_same, hcw]; rfl, ?_, by omega⟩
              split at hmove <;> omega
            · rw [if_neg (Ne.symm eb)] at hmove
              refine ⟨t, by rw [upd_ne _ _ eb, b1], ?_, b3⟩
              split at hmove <;> omega
          | intro u' c' y' hy
            dsimp only at hy ⊢
            rw [upd_same] at hy
            injection hy with hy
            injection hy with e1 e2
            injection e2 with e2 e3
            rw [← e2, ← e3]
            unfold changeWeight
            rw [upd_same, hcw]
            rfl
        · rw [if_neg (show ¬ y + (none : Option Int).getD x ≤ cfg.bound from hfits)]
          first
          | exact M.tracked
          | intro u c y hy
            dsimp only at hy ⊢
            rw [upd_same] at hy
            injection hy with hy
            injection hy with e1 e2
            injection e2 with e2 e3
            rw [← e2, ← e3]
            exact hx'
    · rw [if_neg ha] at h
      injection h with h
      subst h
      first
      | exact M.tracked
      | intro u c y hy
        dsimp only at hy ⊢
        rw [hx.1, upd_same] at hy
        exact hcur u c y hy

theorem World.track_merge_steps (W : World dist inp g) (h1 : procs dist = 1) (hw : ∀ a, a < globalN dist → 0 ≤ Wt a) :
    ∀ {es : List MergeEvent}, (∀ e, e ∈ es → e.node < localN dist 0 ∧ e.thread = 0 ∧ e.read = none ∧ (e.reload = none ∨ e.reload = some none)) →
    ∀ {s r : GCState × (Nat → MergeCursor)}, TrackMerge dist g Wt cfg s → es.foldlM (mergeStep? cfg (g 0)) s = some r → TrackMerge dist g Wt cfg r
  | [], _, s, r, M, h => by
    have h : some s = some r := h
    injection h with h
    rw [← h]; exact M
  | e :: es, he, s, r, M, h => by
    rw [List.foldlM_cons] at h
    obtain ⟨r1, h2, h3⟩ := Option.bind_eq_some_iff.1 h
    exact W.track_merge_steps h1 hw (fun x hx => he x (List.mem_cons_of_mem _ hx))
      (W.track_merge_step h1 hw (he e List.mem_cons_self).1 (he e List.mem_cons_self).2 M h2) h3

theorem World.track_merge (W : World dist inp g) (h1 : procs dist = 1) (hw : ∀ a, a < globalN dist → 0 ≤ Wt a) {es : List MergeEvent}
    (he : ∀ e, e ∈ es → e.node < localN dist 0 ∧ e.thread = 0 ∧ e.read = none ∧ (e.reload = none ∨ e.reload = some none)) {s r : GCState}
    (K : GCKnown dist g 0 s) (T : GCTracked dist Wt cfg s) (h : gcMerge? cfg (g 0) es s = some r) : GCTracked dist Wt cfg r := by
  unfold gcMerge? at h
  obtain ⟨r', h2, h3⟩ := Option.map_eq_some_iff.1 h
  rw [← h3]
  exact (W.track_merge_steps h1 hw he (s := (s, fun _ => none)) ⟨⟨K, fun _ _ _ _ h => by cases h⟩, T, fun _ _ _ h => by cases h⟩ h2).tracked

theorem World.track_start (W : World dist inp g) (hW : HasWeights dist inp Wt) (h1 : procs dist = 1) : GCTracked dist Wt cfg (gcStart (g 0)) := by
  obtain ⟨hf, hl⟩ := W.single h1
  have hcl : ∀ a, a < globalN dist → (gcStart (g 0)).cluster a = a := by
    intro a ha
    show ((g 0).localToGlobal? a).getD 0 = a
    rw [(W.represents 0 W.some_process).own a (by omega), hf, Nat.zero_add]; rfl
  intro c hc
  have hown := (W.represents 0 W.some_process).own c (by omega)
  rw [hf, Nat.zero_add] at hown
  have hwc := hW 0 W.some_process c (by omega)
  rw [hf, Nat.zero_add] at hwc
  refine ⟨Wt c, ?_, ?_, Int.le_max_right ..⟩
  · show ((g 0).globalToLocal? c).bind (g 0).nodeWeight? = _
    rw [(W.node W.some_process hown).1, Option.bind_some, (W.represents 0 W.some_process).node_weight c (by omega), hwc]
  · rw [weight_congr hcl]
    unfold blockWeight
    rw [sum_filter_map]
    have : (List.range (globalN dist)).map (fun x => if decide (x = c) = true then Wt x else 0) =
        (List.range (globalN dist)).map fun x => if x = c then Wt c else 0 := by
      apply List.map_congr_left
      intro x _
      by_cases e : x = c
      · subst e; simp
      · simp [e]
    rw [this, sum_single, if_pos hc]

theorem forAll_first {β : Type} {N : Nat} {d : β} {f : Nat → Option β} {r : Nat → β} (hN : 0 < N) (h : forAll? N d f = some r) : f 0 = some (r 0) := by
  unfold forAll? at h
  obtain ⟨l, h1, h2⟩ := Option.map_eq_some_iff.1 h
  obtain ⟨n, rfl⟩ : ∃ n, N = n + 1 := ⟨N - 1, by omega⟩
  rw [List.range_succ_eq_map, List.mapM_cons] at h1
  obtain ⟨x, h3, h1⟩ := Option.bind_eq_some_iff.1 h1
  obtain ⟨xs, h4, h1⟩ := Option.bind_eq_some_iff.1 h1
  have h1 : some (x :: xs) = some l := h1
  injection h1 with h1
  subst h1
  rw [h3, ← h2]
  rfl

theorem LPInput.track_chunk (I : LPInput dist inp g Wt) (h1 : procs dist = 1) {c : Nat} (hc : c < cfg.chunks) {sch : GCSchedule}
    (hsch : sch.Ok dist cfg c) (hx : sch.Exact) {s s' : Nat → GCState} {n : Nat} (hI : ∀ p, p < procs dist → GCInv dist g p 0 0 C (s p))
    (T : GCTracked dist Wt cfg (s 0)) (h : gcChunk? (procs dist) cfg g sch c s = some (n, s')) : GCTracked dist Wt cfg (s' 0) := by
  have W := I.world
  have hp := W.some_process
  obtain ⟨fr, ub, hr, hv, hsync⟩ := hsch.ok
  have hub : ∀ p, p < procs dist → ub p ≤ localN dist p := by
    intro p hp
    exact (Math.Props.C01_ranges_fair _ _ _ _ _ hc (hr p hp)).2.1
  unfold gcChunk? at h
  obtain ⟨range, h2, h⟩ := Option.bind_eq_some_iff.1 h
  obtain ⟨t, h3, h⟩ := Option.bind_eq_some_iff.1 h
  dsimp only at h
  obtain ⟨a, h4, h⟩ := Option.bind_eq_some_iff.1 h
  obtain ⟨b, h5, h⟩ := Option.bind_eq_some_iff.1 h
  obtain ⟨r, h6, h⟩ := Option.map_eq_some_iff.1 h
  injection h with h7 h
  subst h
  have hrange : range 0 = (fr 0, ub 0) := by
    have := forAll_first hp h2
    rw [(W.represents 0 hp).n_eq, hr 0 hp] at this
    injection this with this
    exact this.symm
  obtain ⟨t', k1, k2, k3⟩ := W.track_visits (cfg := cfg) I.fits I.weights I.nonneg h1 (hub 0 hp) (sch.visits 0) (s 0, 0)
    (fun v hv' => ⟨hv 0 hp v hv', hx.visits 0 v hv'⟩) ((hI 0 hp).start.2 _ _) T
  have ht : t' = t 0 := by
    have := forAll_first hp h3
    rw [k1] at this
    injection this
  subst ht
  have I1 : GCInv dist g 0 (range 0).1 (range 0).2 C (t 0).1 := by rw [hrange]; exact k2
  have hub1 : (range 0).2 ≤ localN dist 0 := by rw [hrange]; exact hub 0 hp
  have Ka : GCTracked dist Wt cfg (a 0) ∧ GCInv dist g 0 (range 0).1 (range 0).2 C (a 0) := by
    split at h4
    · have h8 := forAll_first hp h4
      refine ⟨W.track_control h1 (fr := fun p => (range p).1) (ub := fun p => (range p).2) hub1 I1 k3 h8, ?_⟩
      obtain ⟨r', m1, m2, _⟩ := W.gc_control (cfg := cfg) (fr := fun p => (range p).1) (ub := fun p => (range p).2)
        (fun p hp' => by have : p = 0 := by omega
                         rw [this]; exact hub1) sch.room (s := fun p => (t p).1)
        (fun p hp' => by have : p = 0 := by omega
                         rw [this]; exact I1) hp
      rw [h8] at m1
      injection m1 with m1
      rw [m1]; exact m2
    · injection h4 with h4
      rw [← h4]; exact ⟨k3, I1⟩
  have Kb : GCTracked dist Wt cfg (b 0) ∧ GCKnown dist g 0 (b 0) := by
    split at h5
    · have h8 := forAll_first hp h5
      have hubs : ∀ p, p < procs dist → (range p).2 ≤ localN dist p := fun p hp' => by
        have : p = 0 := by omega
        rw [this]; exact hub1
      have hex : sch.sync.Ok dist (fun p => (range p).1) (fun p => (range p).2) := by
        refine ⟨fun p hp' => ?_, hsync.shuffle⟩
        have : p = 0 := by omega
        subst this
        have := hsync.exec 0 hp
        rw [hrange]
        exact this
      refine ⟨W.track_sync h1 hubs hex Ka.1 h8, ?_⟩
      obtain ⟨r', m1, m2⟩ := W.gc_sync (cfg := cfg) I.symmetric hubs hex (s := a) (C := C)
        (keys := fun p => gcKeys (g p) (range p).1 (range p).2 (t p).1)
        (fun p hp' => by have : p = 0 := by omega
                         rw [this]; exact Ka.2)
        (fun p hp' c hc => by
          have : p = 0 := by omega
          subst this
          rw [W.no_keys h1 hub1 I1] at hc
          exact absurd hc List.not_mem_nil) hp
      rw [h8] at m1
      injection m1 with m1
      rw [m1]; exact m2.toGCKnown
    · injection h5 with h5
      rw [← h5]; exact ⟨Ka.1, Ka.2.toGCKnown⟩
  split at h6
  · exact W.track_merge h1 I.nonneg (fun e he => ⟨hsch.events 0 hp e he, hx.events 0 e he⟩) Kb.2 Kb.1 (forAll_first hp h6)
  · injection h6 with h6
    rw [← h6]; exact Kb.1

theorem LPInput.track_chunks (I : LPInput dist inp g Wt) (h1 : procs dist = 1) {sch : Nat → GCSchedule}
    (hsch : ∀ c, c < cfg.chunks → (sch c).Ok dist cfg c) (hx : ∀ c, c < cfg.chunks → (sch c).Exact) :
    ∀ (m c n : Nat) (C : Nat → Nat) (s : Nat → GCState), c + m ≤ cfg.chunks → (∀ p, p < procs dist → GCInv dist g p 0 0 C (s p)) →
    GCTracked dist Wt cfg (s 0) → ∃ n' s' C', gcChunks? (procs dist) cfg g sch m c (n, s) = some (n', s') ∧
      (∀ p, p < procs dist → GCInv dist g p 0 0 C' (s' p)) ∧ GCTracked dist Wt cfg (s' 0)
  | 0, c, n, C, s, _, hI, T => ⟨n, s, C, rfl, hI, T⟩
  | m + 1, c, n, C, s, hc, hI, T => by
    obtain ⟨n1, s1, C1, h2, h3⟩ := I.world.gc_chunk I.symmetric I.fits (by omega) (hsch c (by omega)) hI
    obtain ⟨n', s', C', h4, h5⟩ := I.track_chunks h1 hsch hx m (c + 1) (n + n1) C1 s1 (by omega) h3
      (I.track_chunk h1 (by omega) (hsch c (by omega)) (hx c (by omega)) hI T h2)
    refine ⟨n', s', C', ?_, h5⟩
    unfold gcChunks?
    dsimp only
    rw [h2, Option.bind_some]
    exact h4

theorem LPInput.track_iterations (I : LPInput dist inp g Wt) (h1 : procs dist = 1) {sch : Nat → Nat → GCSchedule}
    (hsch : ∀ t c, c < cfg.chunks → (sch t c).Ok dist cfg c) (hx : ∀ t c, c < cfg.chunks → (sch t c).Exact) :
    ∀ (m t : Nat) (C : Nat → Nat) (s : Nat → GCState), (∀ p, p < procs dist → GCInv dist g p 0 0 C (s p)) → GCTracked dist Wt cfg (s 0) →
    ∃ s' C', gcIterations? (procs dist) cfg g sch m t s = some s' ∧ (∀ p, p < procs dist → GCInv dist g p 0 0 C' (s' p)) ∧
      GCTracked dist Wt cfg (s' 0)
  | 0, t, C, s, hI, T => ⟨s, C, rfl, hI, T⟩
  | m + 1, t, C, s, hI, T => by
    obtain ⟨n1, s1, C1, h2, h3, h4⟩ := I.track_chunks h1 (hsch t) (hx t) cfg.chunks 0 0 C s (by omega) hI T
    unfold gcIterations?
    rw [h2, Option.bind_some]
    by_cases hn : n1 = 0
    · rw [if_pos hn]
      exact ⟨s1, C1, rfl, h3, h4⟩
    · rw [if_neg hn]
      exact I.track_iterations h1 hsch hx m (t + 1) C1 s1 h3 h4

theorem narrow_le {x : Int} (h : 0 ≤ x) : narrow x ≤ x := by
  unfold narrow
  rw [Int.bmod_def]
  split <;> omega

end Verif.Dist

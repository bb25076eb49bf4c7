import Verif.Dist.GlobalLP
import Verif.Dist.BatchedLPLocal

/-!
# What one process does in the distributed label propagation clustering
-/

namespace Verif.Dist
open Verif

variable {dist : List Nat} {inp : Nat → Input} {g : Nat → DGraph} {C : Nat → Nat} {Wt : Nat → Int} {cfg : GCConfig}

/-- A visit of a node of the chunk. -/
structure GCVisit.Ok (fr ub : Nat) (v : GCVisit) : Prop where
  ge : fr ≤ v.node
  lt : v.node < ub
  order : ∀ l, (v.order l).Perm l

/-- Process `p` knows the weights of the clusters of its nodes and ghost nodes, and of the clusters that it owns. -/
structure GCKnown (dist : List Nat) (g : Nat → DGraph) (p : Nat) (s : GCState) : Prop where
  known : ∀ l a, (g p).localToGlobal? l = some a → s.cluster l < globalN dist ∧ (s.weight (s.cluster l)).isSome = true
  owned : ∀ u, u < localN dist p → (s.weight (first dist p + u)).isSome = true

/-- The state of process `p` while it handles the nodes `fr, …, ub - 1`: the clusters of unchanged nodes are those of `C`. -/
structure GCInv (dist : List Nat) (g : Nat → DGraph) (p fr ub : Nat) (C : Nat → Nat) (s : GCState) : Prop extends GCKnown dist g p s where
  changed : ∀ u o, s.changed u = some o → fr ≤ u ∧ u < ub ∧ o < globalN dist ∧ (s.weight o).isSome = true
  same : ∀ l a, (g p).localToGlobal? l = some a → (l < localN dist p → s.changed l = none) → s.cluster l = C a

theorem moveWeight_ok {wt : Nat → Option Int} {a b : Nat} (w : Int) (ha : (wt a).isSome = true) (hb : (wt b).isSome = true) :
    ∃ wt', moveWeight? wt a b w = some wt' ∧ ∀ c, (wt c).isSome = true → (wt' c).isSome = true := by
  obtain ⟨x, hx⟩ := Option.isSome_iff_exists.1 ha
  unfold moveWeight?
  rw [hx, Option.bind_some]
  have h1 : (upd wt a (some (x - w)) b).isSome = true := by
    by_cases h : b = a
    · subst h; rw [upd_same]; rfl
    · rw [upd_ne _ _ h]; exact hb
  obtain ⟨y, hy⟩ := Option.isSome_iff_exists.1 h1
  rw [hy, Option.map_some]
  refine ⟨_, rfl, fun c hc => ?_⟩
  by_cases h : c = b
  · subst h; rw [upd_same]; rfl
  · rw [upd_ne _ _ h]
    by_cases h' : c = a
    · subst h'; rw [upd_same]; rfl
    · rw [upd_ne _ _ h']; exact hc

theorem moveWeight_value {wt wt' : Nat → Option Int} {a b : Nat} {w : Int} (hab : a ≠ b) (h : moveWeight? wt a b w = some wt') :
    ∃ x y, wt a = some x ∧ wt b = some y ∧ wt' a = some (x - w) ∧ wt' b = some (y + w) ∧ ∀ c, c ≠ a → c ≠ b → wt' c = wt c := by
  unfold moveWeight? at h
  obtain ⟨x, hx, h⟩ := Option.bind_eq_some_iff.1 h
  obtain ⟨y, hy, h⟩ := Option.map_eq_some_iff.1 h
  rw [upd_ne _ _ (Ne.symm hab)] at hy
  subst h
  refine ⟨x, y, hx, hy, ?_, upd_same .., fun c h1 h2 => ?_⟩
  · rw [upd_ne _ _ hab, upd_same]
  · rw [upd_ne _ _ h2, upd_ne _ _ h1]

theorem rating_keep (adj : List (Nat × Int)) (keep : Nat → Bool) (view : Nat → Nat) (b : Nat) :
    rating? (adj.filter fun x => keep x.1) view b = rating? adj (fun l => if keep l then view l else b + 1) b := by
  unfold rating?
  rw [List.filter_filter]
  congr 2
  apply List.filter_congr
  intro x _
  cases h : keep x.1 with
  | true => simp [h]
  | false =>
    simp only [h, Bool.and_false, Bool.false_eq_true, if_false]
    exact (decide_eq_false (by omega)).symm

theorem gc_pick_fold {bound : Int} {own : Nat} {w : Int} {coin : Nat → Bool} : ∀ (es : List (Nat × Int × Int)) (s : Int × Nat),
    es.foldl (gcPick bound own w coin) s = s ∨ ∃ e, e ∈ es ∧ (es.foldl (gcPick bound own w coin) s).2 = e.1 ∧ (e.2.2 + w ≤ bound ∨ e.1 = own)
  | [], s => Or.inl rfl
  | e :: es, s => by
    rw [List.foldl_cons]
    rcases gc_pick_fold (bound := bound) (own := own) (w := w) (coin := coin) es (gcPick bound own w coin s e) with h | ⟨e', h1, h2⟩
    · rw [h]
      unfold gcPick
      by_cases hc : (e.2.1 > s.1 ∨ (e.2.1 = s.1 ∧ coin e.1 = true)) ∧ (e.2.2 + w ≤ bound ∨ e.1 = own)
      · rw [if_pos hc]; exact Or.inr ⟨e, List.mem_cons_self, rfl, hc.2⟩
      · rw [if_neg hc]; exact Or.inl rfl
    · exact Or.inr ⟨e', List.mem_cons_of_mem _ h1, h2⟩

theorem GCInv.view {p fr ub : Nat} {s : GCState} (I : GCInv dist g p fr ub C s) (r : GCReads) {l a : Nat} (h : (g p).localToGlobal? l = some a) :
    r.view s l < globalN dist ∧ (s.weight (r.view s l)).isSome = true := by
  cases r with
  | exact => exact I.known l a h
  | stale old weights room =>
    show (if old l then (s.changed l).getD (s.cluster l) else s.cluster l) < _ ∧
      (s.weight (if old l then (s.changed l).getD (s.cluster l) else s.cluster l)).isSome = true
    by_cases ho : old l = true
    · rw [if_pos ho]
      cases hc : s.changed l with
      | none => exact I.known l a h
      | some o => exact (I.changed l o hc).2.2
    · rw [if_neg ho]; exact I.known l a h

/-- A node of the process moves to a known cluster. -/
theorem GCInv.move (W : World dist inp g) {p : Nat} (hp : p < procs dist) {fr ub : Nat} (hub : ub ≤ localN dist p) {s : GCState}
    (I : GCInv dist g p fr ub C s) {u b : Nat} (h1 : fr ≤ u) (h2 : u < ub) (hb : b < globalN dist) (hb' : (s.weight b).isSome = true) {wt : Nat → Option Int}
    (hwt : ∀ c, (s.weight c).isSome = true → (wt c).isSome = true) :
    GCInv dist g p fr ub C ⟨upd s.cluster u b, upd s.changed u (some (s.cluster u)), wt⟩ := by
  have hown := (W.represents p hp).own u (by omega)
  refine ⟨⟨fun l a hl => ?_, fun x hx => hwt _ (I.owned x hx)⟩, fun x o hx => ?_, fun l a hl hch => ?_⟩
  · dsimp only
    by_cases h : l = u
    · subst h; rw [upd_same]; exact ⟨hb, hwt _ hb'⟩
    · rw [upd_ne _ _ h]
      exact ⟨(I.known l a hl).1, hwt _ (I.known l a hl).2⟩
  · dsimp only at hx ⊢
    by_cases h : x = u
    · subst h
      rw [upd_same] at hx
      injection hx with hx
      subst hx
      exact ⟨h1, h2, (I.known _ _ hown).1, hwt _ (I.known _ _ hown).2⟩
    · rw [upd_ne _ _ h] at hx
      have := I.changed x o hx
      exact ⟨this.1, this.2.1, this.2.2.1, hwt _ this.2.2.2⟩
  · dsimp only at hch ⊢
    by_cases h : l = u
    · subst h
      have := hch (by omega)
      rw [upd_same] at this
      cases this
    · rw [upd_ne _ _ h]
      rw [upd_ne _ _ h] at hch
      exact I.same l a hl hch

/-- What one visit does. -/
theorem World.gc_visit (W : World dist inp g) (hfit : SmallDegrees dist inp) {p : Nat} (hp : p < procs dist) {fr ub : Nat}
    (hub : ub ≤ localN dist p) {v : GCVisit} (hv : v.Ok fr ub) {s : GCState × Nat} (I : GCInv dist g p fr ub C s.1) :
    ∃ r, gcVisit? cfg (g p) s v = some r ∧ GCInv dist g p fr ub C r.1 ∧ (r = s ∨ r.2 = s.2 + 1 ∧ ∃ b wt, b < globalN dist ∧ b ≠ s.1.cluster v.node ∧
      moveWeight? s.1.weight (s.1.cluster v.node) b ((inp p).nodeWeight v.node) = some wt ∧
      r.1 = ⟨upd s.1.cluster v.node b, upd s.1.changed v.node (some (s.1.cluster v.node)), wt⟩ ∧
      ∃ x, s.1.weight b = some x ∧ v.reads.room x + (inp p).nodeWeight v.node ≤ cfg.bound) := by
  have hu : v.node < localN dist p := Nat.lt_of_lt_of_le hv.lt hub
  obtain ⟨adj, h1, h2, h3⟩ := W.rating_some hfit hp hu
  have hown := (W.represents p hp).own v.node hu
  obtain ⟨x0, hx0⟩ := Option.isSome_iff_exists.1 (I.known _ _ hown).2
  unfold gcVisit?
  rw [h1, Option.bind_some, (W.represents p hp).node_weight _ hu, Option.bind_some]
  dsimp only
  rw [hx0, Option.bind_some]
  obtain ⟨view, hview⟩ : ∃ view, view = v.reads.view s.1 := ⟨_, rfl⟩
  rw [← hview]
  have hkey : ∀ b, b ∈ v.order ((adj.filter fun x => v.keep x.1).map fun x => view x.1).dedup → b < globalN dist ∧ (s.1.weight b).isSome = true := by
    intro b hb
    rw [(hv.order _).mem_iff, List.mem_dedup] at hb
    obtain ⟨x, hx, rfl⟩ := List.mem_map.1 hb
    obtain ⟨a, ha, _⟩ := h2 x (List.mem_of_mem_filter hx)
    rw [hview]
    exact I.view v.reads ha
  have hR : ∀ b, ∃ r, rating? (adj.filter fun x => v.keep x.1) view b = some r := fun b => by
    rw [rating_keep]; exact h3 _ b
  choose R hR using hR
  rw [mapM_some (g := fun b => (b, R b, v.reads.weights b ((s.1.weight b).getD 0))) fun b hb => by
    obtain ⟨x, hx⟩ := Option.isSome_iff_exists.1 (hkey b hb).2
    rw [hx, Option.bind_some, hR, Option.map_some]; rfl]
  rw [Option.bind_some]
  have h6 := gc_pick_fold (bound := cfg.bound) (own := s.1.cluster v.node) (w := (inp p).nodeWeight v.node) (coin := v.coin)
    ((v.order ((adj.filter fun x => v.keep x.1).map fun x => view x.1).dedup).map fun b => (b, R b, v.reads.weights b ((s.1.weight b).getD 0)))
    (0, s.1.cluster v.node)
  generalize List.foldl _ _ _ = best at h6
  by_cases hb : best.2 = s.1.cluster v.node
  · rw [if_pos hb]
    exact ⟨s, rfl, I, Or.inl rfl⟩
  · rw [if_neg hb]
    rcases h6 with h6 | ⟨e, he, h6, _⟩
    · exact absurd (by rw [h6]) hb
    obtain ⟨b', hb', rfl⟩ := List.mem_map.1 he
    dsimp only at h6
    have hk := hkey b' hb'
    rw [← h6] at hk
    obtain ⟨x, hx⟩ := Option.isSome_iff_exists.1 hk.2
    rw [hx, Option.bind_some]
    by_cases hr : v.reads.room x + (inp p).nodeWeight v.node > cfg.bound
    · rw [if_pos hr]
      exact ⟨s, rfl, I, Or.inl rfl⟩
    · rw [if_neg hr]
      obtain ⟨wt, hw1, hw2⟩ := moveWeight_ok (wt := s.1.weight) (a := s.1.cluster v.node) (b := best.2) ((inp p).nodeWeight v.node)
        (I.known _ _ hown).2 hk.2
      rw [hw1, Option.map_some]
      refine ⟨_, rfl, I.move W hp hub hv.ge hv.lt hk.1 hk.2 hw2, Or.inr ⟨rfl, _, wt, hk.1, hb, hw1, rfl, x, hx, by omega⟩⟩

/-- All visits of a chunk. -/
theorem World.gc_visits (W : World dist inp g) (hfit : SmallDegrees dist inp) {p : Nat} (hp : p < procs dist) {fr ub : Nat}
    (hub : ub ≤ localN dist p) : ∀ (vs : List GCVisit) (s : GCState × Nat), (∀ v, v ∈ vs → v.Ok fr ub) → GCInv dist g p fr ub C s.1 →
    ∃ r, vs.foldlM (gcVisit? cfg (g p)) s = some r ∧ GCInv dist g p fr ub C r.1 ∧ s.2 ≤ r.2 ∧ (r.2 = s.2 → r = s)
  | [], s, _, I => ⟨s, rfl, I, Nat.le_refl _, fun _ => rfl⟩
  | v :: vs, s, hv, I => by
    obtain ⟨r1, h1, h2, h3⟩ := W.gc_visit (cfg := cfg) hfit hp hub (hv v List.mem_cons_self) I
    obtain ⟨r, h4, h5, h6, h7⟩ := W.gc_visits hfit hp hub vs r1 (fun x hx => hv x (List.mem_cons_of_mem _ hx)) h2
    refine ⟨r, by rw [List.foldlM_cons, h1]; exact h4, h5, ?_, fun he => ?_⟩
    · rcases h3 with rfl | ⟨h, _⟩ <;> omega
    · rcases h3 with rfl | ⟨h, _⟩
      · exact h7 he
      · omega

/-! ## The weights of clusters -/

theorem fold_isSome {α : Type} {f : (Nat → Option Int) → α → Nat → Option Int}
    (h : ∀ wt a c, (wt c).isSome = true → (f wt a c).isSome = true) : ∀ (l : List α) (wt : Nat → Option Int) (c : Nat),
    (wt c).isSome = true → (l.foldl f wt c).isSome = true
  | [], _, _, hc => hc
  | a :: l, wt, c, hc => fold_isSome h l (f wt a) c (h wt a c hc)

theorem gcStore_isSome {delta : Nat → Int} (wt : Nat → Option Int) (r : Nat × Int × Int) (c : Nat) (h : (wt c).isSome = true) :
    (gcStore cfg delta wt r c).isSome = true := by
  unfold gcStore
  by_cases e : c = r.1
  · rw [e, upd_same]; rfl
  · rw [upd_ne _ _ e]; exact h

theorem gcTotal_isSome {N : Nat} {fr ub : Nat → Nat} {s : Nat → GCState} {q c : Nat} (h : ((s q).weight c).isSome = true) :
    (gcTotal N g fr ub s q c).isSome = true := by
  unfold gcTotal
  split
  · rw [Option.isSome_map]; exact h
  · exact h

theorem mem_gcKeys {d : DGraph} {fr ub c : Nat} {s : GCState} (h : c ∈ gcKeys d fr ub s) :
    d.isOwnedGlobal? c = some false ∧ ∃ u o, fr ≤ u ∧ u < ub ∧ s.changed u = some o ∧ (c = o ∨ c = s.cluster u) := by
  unfold gcKeys at h
  rw [List.mem_dedup, List.mem_filter] at h
  refine ⟨of_decide_eq_true h.2, ?_⟩
  obtain ⟨u, hu, hc⟩ := List.mem_flatMap.1 h.1
  have hu := List.mem_range'_1.1 hu
  cases ho : s.changed u with
  | none => rw [ho] at hc; exact absurd hc List.not_mem_nil
  | some o =>
    rw [ho] at hc
    refine ⟨u, o, hu.1, by omega, ho, ?_⟩
    rcases List.mem_cons.1 hc with h | h
    · exact Or.inl h
    · rw [List.mem_singleton] at h; exact Or.inr h

theorem GCInv.keys (W : World dist inp g) {p : Nat} (hp : p < procs dist) {fr ub : Nat} (hub : ub ≤ localN dist p) {s : GCState}
    (I : GCInv dist g p fr ub C s) {c : Nat} (h : c ∈ gcKeys (g p) fr ub s) : c < globalN dist ∧ (s.weight c).isSome = true := by
  obtain ⟨_, u, o, h1, h2, h3, rfl | rfl⟩ := mem_gcKeys h
  · exact (I.changed u _ h3).2.2
  · exact I.known u _ ((W.represents p hp).own u (by omega))

theorem GCInv.weights {p fr ub : Nat} {s : GCState} (I : GCInv dist g p fr ub C s) {wt : Nat → Option Int}
    (hwt : ∀ c, (s.weight c).isSome = true → (wt c).isSome = true) : GCInv dist g p fr ub C { s with weight := wt } :=
  ⟨⟨fun l a hl => ⟨(I.known l a hl).1, hwt _ (I.known l a hl).2⟩, fun u hu => hwt _ (I.owned u hu)⟩, fun u o hu => by
    have := I.changed u o hu
    exact ⟨this.1, this.2.1, this.2.2.1, hwt _ this.2.2.2⟩, I.same⟩

theorem World.gc_enforce (W : World dist inp g) {p : Nat} (hp : p < procs dist) {fr ub : Nat} (hub : ub ≤ localN dist p) (room : Nat → Option Int) :
    ∀ (us : List Nat) (s : GCState), GCInv dist g p fr ub C s →
    ∃ r, us.foldlM (gcEnforce? cfg (g p) room) s = some r ∧ GCInv dist g p fr ub C r ∧
      (∀ c, (s.weight c).isSome = true → (r.weight c).isSome = true) ∧ ((∀ u, s.changed u = none) → r = s)
  | [], s, I => ⟨s, rfl, I, fun _ h => h, fun _ => rfl⟩
  | u :: us, s, I => by
    have key : ∃ r, gcEnforce? cfg (g p) room s u = some r ∧ GCInv dist g p fr ub C r ∧
        (∀ c, (s.weight c).isSome = true → (r.weight c).isSome = true) ∧ ((∀ u, s.changed u = none) → r = s) := by
      unfold gcEnforce?
      cases ho : s.changed u with
      | none => exact ⟨s, rfl, I, fun _ h => h, fun _ => rfl⟩
      | some o =>
        have hc := I.changed u o ho
        have hk := I.known u _ ((W.represents p hp).own u (by omega))
        obtain ⟨x, hx⟩ := Option.isSome_iff_exists.1 hk.2
        dsimp only
        rw [hx, Option.bind_some]
        by_cases hr : (room u).getD x > cfg.bound
        · rw [if_pos hr, (W.represents p hp).node_weight u (by omega), Option.bind_some]
          obtain ⟨wt, h1, h2⟩ := moveWeight_ok (wt := s.weight) (a := s.cluster u) (b := o) ((inp p).nodeWeight u) hk.2 hc.2.2.2
          rw [h1, Option.map_some]
          refine ⟨_, rfl, I.move W hp hub hc.1 hc.2.1 hc.2.2.1 hc.2.2.2 h2, h2, fun h => ?_⟩
          rw [h u] at ho
          cases ho
        · rw [if_neg hr]
          exact ⟨s, rfl, I, fun _ h => h, fun _ => rfl⟩
    obtain ⟨r1, h1, h2, hm, h3⟩ := key
    obtain ⟨r, h4, h5, hm', h6⟩ := W.gc_enforce hp hub room us r1 h2
    refine ⟨r, by rw [List.foldlM_cons, h1]; exact h4, h5, fun c hc => hm' c (hm c hc), fun h => ?_⟩
    have := h3 h
    subst this
    exact h6 h

theorem World.gc_control (W : World dist inp g) {fr ub : Nat → Nat} (hub : ∀ p, p < procs dist → ub p ≤ localN dist p)
    (room : Nat → Nat → Option Int) {s : Nat → GCState} (hI : ∀ p, p < procs dist → GCInv dist g p (fr p) (ub p) C (s p)) {p : Nat}
    (hp : p < procs dist) :
    ∃ r, gcControl? (procs dist) cfg g fr ub room s p = some r ∧ GCInv dist g p (fr p) (ub p) C r ∧
      (∀ c, ((s p).weight c).isSome = true → (r.weight c).isSome = true) ∧
      ((∀ u, (s p).changed u = none) → r.cluster = (s p).cluster ∧ r.changed = (s p).changed) := by
  have I := hI p hp
  unfold gcControl?
  rw [mapM_some (g := fun c => (c, (gcTotal (procs dist) g fr ub s ((g p).findOwner c) c).getD 0, ((s p).weight c).getD 0)) fun c hc => by
    have hk := I.keys W hp (hub p hp) hc
    have ho := (W.represents p hp).find_owner c hk.1
    have hq := ho.lt
    have hb := ((W.valid p hp).owns_iff' hq).1 ho
    have hw := (hI _ hq).owned (c - first dist ((g p).findOwner c)) (by unfold localN; omega)
    rw [show first dist ((g p).findOwner c) + (c - first dist ((g p).findOwner c)) = c by omega] at hw
    obtain ⟨x, hx⟩ := Option.isSome_iff_exists.1 (gcTotal_isSome (N := procs dist) (g := g) (fr := fr) (ub := ub) hw)
    obtain ⟨y, hy⟩ := Option.isSome_iff_exists.1 hk.2
    rw [hx, hy]; rfl]
  rw [Option.bind_some]
  generalize (gcKeys (g p) (fr p) (ub p) (s p)).map _ = resps
  have hmono : ∀ c, ((s p).weight c).isSome = true →
      (resps.foldl (gcStore cfg (gcDelta (g p) (fr p) (ub p) (s p))) (gcTotal (procs dist) g fr ub s p) c).isSome = true :=
    fun c hc => fold_isSome gcStore_isSome _ _ _ (gcTotal_isSome hc)
  have I' := I.weights hmono
  dsimp only
  split
  · obtain ⟨r, h1, h2, h3, h4⟩ := W.gc_enforce (cfg := cfg) hp (hub p hp) (room p) (List.range' (fr p) (ub p - fr p)) _ I'
    refine ⟨r, h1, h2, fun c hc => h3 c (hmono c hc), fun h => ?_⟩
    rw [h4 h]
    exact ⟨rfl, rfl⟩
  · exact ⟨_, rfl, I', hmono, fun _ => ⟨rfl, rfl⟩⟩

/-! ## The clusters of ghost nodes -/

theorem apply_values {ν : Type} {gr : DGraph} {cap pe : Nat} : ∀ {msgs : List (Nat × ν)} {arr arr' : Nat → ν},
    msgs.foldlM (applyMessage? gr cap pe) arr = some arr' → ∀ l, arr' l = arr l ∨ ∃ m, m ∈ msgs ∧ gr.mapRemote? m.1 pe = some l ∧ arr' l = m.2
  | [], arr, arr', h, l => by
    have h : some arr = some arr' := h
    injection h with h
    exact Or.inl (by rw [h])
  | m :: msgs, arr, arr', h, l => by
    rw [List.foldlM_cons] at h
    obtain ⟨arr1, h1, h2⟩ := Option.bind_eq_some_iff.1 h
    rcases apply_values h2 l with h3 | ⟨m', h3, h4⟩
    · rw [h3]
      unfold applyMessage? at h1
      obtain ⟨l', hl', h1⟩ := Option.bind_eq_some_iff.1 h1
      split at h1
      · injection h1 with h1
        subst h1
        by_cases e : l = l'
        · subst e
          exact Or.inr ⟨m, List.mem_cons_self, hl', upd_same ..⟩
        · exact Or.inl (upd_ne _ _ e)
      · cases h1
    · exact Or.inr ⟨m', List.mem_cons_of_mem _ h3, h4⟩

theorem receive_values {ν : Type} {gr : DGraph} {cap : Nat} {shuffle : List (Nat × ν) → List (Nat × ν)} :
    ∀ {calls : List (Nat × List (Nat × ν))} {arr arr' : Nat → ν}, receive? gr cap shuffle calls arr = some arr' →
    ∀ l, arr' l = arr l ∨ ∃ p msgs m, (p, msgs) ∈ calls ∧ m ∈ shuffle msgs ∧ gr.mapRemote? m.1 p = some l ∧ arr' l = m.2
  | [], arr, arr', h, l => by
    have h : some arr = some arr' := h
    injection h with h
    exact Or.inl (by rw [h])
  | (p, msgs) :: calls, arr, arr', h, l => by
    unfold receive? at h
    rw [List.foldlM_cons] at h
    obtain ⟨arr1, h1, h2⟩ := Option.bind_eq_some_iff.1 h
    rcases receive_values (calls := calls) h2 l with h3 | ⟨p', msgs', m', h3, h4⟩
    · rcases apply_values h1 l with h5 | ⟨m, h5, h6, h7⟩
      · exact Or.inl (by rw [h3, h5])
      · exact Or.inr ⟨p, msgs, m, List.mem_cons_self, h5, h6, by rw [h3, h7]⟩
    · exact Or.inr ⟨p', msgs', m', List.mem_cons_of_mem _ h3, h4⟩

theorem changeWeight_isSome {wt : Nat → Option Int} {b : Nat} {x : Int} :
    (changeWeight wt b x b).isSome = true ∧ ∀ c, (wt c).isSome = true → (changeWeight wt b x c).isSome = true := by
  unfold changeWeight
  refine ⟨by rw [upd_same]; rfl, fun c hc => ?_⟩
  by_cases e : c = b
  · rw [e, upd_same]; rfl
  · rw [upd_ne _ _ e]; exact hc

theorem notice_isSome {sync : Bool} {keys : List Nat} {gr : DGraph} {cluster : Nat → Nat} (wt : Nat → Option Int) (m : Nat × Nat × Nat) (c : Nat)
    (h : (wt c).isSome = true) : (gcNotice sync keys gr cluster wt m c).isSome = true := by
  unfold gcNotice
  cases gr.mapRemote? m.2.1 m.1 with
  | none => exact h
  | some l =>
    dsimp only
    have h1 : ((if (sync && decide (cluster l ∈ keys)) = true then wt else changeWeight wt (cluster l) (-((gr.nodeWeight? l).getD 0))) c).isSome =
        true := by
      split
      · exact h
      · exact changeWeight_isSome.2 c h
    by_cases h2 : (sync && decide (m.2.2 ∈ keys)) = true
    · rw [if_pos h2]; exact h1
    · rw [if_neg h2]; exact changeWeight_isSome.2 c h1

theorem notice_fold {sync : Bool} {keys : List Nat} {gr : DGraph} {cluster : Nat → Nat} : ∀ (ms : List (Nat × Nat × Nat)) (wt : Nat → Option Int),
    (∀ c, c ∈ keys → (wt c).isSome = true) → ∀ m, m ∈ ms → ∀ l, gr.mapRemote? m.2.1 m.1 = some l →
    (ms.foldl (gcNotice sync keys gr cluster) wt m.2.2).isSome = true
  | [], _, _, m, hm, _, _ => absurd hm List.not_mem_nil
  | m' :: ms, wt, hk, m, hm, l, hl => by
    rw [List.foldl_cons]
    rcases List.mem_cons.1 hm with rfl | hm
    · refine fold_isSome notice_isSome ms _ _ ?_
      unfold gcNotice
      rw [hl]
      dsimp only
      split
      · rename_i h
        rw [Bool.and_eq_true, decide_eq_true_iff] at h
        split
        · exact hk _ h.2
        · exact changeWeight_isSome.2 _ (hk _ h.2)
      · exact changeWeight_isSome.1
    · exact notice_fold ms _ (fun c hc => notice_isSome _ _ _ (hk c hc)) m hm l hl

/-- The clusters that the owners of the nodes know. -/
def glue (dist : List Nat) (cluster : Nat → Nat → Nat) (a : Nat) : Nat := cluster (ow dist a) (a - first dist (ow dist a))

theorem World.glue_at (W : World dist inp g) (cluster : Nat → Nat → Nat) {p u : Nat} (hp : p < procs dist) (hu : u < localN dist p) :
    glue dist cluster (first dist p + u) = cluster p u := by
  unfold glue
  rw [(W.own_at hp hu).1, Nat.add_sub_cancel_left]

theorem World.gc_sync (W : World dist inp g) (hsym : Symmetric dist inp) {fr ub : Nat → Nat} (hub : ∀ p, p < procs dist → ub p ≤ localN dist p)
    {sch : SyncSchedule} (hsch : sch.Ok dist fr ub) {s : Nat → GCState} (hI : ∀ p, p < procs dist → GCInv dist g p (fr p) (ub p) C (s p))
    {keys : Nat → List Nat} (hkeys : ∀ p, p < procs dist → ∀ c, c ∈ keys p → ((s p).weight c).isSome = true) {me : Nat} (hme : me < procs dist) :
    ∃ r, gcSync? (procs dist) cfg g fr ub keys sch s me = some r ∧ GCInv dist g me 0 0 (glue dist fun p => (s p).cluster) r := by
  have I := hI me hme
  obtain ⟨calls, h1, h2⟩ := W.mapped_calls ((0, 0) : Nat × Nat) (node := fun _ u => u)
    (fun q hq i _ h => Nat.lt_of_lt_of_le h (hub q hq)) (fun p i => ((s p).changed i).isSome) (fun p u => (s p).cluster u) hsch.exec hme
  obtain ⟨arr, h3, h4⟩ := W.mapped_sync hsym ((0, 0) : Nat × Nat) (node := fun _ u => u)
    (fun q hq i _ h => Nat.lt_of_lt_of_le h (hub q hq)) (fun p i => ((s p).changed i).isSome) (fun p u => (s p).cluster u) hsch.exec
    (hsch.shuffle me) hme (g me).totalN (Nat.le_refl _) (s me).cluster
    (Sel := fun p u => ∃ i, fr p ≤ i ∧ i < ub p ∧ i = u ∧ ((s p).changed i).isSome = true) (fun _ _ => Iff.rfl)
  rw [h1, Option.bind_some] at h3
  have h5 : gcSync? (procs dist) cfg g fr ub keys sch s me = some
      ⟨arr, fun u => if fr me ≤ u ∧ u < ub me then none else (s me).changed u,
      (calls.flatMap fun c => (sch.shuffle me c.2).map fun m => (c.1, m)).foldl (gcNotice cfg.sync (keys me) (g me) (s me).cluster) (s me).weight⟩ := by
    unfold gcSync?
    refine (congrArg (fun x => Option.bind x _) h1).trans ?_
    rw [Option.bind_some]
    refine (congrArg (Option.map _) h3).trans ?_
    rfl
  refine ⟨_, h5, ⟨fun l a hl => ?_, fun u hu => fold_isSome notice_isSome _ _ _ (I.owned u hu)⟩, fun u o hu => ?_, fun l v hl _ => ?_⟩
  · dsimp only
    rcases receive_values h3 l with h6 | ⟨p, msgs, ⟨u, y⟩, h6, h7, h8, h9⟩
    · rw [h6]
      exact ⟨(I.known l a hl).1, fold_isSome notice_isSome _ _ _ (I.known l a hl).2⟩
    · obtain ⟨hp, ⟨i, i1, i2, i3, _⟩, hy, _⟩ := (h2 p u y).1 ⟨msgs, h6, (hsch.shuffle me msgs).mem_iff.1 h7⟩
      dsimp only at h8 h9 i3
      subst i3
      rw [h9]
      refine ⟨?_, notice_fold _ _ (hkeys me hme) (p, i, y) (List.mem_flatMap.2 ⟨_, h6, List.mem_map.2 ⟨_, h7, rfl⟩⟩) l h8⟩
      rw [hy]
      exact ((hI p hp).known _ _ ((W.represents p hp).own i (Nat.lt_of_lt_of_le i2 (hub p hp)))).1
  · dsimp only at hu
    split at hu
    · cases hu
    · rename_i hn
      have := I.changed u o hu
      exact absurd ⟨this.1, this.2.1⟩ hn
  · dsimp only
    rcases (W.node hme hl).2 with ⟨_, h5, h6, h7⟩ | ⟨_, h5, h6, q, _, h7, h8⟩
    · rw [(h4 l v me hl h7).2 (Or.inl rfl), h6, W.glue_at _ hme h5]
    · have hq := h7.lt
      have hb := ((W.valid me hme).owns_iff' hq).1 h7
      have hloc : v - first dist q < localN dist q := by unfold localN; omega
      have hv : first dist q + (v - first dist q) = v := by omega
      have hg := W.glue_at (fun p => (s p).cluster) hq hloc
      rw [hv] at hg
      rw [hg]
      by_cases hsel : ∃ i, fr q ≤ i ∧ i < ub q ∧ i = v - first dist q ∧ ((s q).changed i).isSome = true
      · exact (h4 l v q hl h7).1 h8 hsel
      · rw [(h4 l v q hl h7).2 (Or.inr hsel), I.same l v hl fun h => absurd h5 (by omega)]
        have hown := (W.represents q hq).own _ hloc
        rw [hv] at hown
        refine ((hI q hq).same _ v hown fun _ => ?_).symm
        cases hc : (s q).changed (v - first dist q) with
        | none => rfl
        | some o =>
          have := (hI q hq).changed _ _ hc
          exact absurd ⟨_, this.1, this.2.1, rfl, by rw [hc]; rfl⟩ hsel

/-! ## Isolated nodes -/

/-- What holds while isolated nodes are merged. -/
structure MergeInv (dist : List Nat) (g : Nat → DGraph) (p : Nat) (s : GCState × (Nat → MergeCursor)) : Prop extends GCKnown dist g p s.1 where
  cursor : ∀ t u c y, s.2 t = some (u, c, y) → u < localN dist p ∧ c < globalN dist ∧ (s.1.weight c).isSome = true

theorem World.merge_reload (W : World dist inp g) {p : Nat} (hp : p < procs dist) {s : GCState × (Nat → MergeCursor)}
    (M : MergeInv dist g p s) (t : Nat) (reload : Option (Option Int)) :
    ∃ cur, mergeReload? s.1 (s.2 t) reload = some cur ∧
      ∀ u c y, cur = some (u, c, y) → u < localN dist p ∧ c < globalN dist ∧ (s.1.weight c).isSome = true := by
  cases hs : s.2 t with
  | none =>
    refine ⟨none, ?_, fun _ _ _ h => by cases h⟩
    cases reload <;> rfl
  | some x =>
    obtain ⟨u, c, y⟩ := x
    have h := M.cursor t u c y hs
    cases reload with
    | none =>
      refine ⟨some (u, c, y), rfl, fun u' c' y' e => ?_⟩
      injection e with e
      injection e with e1 e2
      injection e2 with e2 e3
      subst e1 e2
      exact h
    | some r =>
      have hk := M.known u _ ((W.represents p hp).own u h.1)
      obtain ⟨x, hx⟩ := Option.isSome_iff_exists.1 hk.2
      refine ⟨some (u, s.1.cluster u, r.getD x), by show (s.1.weight (s.1.cluster u)).map _ = _; rw [hx]; rfl, fun u' c' y' e => ?_⟩
      injection e with e
      injection e with e1 e2
      injection e2 with e2 e3
      subst e1 e2
      exact ⟨h.1, hk⟩

theorem MergeInv.put {p : Nat} {s : GCState × (Nat → MergeCursor)} {t : GCState} (K : GCKnown dist g p t)
    (hm : ∀ c, (s.1.weight c).isSome = true → (t.weight c).isSome = true) (M : MergeInv dist g p s) {th : Nat} {cur : MergeCursor}
    (hc : ∀ u c y, cur = some (u, c, y) → u < localN dist p ∧ c < globalN dist ∧ (s.1.weight c).isSome = true) :
    MergeInv dist g p (t, upd s.2 th cur) := by
  refine ⟨K, fun t' u c y h => ?_⟩
  dsimp only at h ⊢
  by_cases e : t' = th
  · subst e
    rw [upd_same] at h
    obtain ⟨a, b, c⟩ := hc u c y h
    exact ⟨a, b, hm _ c⟩
  · rw [upd_ne _ _ e] at h
    obtain ⟨a, b, c⟩ := M.cursor t' u c y h
    exact ⟨a, b, hm _ c⟩

theorem World.merge_step (W : World dist inp g) {p : Nat} (hp : p < procs dist) {s : GCState × (Nat → MergeCursor)} (M : MergeInv dist g p s)
    {e : MergeEvent} (he : e.node < localN dist p) :
    ∃ r, mergeStep? cfg (g p) s e = some r ∧ MergeInv dist g p r ∧ r.1.changed = s.1.changed ∧
      ∀ l, localN dist p ≤ l ∨ (g p).adjacent? l ≠ some [] → r.1.cluster l = s.1.cluster l := by
  obtain ⟨adj, h1, _⟩ := (W.represents p hp).neighbours e.node he
  obtain ⟨cur, h2, h3⟩ := W.merge_reload hp M e.thread e.reload
  have hk := M.known _ _ ((W.represents p hp).own e.node he)
  obtain ⟨x, hx⟩ := Option.isSome_iff_exists.1 hk.2
  unfold mergeStep?
  rw [h1, Option.bind_some, h2, Option.bind_some]
  by_cases ha : adj = []
  · rw [if_pos ha, hx, Option.map_some]
    have fresh : ∀ u c y, (some (e.node, s.1.cluster e.node, e.read.getD x) : MergeCursor) = some (u, c, y) →
        u < localN dist p ∧ c < globalN dist ∧ (s.1.weight c).isSome = true := by
      intro u c y h
      injection h with h
      injection h with e1 e2
      injection e2 with e2 e3
      subst e1 e2
      exact ⟨he, hk⟩
    rcases hcur : cur with _ | ⟨u, c, y⟩
    · exact ⟨_, rfl, M.put M.toGCKnown (fun _ h => h) fresh, rfl, fun _ _ => rfl⟩
    · have h4 := h3 u c y hcur
      dsimp only
      split
      · refine ⟨_, rfl, ?_, rfl, fun l hl => ?_⟩
        · refine MergeInv.put ⟨fun l a hl => ?_, fun u' hu' => changeWeight_isSome.2 _ (M.owned u' hu')⟩ (fun _ h => changeWeight_isSome.2 _ h) M
            fun u' c' y' h => ?_
          · dsimp only
            by_cases el : l = e.node
            · subst el; rw [upd_same]; exact ⟨h4.2.1, changeWeight_isSome.1⟩
            · rw [upd_ne _ _ el]
              exact ⟨(M.known l a hl).1, changeWeight_isSome.2 _ (M.known l a hl).2⟩
          · injection h with h
            injection h with e1 e2
            injection e2 with e2 e3
            subst e1 e2
            exact h4
        · refine upd_ne _ _ fun el => ?_
          subst el
          rcases hl with hl | hl
          · omega
          · rw [h1, ha] at hl
            exact hl rfl
      · exact ⟨_, rfl, M.put M.toGCKnown (fun _ h => h) fresh, rfl, fun _ _ => rfl⟩
  · rw [if_neg ha]
    exact ⟨_, rfl, M.put M.toGCKnown (fun _ h => h) h3, rfl, fun _ _ => rfl⟩

theorem World.merge_steps (W : World dist inp g) {p : Nat} (hp : p < procs dist) : ∀ (es : List MergeEvent) (s : GCState × (Nat → MergeCursor)),
    MergeInv dist g p s → (∀ e, e ∈ es → e.node < localN dist p) →
    ∃ r, es.foldlM (mergeStep? cfg (g p)) s = some r ∧ MergeInv dist g p r ∧ r.1.changed = s.1.changed ∧
      ∀ l, localN dist p ≤ l ∨ (g p).adjacent? l ≠ some [] → r.1.cluster l = s.1.cluster l
  | [], s, M, _ => ⟨s, rfl, M, rfl, fun _ _ => rfl⟩
  | e :: es, s, M, he => by
    obtain ⟨r1, h1, h2, h3, h4⟩ := W.merge_step (cfg := cfg) hp M (he e List.mem_cons_self)
    obtain ⟨r, h5, h6, h7, h8⟩ := W.merge_steps hp es r1 h2 fun x hx => he x (List.mem_cons_of_mem _ hx)
    exact ⟨r, by rw [List.foldlM_cons, h1]; exact h5, h6, by rw [h7, h3], fun l hl => by rw [h8 l hl, h4 l hl]⟩

theorem World.gc_merge (W : World dist inp g) {p : Nat} (hp : p < procs dist) {s : GCState} (K : GCKnown dist g p s) {es : List MergeEvent}
    (he : ∀ e, e ∈ es → e.node < localN dist p) :
    ∃ r, gcMerge? cfg (g p) es s = some r ∧ GCKnown dist g p r ∧ r.changed = s.changed ∧
      ∀ l, localN dist p ≤ l ∨ (g p).adjacent? l ≠ some [] → r.cluster l = s.cluster l := by
  obtain ⟨r, h1, h2, h3, h4⟩ := W.merge_steps (cfg := cfg) hp es (s, fun _ => none) ⟨K, fun _ _ _ _ h => by cases h⟩ he
  refine ⟨r.1, ?_, h2.toGCKnown, h3, h4⟩
  unfold gcMerge?
  rw [h1]; rfl

/-- A node that another process knows is not isolated. -/
theorem World.not_isolated (W : World dist inp g) (hsym : Symmetric dist inp) {me q l v : Nat} (hme : me < procs dist)
    (hl : (g me).localToGlobal? l = some v) (h5 : localN dist me ≤ l) (h7 : Owns dist q v) :
    (g q).adjacent? (v - first dist q) ≠ some [] := by
  have V := W.valid me hme
  have hq := h7.lt
  have hb := (V.owns_iff' hq).1 h7
  have hloc : v - first dist q < localN dist q := by unfold localN; omega
  rcases (W.node hme hl).2 with ⟨_, h, _⟩ | ⟨_, _, h6, _⟩
  · omega
  obtain ⟨hadj, _⟩ := (W.foreign_mem hme).1 h6
  obtain ⟨u, w, hu, hn⟩ := V.adjncy_neighbour hadj
  have hO : Owns dist me (first dist me + u) := by
    rw [V.owns_iff' hme]; unfold localN at hu; omega
  obtain ⟨q2, w', hq2, hq3, hq4⟩ := hsym (first dist me + u) v ⟨me, w, hme, hO, by rw [Nat.add_sub_cancel_left]; exact hn⟩
  have hqe : q2 = q := V.owns_unique hq3 h7
  subst hqe
  intro h
  obtain ⟨adj, a1, a2⟩ := (W.represents q2 hq).neighbours _ hloc
  rw [h] at a1
  injection a1 with a1
  subst a1
  have a2 : some [] = some ((inp q2).neighbours (v - first dist q2)) := a2
  injection a2 with a2
  rw [← a2] at hq4
  exact absurd hq4 List.not_mem_nil

end Verif.Dist

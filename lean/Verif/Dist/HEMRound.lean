import Verif.Dist.HEMResolve
import Verif.Dist.DistributeProps

/-!
# Heavy edge matching: one colour
-/

namespace Verif.Dist
open Verif

variable {dist : List Nat} {inp : Nat → Input} {g : Nat → DGraph} {Wt : Nat → Int} {cfg : HEMConfig} {ord : ColorOrder} {c : Nat} {color : Nat → Nat}

/-- The matching when the colours below `c` are done: `val a` is the entry of the node `a` on its process. -/
structure MatchVal (dist : List Nat) (inp : Nat → Input) (Wt : Nat → Int) (cfg : HEMConfig) (color : Nat → Nat) (c : Nat) (val : Nat → Nat) :
    Prop where
  pair : ∀ a, a < globalN dist → val a ≠ invalidG → val a = a ∨
    ((∃ w, 0 < w ∧ (a, val a, w) ∈ edges dist inp) ∧ val (val a) = val a ∧ Light cfg Wt a (val a))
  one : ∀ a b, a < globalN dist → b < globalN dist → val a ≠ invalidG → val a ≠ a → val b ≠ b → val a = val b → a = b
  later : ∀ a, a < globalN dist → c ≤ color a → val a = invalidG ∨ val a = a

/-- What processes know about foreign nodes; a node that rejected a request may remain marked on the process that sent it. -/
def KnowsMatching (dist : List Nat) (g : Nat → DGraph) (m : Nat → Nat → Nat) (val : Nat → Nat) : Prop :=
  ∀ p, p < procs dist → ∀ l v, localN dist p ≤ l → (g p).localToGlobal? l = some v → m p l = val v ∨ val v = invalidG ∧ m p l = v

theorem MatchVal.step (W : World dist inp g) {val val' : Nat → Nat} (I : MatchVal dist inp Wt cfg color c val) {P : Nat → Nat → Prop}
    (hP : ∀ a v, P a v → a < globalN dist ∧ v < globalN dist ∧ val a = invalidG ∧ val v = invalidG ∧ color a = c ∧ Light cfg Wt a v ∧ ∃ w, 0 < w ∧ (a, v, w) ∈ edges dist inp)
    (inj : ∀ a a' v, P a v → P a' v → a = a') (s1 : ∀ a v, P a v → val' a = v ∧ val' v = v)
    (s2 : ∀ a, a < globalN dist → (∀ v, ¬ P a v) → (∀ b, ¬ P b a) → val' a = val a) : MatchVal dist inp Wt cfg color (c + 1) val' := by
  have cases3 : ∀ a, a < globalN dist → (∃ v, P a v ∧ val' a = v) ∨ val' a = a ∨ val' a = val a := by
    intro a ha
    by_cases h1 : ∃ v, P a v
    · obtain ⟨v, h1⟩ := h1
      exact Or.inl ⟨v, h1, (s1 a v h1).1⟩
    · by_cases h2 : ∃ b, P b a
      · obtain ⟨b, h2⟩ := h2
        exact Or.inr (Or.inl (s1 b a h2).2)
      · exact Or.inr (Or.inr (s2 a ha (fun v h => h1 ⟨v, h⟩) fun b h => h2 ⟨b, h⟩))
  refine ⟨fun a ha h => ?_, fun a b ha hb h h1 h2 e => ?_, fun a ha hcol => ?_⟩
  · rcases cases3 a ha with ⟨v, h1, h2⟩ | h1 | h1
    · obtain ⟨_, _, _, _, _, h3, h4⟩ := hP a v h1
      rw [h2]
      exact Or.inr ⟨h4, (s1 a v h1).2, h3⟩
    · exact Or.inl h1
    · rw [h1] at h ⊢
      rcases I.pair a ha h with h2 | ⟨h2, h3, h4⟩
      · exact Or.inl h2
      · refine Or.inr ⟨h2, ?_, h4⟩
        obtain ⟨w, _, hw⟩ := h2
        have hlt := (edges_lt W.valid hw).2
        rw [s2 (val a) hlt (fun v hv => h (by rw [← h3]; exact (hP _ _ hv).2.2.1)) fun b hb => h (by rw [← h3]; exact (hP _ _ hb).2.2.2.1)]
        exact h3
  · have key : ∀ a b, a < globalN dist → b < globalN dist → val' a ≠ invalidG → val' b ≠ b → val' a = val' b → ∀ v, P a v → val' a = v → val' b = val b → False := by
      intro a b ha hb h h2 e v hv hv2 hb2
      rcases I.pair b hb (by rw [← hb2, ← e]; exact h) with h3 | ⟨_, h3, _⟩
      · exact h2 (by rw [hb2, h3])
      · rw [← hb2, ← e, hv2] at h3
        rw [(hP a v hv).2.2.2.1] at h3
        exact h (by rw [hv2, h3])
    rcases cases3 a ha with ⟨v, a1, a2⟩ | a1 | a1
    · rcases cases3 b hb with ⟨v', b1, b2⟩ | b1 | b1
      · have : v = v' := by rw [← a2, ← b2, e]
        subst this
        exact inj _ _ _ a1 b1
      · exact absurd b1 h2
      · exact (key a b ha hb h h2 e v a1 a2 b1).elim
    · exact absurd a1 h1
    · rcases cases3 b hb with ⟨v', b1, b2⟩ | b1 | b1
      · exact (key b a hb ha (by rw [← e]; exact h) h1 e.symm v' b1 b2 a1).elim
      · exact absurd b1 h2
      · rw [a1] at h h1
        rw [b1] at h2
        rw [a1, b1] at e
        exact I.one a b ha hb h h1 h2 e
  · rcases cases3 a ha with ⟨v, h1, _⟩ | h1 | h1
    · have := (hP a v h1).2.2.2.2.1
      omega
    · exact Or.inr h1
    · rw [h1]
      exact I.later a ha (by omega)

/-- Which nodes of the colour are sent, and which nodes with them. -/
theorem World.hem_active (W : World dist inp g) {p u : Nat} (hp : p < procs dist) (hu : u < localN dist p) {m : Nat → Nat} :
    ∃ ls, hemActive? (g p) m u = some ls ∧ (m u ≠ invalidG → u ∈ ls) ∧ (∀ l, l < localN dist p → m u = first dist p + l → l ∈ ls) ∧
      ∀ y, y ∈ ls → y < localN dist p := by
  have R := W.represents p hp
  have hfs := first_succ W hp
  unfold hemActive?
  by_cases h1 : m u = invalidG
  · refine ⟨[], if_pos h1, fun h => absurd h1 h, fun l hl h => ?_, fun y hy => absurd hy List.not_mem_nil⟩
    exact absurd (h.symm.trans h1) (W.lt_invalid (owned_lt W hp hl))
  rw [if_neg h1, W.isOwned hp (m u), Option.bind_some]
  by_cases h2 : first dist p ≤ m u ∧ m u < first dist (p + 1)
  · rw [if_pos (decide_eq_true h2)]
    have h3 := R.own (m u - first dist p) (by omega)
    rw [show first dist p + (m u - first dist p) = m u by omega] at h3
    rw [R.inverse _ _ (lt_total h3) h3, Option.map_some]
    have e : ∀ l, m u = first dist p + l → l = m u - first dist p := fun l h => by omega
    by_cases h4 : u ≠ m u - first dist p
    · rw [if_pos h4]
      refine ⟨_, rfl, fun _ => List.mem_cons_self, fun l hl h => ?_, fun y hy => ?_⟩
      · rw [e l h]; exact List.mem_cons_of_mem _ List.mem_cons_self
      · rcases List.mem_cons.1 hy with rfl | hy
        · exact hu
        · rw [List.mem_singleton.1 hy]; omega
    · rw [if_neg h4]
      have h4 : u = m u - first dist p := by simpa using h4
      refine ⟨_, rfl, fun _ => List.mem_cons_self, fun l hl h => ?_, fun y hy => ?_⟩
      · rw [e l h, ← h4]; exact List.mem_cons_self
      · rw [List.mem_singleton.1 hy]; exact hu
  · rw [if_neg (by rw [decide_eq_true_iff]; exact h2)]
    refine ⟨_, rfl, fun _ => List.mem_cons_self, fun l hl h => (h2 (by omega)).elim, fun y hy => ?_⟩
    rw [List.mem_singleton.1 hy]; exact hu

theorem World.hem_nodes (W : World dist inp g) {p : Nat} (hp : p < procs dist) {active : List Nat} (ha : ∀ u, u ∈ active → u < localN dist p)
    {m : Nat → Nat} {answers : List MatchRequest} (hans : ∀ r, r ∈ answers → r.mine = invalidN ∨ r.mine < localN dist p) :
    ∃ nodes, hemNodes? (g p) active m answers = some nodes ∧ (∀ u, u ∈ active → m u ≠ invalidG → u ∈ nodes) ∧
      (∀ u l, u ∈ active → l < localN dist p → m u = first dist p + l → l ∈ nodes) ∧
      (∀ r, r ∈ answers → r.mine ≠ invalidN → r.mine ∈ nodes) ∧ ∀ y, y ∈ nodes → y < localN dist p := by
  have key : ∀ u, ∃ ls, u ∈ active → hemActive? (g p) m u = some ls ∧ (m u ≠ invalidG → u ∈ ls) ∧
      (∀ l, l < localN dist p → m u = first dist p + l → l ∈ ls) ∧ ∀ y, y ∈ ls → y < localN dist p := by
    intro u
    by_cases hu : u ∈ active
    · obtain ⟨ls, h⟩ := W.hem_active hp (ha u hu) (m := m)
      exact ⟨ls, fun _ => h⟩
    · exact ⟨[], fun h => absurd h hu⟩
  choose F hF using key
  refine ⟨_, by unfold hemNodes?; rw [mapM_some (g := F) fun u hu => (hF u hu).1]; rfl, fun u hu h => ?_, fun u l hu hl h => ?_, fun r hr h => ?_, fun y hy => ?_⟩
  · exact List.mem_append_left _ (List.mem_flatten.2 ⟨_, List.mem_map.2 ⟨u, hu, rfl⟩, (hF u hu).2.1 h⟩)
  · exact List.mem_append_left _ (List.mem_flatten.2 ⟨_, List.mem_map.2 ⟨u, hu, rfl⟩, (hF u hu).2.2.1 l hl h⟩)
  · exact List.mem_append_right _ (List.mem_map.2 ⟨r, List.mem_filter.2 ⟨hr, decide_eq_true h⟩, rfl⟩)
  · rcases List.mem_append.1 hy with hy | hy
    · obtain ⟨ls, hls, hy⟩ := List.mem_flatten.1 hy
      obtain ⟨u, hu, rfl⟩ := List.mem_map.1 hls
      exact (hF u hu).2.2.2 y hy
    · obtain ⟨r, hr, rfl⟩ := List.mem_map.1 hy
      obtain ⟨hr, h⟩ := List.mem_filter.1 hr
      exact (hans r hr).resolve_left (by simpa using h)

theorem edges_neighbours (W : World dist inp g) {p u v : Nat} {w : Int} (hp : p < procs dist) (hu : u < localN dist p)
    (h : (first dist p + u, v, w) ∈ edges dist inp) : (v, w) ∈ (inp p).neighbours u := by
  unfold edges at h
  obtain ⟨p', hp', h⟩ := List.mem_flatMap.1 h
  obtain ⟨u', hu', h⟩ := List.mem_flatMap.1 h
  obtain ⟨x, hx, e⟩ := List.mem_map.1 h
  have hp' := List.mem_range.1 hp'
  have hu' := List.mem_range.1 hu'
  injection e with e1 e2
  have hpp : p' = p := by
    rw [← (W.own_at hp' hu').1, e1, (W.own_at hp hu).1]
  subst hpp
  have : u' = u := by omega
  subst this
  rw [← e2]
  exact hx

theorem World.hem_color (W : World dist inp g) (hsym : Symmetric dist inp) (hW : KnowsWeights dist g Wt) (O : ord.Ok dist inp)
    (hsort : ord.Sorts dist color) (hproper : ∀ a b, IsEdge dist inp a b → color a ≠ color b) (hsmall : ∀ p, p < procs dist → (g p).totalN < 2 ^ 31)
    (hc : c < ord.colors) {sch : Nat → HEMSchedule} (hsch : (sch c).Ok dist ord c) {m : Nat → Nat → Nat}
    (I : MatchVal dist inp Wt cfg color c (glue dist m)) (K : KnowsMatching dist g m (glue dist m)) :
    ∃ m', hemColor? (procs dist) cfg g ord sch m c = some m' ∧ MatchVal dist inp Wt cfg color (c + 1) (glue dist m') ∧
      KnowsMatching dist g m' (glue dist m') := by
  have hcl : ∀ p, p < procs dist → ∀ u, ord.Class c p u → u < localN dist p := by
    rintro p hp u ⟨i, h1, h2, rfl⟩
    exact (O.colorClass hc).lt p hp i h1 h2
  have hcolor : ∀ p, p < procs dist → ∀ u, ord.Class c p u → color (first dist p + u) = c := by
    rintro p hp u ⟨i, h1, h2, rfl⟩
    exact hsort p hp c hc i h1 h2
  have hpr : ∀ a b w, (a, b, w) ∈ edges dist inp → color a ≠ color b := fun a b w h => hproper a b ((isEdge_edges W.valid).2 ⟨w, h⟩)
  have hactive : ∀ p u, u ∈ (List.range' (ord.start p c) (ord.start p (c + 1) - ord.start p c)).map (ord.node p) ↔ ord.Class c p u := by
    intro p u
    rw [List.mem_map]
    constructor
    · rintro ⟨i, hi, h⟩
      rw [List.mem_range'_1] at hi
      exact ⟨i, by omega, by omega, h⟩
    · rintro ⟨i, h1, h2, h⟩
      exact ⟨i, by rw [List.mem_range'_1]; omega, h⟩
  have hown : ∀ p u q, p < procs dist → u < localN dist p → Owns dist q (first dist p + u) → q = p := by
    intro p u q hp hu hq
    have V := W.valid p hp
    exact V.owns_unique hq ((V.owns_iff' hp).2 (by have := first_succ W hp; omega))
  have hown' : ∀ p u, p < procs dist → u < localN dist p → Owns dist p (first dist p + u) := by
    intro p u hp hu
    exact ((W.valid p hp).owns_iff' hp).2 (by have := first_succ W hp; omega)
  have hinv : ∀ p u, p < procs dist → u < localN dist p → first dist p + u ≠ invalidG := fun p u hp hu => W.lt_invalid (owned_lt W hp hu)
  -- the local matchings
  obtain ⟨m1, e1, L0⟩ := forAll_ok (fun _ => 0) (N := procs dist) (f := fun p => ((sch c).visits p).foldlM (hemVisit? cfg (g p)) (m p))
    (Q := fun p m1 => ∃ T, LocalMatch dist inp g Wt cfg p (ord.Class c p) (m p) m1 T) (by
      intro p hp
      obtain ⟨m2, T, h1, h2⟩ := W.hem_visits (cfg := cfg) hW hp (hcl p hp) (fun u w _ h => hpr _ _ _ h rfl) ((sch c).visits p) (m p) (fun _ => none)
        (fun v hv => (hactive p _).1 ((hsch.visits p hp).mem_iff.1 (List.mem_map.2 ⟨v, hv, rfl⟩))) LocalMatch.start
      exact ⟨m2, h1, T, h2⟩)
  obtain ⟨T, L⟩ : ∃ T : Nat → Nat → Option Nat, ∀ p, p < procs dist → LocalMatch dist inp g Wt cfg p (ord.Class c p) (m p) (m1 p) (T p) := by
    have : ∀ p, ∃ T, p < procs dist → LocalMatch dist inp g Wt cfg p (ord.Class c p) (m p) (m1 p) T := by
      intro p
      by_cases hp : p < procs dist
      · obtain ⟨T, h⟩ := L0 p hp
        exact ⟨T, fun _ => h⟩
      · exact ⟨fun _ => none, fun h => absurd h hp⟩
    exact ⟨fun p => (this p).choose, fun p => (this p).choose_spec⟩
  -- the requests
  obtain ⟨rq, e2, hrq⟩ := forAll_ok [] (N := procs dist) (f := hemRequests? (procs dist) ord g m1 (sch c).ex)
    (Q := fun q rq => ∀ r, r ∈ rq ↔ r.pe < procs dist ∧ r.pe ≠ q ∧ ord.Class c r.pe r.theirs ∧
      r.mine < localN dist q ∧ first dist q + r.mine = m1 r.pe r.theirs ∧ (first dist q + r.mine, r.weight) ∈ (inp r.pe).neighbours r.theirs)
    (fun q hq => W.hem_requests O hc hsch.ex hq)
  have hreq : ∀ q, q < procs dist → ∀ r, r ∈ rq q → ∃ l, T r.pe r.theirs = some l ∧ (g r.pe).localToGlobal? l = some (first dist q + r.mine) := by
    intro q hq r hr
    obtain ⟨h1, h2, h3, h4, h5, h6⟩ := (hrq q hq r).1 hr
    have hu := hcl _ h1 _ h3
    cases hT : T r.pe r.theirs with
    | some l =>
      obtain ⟨_, _, _, v, w, a1, _, _, _, a2, _⟩ := (L _ h1).pair _ _ hT
      exact ⟨l, rfl, by rw [a1, h5, a2]⟩
    | none =>
      exfalso
      have self : m1 r.pe r.theirs ≠ first dist r.pe + r.theirs := by
        intro h
        rw [h] at h5
        exact h2 (hown q r.mine r.pe hq h4 (by rw [h5]; exact hown' _ _ h1 hu))
      by_cases hno : ∀ u, T r.pe u ≠ some r.theirs
      · have h7 := (L _ h1).same _ hT hno
        rcases I.later _ (owned_lt W h1 hu) (Nat.le_of_eq (hcolor _ h1 _ h3).symm) with h8 | h8
        · rw [W.glue_at _ h1 hu, ← h7, ← h5] at h8
          exact hinv _ _ hq h4 h8
        · rw [W.glue_at _ h1 hu, ← h7] at h8
          exact self h8
      · obtain ⟨u, hu2⟩ := not_forall.1 hno
        obtain ⟨_, _, _, v, w, a1, _, _, _, _, a2⟩ := (L _ h1).pair u _ (not_not.1 hu2)
        rw [(W.represents _ h1).own _ hu] at a1
        injection a1 with a1
        exact self (by rw [a2, a1])
  obtain ⟨res, e3, hres0⟩ := forAll_ok ([], fun _ => 0) (N := procs dist) (f := fun q => hemResolve? (g q) ((sch c).order q) (rq q) (m1 q))
    (Q := fun q s => ∃ A, Resolved dist q (rq q) (m1 q) s.1 s.2 A) (by
      intro q hq
      obtain ⟨answers, m2, A, h1, h2⟩ := W.hem_resolve hq (hsmall q hq) (m := m1 q) (rq := rq q) (fun r hr => by
        obtain ⟨h1, h2, h3, h4, h5, h6⟩ := (hrq q hq r).1 hr
        have hu := hcl _ h1 _ h3
        refine ⟨h1, h2, hu, h4, ?_⟩
        have V := W.valid q hq
        rw [W.foreign_mem hq]
        refine ⟨?_, fun h => h2 (hown _ _ _ h1 hu h).symm⟩
        obtain ⟨q', w, hq', hq2, hq3⟩ := hsym (first dist r.pe + r.theirs) (first dist q + r.mine)
          ⟨r.pe, r.weight, h1, hown' _ _ h1 hu, by rw [Nat.add_sub_cancel_left]; exact h6⟩
        have := hown _ _ _ hq h4 hq2
        subst this
        rw [Nat.add_sub_cancel_left] at hq3
        exact V.neighbour_mem h4 hq3) (hsch.order q)
      exact ⟨_, h1, A, h2⟩)
  obtain ⟨A, hres⟩ : ∃ A : Nat → Nat → Nat → Nat → Prop, ∀ q, q < procs dist → Resolved dist q (rq q) (m1 q) (res q).1 (res q).2 (A q) := by
    have : ∀ q, ∃ A, q < procs dist → Resolved dist q (rq q) (m1 q) (res q).1 (res q).2 A := by
      intro q
      by_cases hq : q < procs dist
      · obtain ⟨A, h⟩ := hres0 q hq
        exact ⟨A, fun _ => h⟩
      · exact ⟨fun _ _ _ => False, fun h => absurd h hq⟩
    exact ⟨fun p => (this p).choose, fun p => (this p).choose_spec⟩
  obtain ⟨m3, hm3⟩ : ∃ m3 : Nat → Nat → Nat, m3 = fun p => (((List.range (procs dist)).flatMap fun q => (res q).1).filter fun r =>
    decide (r.pe = p)).foldl hemRespond (res p).2 := ⟨_, rfl⟩
  have hmineN : ∀ q, q < procs dist → ∀ r, r ∈ rq q → r.mine ≠ invalidN := by
    intro q hq r hr
    have h1 := ((hrq q hq r).1 hr).2.2.2.1
    have h2 := hsmall q hq
    have h3 := (W.represents q hq).total
    unfold invalidN
    omega
  have rej : ∀ p x, (∃ r', r' ∈ (((List.range (procs dist)).flatMap fun q => (res q).1).filter fun r => decide (r.pe = p)) ∧ r'.mine = invalidN ∧
      r'.theirs = x) ↔ ∃ q r, q < procs dist ∧ r ∈ rq q ∧ r.pe = p ∧ r.theirs = x ∧ ¬ A q r.mine p x := by
    intro p x
    constructor
    · rintro ⟨r', h1, h2, h3⟩
      obtain ⟨h1, h4⟩ := List.mem_filter.1 h1
      rw [decide_eq_true_iff] at h4
      obtain ⟨q, hq, h1⟩ := List.mem_flatMap.1 h1
      have hq := List.mem_range.1 hq
      obtain ⟨r, hr, h5⟩ := (hres q hq).only r' h1
      rcases h5 with ⟨_, rfl⟩ | ⟨h5, rfl⟩
      · exact absurd h2 (hmineN q hq _ hr)
      · dsimp only at h3 h4
        subst h3
        subst h4
        exact ⟨q, r, hq, hr, rfl, rfl, h5⟩
    · rintro ⟨q, r, hq, hr, rfl, rfl, h⟩
      exact ⟨_, List.mem_filter.2 ⟨List.mem_flatMap.2 ⟨q, List.mem_range.2 hq, ((hres q hq).answer r hr).2 h⟩, by rw [decide_eq_true_iff]⟩, rfl, rfl⟩
  have m3_rej : ∀ p x, (∃ q r, q < procs dist ∧ r ∈ rq q ∧ r.pe = p ∧ r.theirs = x ∧ ¬ A q r.mine p x) → m3 p x = invalidG := by
    intro p x h
    rw [hm3]
    exact (respond_fold _ _ x).1 ((rej p x).2 h)
  have m3_eq : ∀ p x, (¬ ∃ q r, q < procs dist ∧ r ∈ rq q ∧ r.pe = p ∧ r.theirs = x ∧ ¬ A q r.mine p x) → m3 p x = (res p).2 x := by
    intro p x h
    rw [hm3]
    exact (respond_fold _ _ x).2 fun h' => h ((rej p x).1 h')
  -- a node that asks no other process
  have m3_none : ∀ p, p < procs dist → ∀ x, T p x = none → m3 p x = (res p).2 x := by
    intro p hp x hT
    refine m3_eq p x ?_
    rintro ⟨q, r, hq, hr, rfl, rfl, _⟩
    obtain ⟨l, h, _⟩ := hreq q hq r hr
    rw [hT] at h
    cases h
  -- the pairs
  let P : Nat → Nat → Prop := fun a v => ∃ p u l, p < procs dist ∧ a = first dist p + u ∧ T p u = some l ∧ (g p).localToGlobal? l = some v ∧
    ∀ q, q ≠ p → Owns dist q v → A q (v - first dist q) p u
  have m3_pair : ∀ p u l v, p < procs dist → T p u = some l → (g p).localToGlobal? l = some v →
      (∀ q, q ≠ p → Owns dist q v → A q (v - first dist q) p u) → m3 p u = v := by
    intro p u l v hp hT hl hA
    obtain ⟨h1, _, _, v', w, h2, _, _, _, h3, _⟩ := (L p hp).pair u l hT
    rw [hl] at h2
    injection h2 with h2
    subst h2
    rw [m3_eq p u ?_, (hres p hp).same u ?_, h3]
    · intro p' u' h
      exact W.lt_invalid (W.known_lt hp hl) (h3.symm.trans ((hres p hp).free _ _ _ h))
    · rintro ⟨q, r, hq, hr, rfl, rfl, h⟩
      obtain ⟨l', h4, h5⟩ := hreq q hq r hr
      rw [hT] at h4
      injection h4 with h4
      subst h4
      rw [hl] at h5
      injection h5 with h5
      obtain ⟨_, hne, _, hmine, _⟩ := (hrq q hq r).1 hr
      have := hA q (Ne.symm hne) (by rw [h5]; exact hown' _ _ hq hmine)
      rw [h5, Nat.add_sub_cancel_left] at this
      exact h this
  have split : ∀ v, v < globalN dist → ∃ q x, q < procs dist ∧ x < localN dist q ∧ v = first dist q + x := fun v hv => owner_split W hv
  -- the neighbour of a pair
  have m3_target : ∀ p u l q x, p < procs dist → q < procs dist → x < localN dist q → T p u = some l → (g p).localToGlobal? l = some (first dist q + x) →
      (∀ q', q' ≠ p → Owns dist q' (first dist q + x) → A q' (first dist q + x - first dist q') p u) →
      m q x = invalidG ∧ T q x = none ∧ m3 q x = first dist q + x ∧ (q = p → x = l) ∧ (q ≠ p → A q x p u) := by
    intro p u l q x hp hq hx hT hl hA
    obtain ⟨h1, _, h1b, v', w, h2, _, _, _, _, h3⟩ := (L p hp).pair u l hT
    rw [hl] at h2
    injection h2 with h2
    subst h2
    by_cases hqp : q = p
    · subst hqp
      have R := W.represents q hq
      have h4 := R.inverse _ _ (lt_total hl) hl
      have h5 := R.inverse _ _ (lt_total (R.own x hx)) (R.own x hx)
      rw [h4] at h5
      injection h5 with h5
      subst h5
      have h6 := (L q hq).apart u _ hT
      refine ⟨h1b, h6, ?_, fun _ => rfl, fun h => absurd rfl h⟩
      rw [m3_none q hq _ h6, (hres q hq).same _ ?_, h3]
      intro p' u' h
      exact hinv _ _ hq hx (h3.symm.trans ((hres q hq).free _ _ _ h))
    · have hA1 := hA q hqp (hown' _ _ hq hx)
      rw [Nat.add_sub_cancel_left] at hA1
      obtain ⟨h4, _, h5⟩ := (L q hq).unmatched W hq ((hres q hq).free _ _ _ hA1)
      refine ⟨h5, h4, ?_, fun h => absurd h hqp, fun _ => hA1⟩
      rw [m3_none q hq _ h4, (hres q hq).accepted _ _ _ hA1]
  have hP : ∀ a v, P a v → a < globalN dist ∧ v < globalN dist ∧ glue dist m a = invalidG ∧ glue dist m v = invalidG ∧ color a = c ∧
      Light cfg Wt a v ∧ ∃ w, 0 < w ∧ (a, v, w) ∈ edges dist inp := by
    rintro a v ⟨p, u, l, hp, rfl, hT, hl, hA⟩
    obtain ⟨h1, h1a, h1b, v', w, h2, h3, h4, h5, _⟩ := (L p hp).pair u l hT
    rw [hl] at h2
    injection h2 with h2
    subst h2
    have hu := hcl p hp u h1
    have hv := W.known_lt hp hl
    refine ⟨owned_lt W hp hu, hv, by rw [W.glue_at _ hp hu, h1a], ?_, hcolor p hp u h1, h5, w, h4, h3⟩
    obtain ⟨q, x, hq, hx, rfl⟩ := split v hv
    rw [W.glue_at _ hq hx]
    exact (m3_target p u l q x hp hq hx hT hl hA).1
  have inj : ∀ a a' v, P a v → P a' v → a = a' := by
    rintro a a' v ⟨p, u, l, hp, rfl, hT, hl, hA⟩ ⟨p', u', l', hp', rfl, hT', hl', hA'⟩
    obtain ⟨q, x, hq, hx, rfl⟩ := split v (W.known_lt hp hl)
    obtain ⟨_, _, _, b1, b2⟩ := m3_target p u l q x hp hq hx hT hl hA
    obtain ⟨_, _, _, b1', b2'⟩ := m3_target p' u' l' q x hp' hq hx hT' hl' hA'
    have clash : ∀ (p0 u0 l0 p1 u1 : Nat), q = p0 → p0 < procs dist → T p0 u0 = some l0 → x = l0 → A q x p1 u1 → False := by
      intro p0 u0 l0 p1 u1 e hp0 hT0 ex hA0
      subst e
      subst ex
      obtain ⟨_, _, _, v, w, h2, _, _, _, _, h3⟩ := (L q hq).pair u0 x hT0
      exact W.lt_invalid (W.known_lt hq h2) (h3.symm.trans ((hres q hq).free _ _ _ hA0))
    by_cases hqp : q = p <;> by_cases hqp' : q = p'
    · have e1 := b1 hqp
      have e2 := b1' hqp'
      subst hqp
      subst hqp'
      subst e1
      subst e2
      rw [(L q hq).inj _ _ _ hT hT']
    · exact (clash p u l p' u' hqp hp hT (b1 hqp) (b2' hqp')).elim
    · exact (clash p' u' l' p u hqp' hp' hT' (b1' hqp') (b2 hqp)).elim
    · obtain ⟨e1, e2⟩ := (hres q hq).one _ _ _ _ _ (b2 hqp) (b2' hqp')
      rw [e1, e2]
  have s2' : ∀ p x, p < procs dist → x < localN dist p → (∀ v, ¬ P (first dist p + x) v) → (∀ b, ¬ P b (first dist p + x)) → m3 p x = m p x := by
    intro p x hp hx n1 n2
    cases hT : T p x with
    | some l =>
      obtain ⟨h1, h1a, _, v, w, h2, h3, _, _, h4, _⟩ := (L p hp).pair x l hT
      rw [h1a]
      refine m3_rej p x ?_
      by_contra hno
      refine n1 v ⟨p, x, l, hp, rfl, hT, h2, fun q hne hq => ?_⟩
      by_contra hA
      have hql := hq.lt
      have hb := ((W.valid p hp).owns_iff' hql).1 hq
      have hfs := first_succ W hql
      have hve : first dist q + (v - first dist q) = v := by omega
      refine hno ⟨q, ⟨p, v - first dist q, x, w⟩, hql, (hrq q hql _).2 ⟨hp, Ne.symm hne, h1, ?_, ?_, ?_⟩, rfl, rfl, hA⟩
      · show v - first dist q < localN dist q
        omega
      · show first dist q + (v - first dist q) = m1 p x
        rw [hve, h4]
      · show (first dist q + (v - first dist q), w) ∈ (inp p).neighbours x
        rw [hve]
        exact edges_neighbours W hp hx h3
    | none =>
      rw [m3_none p hp x hT, (hres p hp).same x ?_, (L p hp).same x hT ?_]
      · intro u hu
        refine n2 (first dist p + u) ⟨p, u, x, hp, rfl, hu, (W.represents p hp).own x hx, fun q hne hq => ?_⟩
        exact absurd (hown _ _ _ hp hx hq) hne
      · intro p' u' hA
        obtain ⟨r, hr, rfl, rfl, rfl⟩ := (hres p hp).request _ _ _ hA
        obtain ⟨l, h1, h2⟩ := hreq p hp r hr
        refine n2 (first dist r.pe + r.theirs) ⟨r.pe, r.theirs, l, ((hrq p hp r).1 hr).1, rfl, h1, h2, fun q hne hq => ?_⟩
        have := hown _ _ _ hp hx hq
        subst this
        rw [Nat.add_sub_cancel_left]
        exact hA
  -- the messages
  obtain ⟨nodes, e4, hnodes⟩ := forAll_ok [] (N := procs dist) (f := fun p => hemNodes? (g p)
      ((List.range' (ord.start p c) (ord.start p (c + 1) - ord.start p c)).map (ord.node p)) (m3 p) (res p).1)
    (Q := fun p nodes => (∀ u, ord.Class c p u → m3 p u ≠ invalidG → u ∈ nodes) ∧
      (∀ u l, ord.Class c p u → l < localN dist p → m3 p u = first dist p + l → l ∈ nodes) ∧
      (∀ r, r ∈ (res p).1 → r.mine ≠ invalidN → r.mine ∈ nodes) ∧ ∀ y, y ∈ nodes → y < localN dist p) (by
      intro p hp
      obtain ⟨nodes, h1, h2, h3, h4, h5⟩ := W.hem_nodes hp (active := (List.range' (ord.start p c) (ord.start p (c + 1) - ord.start p c)).map (ord.node p))
        (fun u hu => hcl p hp u ((hactive p u).1 hu)) (m := m3 p) (answers := (res p).1) (fun r' hr' => by
          obtain ⟨r, hr, h⟩ := (hres p hp).only r' hr'
          rcases h with ⟨_, rfl⟩ | ⟨_, rfl⟩
          · exact Or.inr ((hrq p hp _).1 hr).2.2.2.1
          · exact Or.inl rfl)
      exact ⟨nodes, h1, fun u hu => h2 u ((hactive p u).2 hu), fun u l hu => h3 u l ((hactive p u).2 hu), h4, h5⟩)
  have sent : ∀ q x, q < procs dist → x < localN dist q → x ∉ nodes q → (∀ v, ¬ P (first dist q + x) v) ∧ ∀ b, ¬ P b (first dist q + x) := by
    intro q x hq hx hno
    refine ⟨?_, ?_⟩
    · rintro v ⟨p, u, l, hp, e, hT, hl, hA⟩
      have h1 := ((L p hp).pair u l hT).1
      have hqp := hown q x p hq hx (by rw [e]; exact hown' _ _ hp (hcl p hp u h1))
      subst hqp
      have : x = u := by omega
      subst this
      exact hno ((hnodes p hp).1 x h1 (by rw [m3_pair p x l v hp hT hl hA]; exact W.lt_invalid (W.known_lt hp hl)))
    · rintro b ⟨p, u, l, hp, rfl, hT, hl, hA⟩
      obtain ⟨_, _, _, b1, b2⟩ := m3_target p u l q x hp hq hx hT hl hA
      by_cases hqp : q = p
      · subst hqp
        exact hno ((hnodes q hq).2.1 u x ((L q hq).pair u l hT).1 hx (m3_pair q u l _ hq hT hl hA))
      · have hA1 := b2 hqp
        obtain ⟨r, hr, rfl, rfl, rfl⟩ := (hres q hq).request _ _ _ hA1
        exact hno ((hnodes q hq).2.2.1 r (((hres q hq).answer r hr).1 hA1) (hmineN q hq r hr))
  obtain ⟨msgs, e5, hmsgs⟩ := forAll_ok [] (N := procs dist) (f := fun p => hemMessages? (g p) (nodes p) (m3 p))
    (Q := fun p ms => hemMessages? (g p) (nodes p) (m3 p) = some ms) (by
      intro p hp
      have : ∀ u, ∃ its, u ∈ nodes p → toPeMessages? (g p) (fun _ => true) (fun u _ => (u, m3 p u)) u = some its := by
        intro u
        by_cases hu : u ∈ nodes p
        · obtain ⟨its, h, _⟩ := W.pe_messages hp (fun _ => true) (fun u _ => (u, m3 p u)) ((hnodes p hp).2.2.2 u hu)
          exact ⟨its, fun _ => h⟩
        · exact ⟨[], fun h => absurd h hu⟩
      choose F hF using this
      unfold hemMessages?
      rw [mapM_some (g := F) hF]
      exact ⟨_, rfl, rfl⟩)
  obtain ⟨m4, e6, hm4⟩ := forAll_ok (fun _ => 0) (N := procs dist) (f := fun p => receive? (g p) (g p).totalN ((sch c).shuffle p)
      ((List.range (procs dist)).map fun q => (q, (msgs q).filterMap fun x => if x.1 = p then some x.2 else none)) (m3 p))
    (Q := fun p arr => ∀ l v q, (g p).localToGlobal? l = some v → Owns dist q v →
        (q ≠ p → v - first dist q ∈ nodes q → arr l = m3 q (v - first dist q)) ∧ (q = p ∨ v - first dist q ∉ nodes q → arr l = m3 p l))
    (fun p hp => W.list_sync hsym (fun p hp => (hnodes p hp).2.2.2) m3 hmsgs (hsch.shuffle p) hp (m3 p))
  have hglue : ∀ p x, p < procs dist → x < localN dist p → glue dist m4 (first dist p + x) = m3 p x := by
    intro p x hp hx
    rw [W.glue_at _ hp hx]
    exact (hm4 p hp x _ p ((W.represents p hp).own x hx) (hown' _ _ hp hx)).2 (Or.inl rfl)
  refine ⟨m4, ?_, I.step W hP inj ?_ ?_, ?_⟩
  · unfold hemColor?
    rw [e1, Option.bind_some, e2, Option.bind_some, e3, Option.bind_some]
    subst hm3
    dsimp only at e4 e5 e6 ⊢
    rw [e4, Option.bind_some, e5, Option.bind_some, e6]
  · rintro a v ⟨p, u, l, hp, rfl, hT, hl, hA⟩
    obtain ⟨q, x, hq, hx, rfl⟩ := split v (W.known_lt hp hl)
    rw [hglue p u hp (hcl p hp u ((L p hp).pair u l hT).1), hglue q x hq hx]
    exact ⟨m3_pair p u l _ hp hT hl hA, (m3_target p u l q x hp hq hx hT hl hA).2.2.1⟩
  · intro a ha n1 n2
    obtain ⟨p, x, hp, hx, rfl⟩ := split a ha
    rw [hglue p x hp hx, W.glue_at _ hp hx]
    exact s2' p x hp hx n1 n2
  · intro p hp l v hl hv
    obtain ⟨q, x, hq, hx, rfl⟩ := split v (W.known_lt hp hv)
    have hqp : q ≠ p := by
      rintro rfl
      have R := W.represents q hq
      have h4 := R.inverse _ _ (lt_total hv) hv
      have h5 := R.inverse _ _ (lt_total (R.own x hx)) (R.own x hx)
      rw [h4] at h5
      injection h5 with h5
      omega
    obtain ⟨h1, h2⟩ := hm4 p hp l _ q hv (hown' _ _ hq hx)
    rw [Nat.add_sub_cancel_left] at h1 h2
    rw [hglue q x hq hx]
    by_cases hin : x ∈ nodes q
    · exact Or.inl (h1 hqp hin)
    · rw [h2 (Or.inr hin)]
      obtain ⟨n1, n2⟩ := sent q x hq hx hin
      rw [s2' q x hq hx n1 n2]
      have hTl : T p l = none := by
        cases hT : T p l with
        | none => rfl
        | some l' =>
          have := hcl p hp l ((L p hp).pair l l' hT).1
          omega
      rw [m3_none p hp l hTl, (hres p hp).same l fun p' u' hA => by
        obtain ⟨r, hr, _, _, e⟩ := (hres p hp).request _ _ _ hA
        have := ((hrq p hp r).1 hr).2.2.2.1
        omega]
      have hK := K p hp l _ hl hv
      rw [W.glue_at _ hq hx] at hK
      by_cases hno : ∀ u, T p u ≠ some l
      · rw [(L p hp).same l hTl hno]
        exact hK
      · obtain ⟨u, hu⟩ := not_forall.1 hno
        obtain ⟨_, _, h3, v', w, h4, _, _, _, _, h5⟩ := (L p hp).pair u l (not_not.1 hu)
        rw [hv] at h4
        injection h4 with h4
        subst h4
        right
        refine ⟨?_, h5⟩
        rcases hK with hK | ⟨hK, _⟩
        · rw [← hK, h3]
        · exact hK

end Verif.Dist

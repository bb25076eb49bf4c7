import Verif.Dist.HEMSpec
import Verif.Dist.GlobalLPRun

/-!
# Heavy edge matching on one process
-/

namespace Verif.Dist
open Verif

variable {dist : List Nat} {inp : Nat → Input} {g : Nat → DGraph} {Wt : Nat → Int} {cfg : HEMConfig} {p : Nat} {act : Nat → Prop}
  {m m1 : Nat → Nat} {T : Nat → Option Nat}

/-- Two nodes may be matched. -/
def Light (cfg : HEMConfig) (Wt : Nat → Int) (a b : Nat) : Prop := cfg.ignoreLimit = false → Wt a + Wt b ≤ cfg.limit

theorem World.known_lt (W : World dist inp g) (hp : p < procs dist) {l v : Nat} (h : (g p).localToGlobal? l = some v) : v < globalN dist := by
  rcases (W.node hp h).2 with ⟨_, h1, rfl, _⟩ | ⟨_, _, _, q, _, h3, _⟩
  · exact owned_lt W hp h1
  · have V := W.valid p hp
    have hq := h3.lt
    have := (V.owns_iff' hq).1 h3
    have h5 := first_succ W hq
    have := owned_lt W hq (u := v - first dist q) (by omega)
    omega

theorem World.lt_invalid (W : World dist inp g) {a : Nat} (h : a < globalN dist) : a ≠ invalidG := by
  have := (W.valid 0 W.some_process).bound
  unfold globalN procs at h
  unfold invalidG
  omega

/-- The matching `m1` of process `p` while nodes for which `act` holds are matched; `m` is the matching before, and `T u` the neighbour that
is matched with `u`. -/
structure LocalMatch (dist : List Nat) (inp : Nat → Input) (g : Nat → DGraph) (Wt : Nat → Int) (cfg : HEMConfig) (p : Nat) (act : Nat → Prop)
    (m m1 : Nat → Nat) (T : Nat → Option Nat) : Prop where
  pair : ∀ u l, T u = some l → act u ∧ m u = invalidG ∧ m l = invalidG ∧ ∃ v w, (g p).localToGlobal? l = some v ∧
    (first dist p + u, v, w) ∈ edges dist inp ∧ 0 < w ∧ Light cfg Wt (first dist p + u) v ∧ m1 u = v ∧ m1 l = v
  inj : ∀ u u' l, T u = some l → T u' = some l → u = u'
  apart : ∀ u l, T u = some l → T l = none
  same : ∀ x, T x = none → (∀ u, T u ≠ some x) → m1 x = m x

theorem LocalMatch.start : LocalMatch dist inp g Wt cfg p act m m fun _ => none :=
  ⟨fun _ _ h => (by cases h), fun _ _ _ h => (by cases h), fun _ _ _ => rfl, fun _ _ _ => rfl⟩

theorem LocalMatch.unmatched (W : World dist inp g) (hp : p < procs dist) (L : LocalMatch dist inp g Wt cfg p act m m1 T) {x : Nat}
    (hx : m1 x = invalidG) : T x = none ∧ (∀ u, T u ≠ some x) ∧ m x = invalidG := by
  have h1 : T x = none := by
    cases h : T x with
    | none => rfl
    | some l =>
      obtain ⟨_, _, _, v, w, h1, _, _, _, h2, _⟩ := L.pair x l h
      exact absurd (h2.symm.trans hx) (W.lt_invalid (W.known_lt hp h1))
  have h2 : ∀ u, T u ≠ some x := by
    intro u h
    obtain ⟨_, _, _, v, w, h1, _, _, _, _, h2⟩ := L.pair u x h
    exact W.lt_invalid (W.known_lt hp h1) (h2.symm.trans hx)
  exact ⟨h1, h2, by rw [← L.same x h1 h2, hx]⟩

theorem hem_pick {gr : DGraph} {stale : Nat → Bool} {uw : Int} : ∀ (adj : List (Nat × Int)) (s : Nat × Int),
    (∀ x, x ∈ adj → ∃ vw, gr.nodeWeight? x.1 = some vw) →
    ∃ b, adj.foldlM (hemPick? cfg gr m stale uw) s = some b ∧
      (b = s ∨ b ∈ adj ∧ ∀ vw, gr.nodeWeight? b.1 = some vw → cfg.ignoreLimit = false → uw + vw ≤ cfg.limit)
  | [], s, _ => ⟨s, rfl, Or.inl rfl⟩
  | x :: adj, s, h => by
    obtain ⟨vw, hvw⟩ := h x List.mem_cons_self
    have key : ∃ s', hemPick? cfg gr m stale uw s x = some s' ∧
        (s' = s ∨ s' = x ∧ (cfg.ignoreLimit = false → uw + vw ≤ cfg.limit)) := by
      unfold hemPick?
      by_cases h1 : m x.1 ≠ invalidG ∧ stale x.1 = false
      · exact ⟨s, if_pos h1, Or.inl rfl⟩
      · rw [if_neg h1, hvw, Option.map_some]
        by_cases h2 : (uw + vw > cfg.limit ∧ cfg.ignoreLimit = false) ∨ x.2 < s.2
        · exact ⟨s, by rw [if_pos h2], Or.inl rfl⟩
        · exact ⟨x, by rw [if_neg h2], Or.inr ⟨rfl, fun h3 => by
            by_contra h4
            exact h2 (Or.inl ⟨by omega, h3⟩)⟩⟩
    obtain ⟨s', h1, h2⟩ := key
    obtain ⟨b, h3, h4⟩ := hem_pick adj s' fun y hy => h y (List.mem_cons_of_mem _ hy)
    refine ⟨b, by rw [List.foldlM_cons, h1]; exact h3, ?_⟩
    rcases h4 with rfl | ⟨h4, h5⟩
    · rcases h2 with rfl | ⟨rfl, h2⟩
      · exact Or.inl rfl
      · exact Or.inr ⟨List.mem_cons_self, fun vw' h6 => by
          rw [hvw] at h6
          injection h6 with h6
          subst h6
          exact h2⟩
    · exact Or.inr ⟨List.mem_cons_of_mem _ h4, h5⟩

/-- One node. -/
theorem World.hem_visit (W : World dist inp g) (hW : KnowsWeights dist g Wt) (hp : p < procs dist) (hlt : ∀ u, act u → u < localN dist p)
    (hloop : ∀ u w, act u → (first dist p + u, first dist p + u, w) ∉ edges dist inp) {v : HEMVisit} (hv : act v.node)
    (L : LocalMatch dist inp g Wt cfg p act m m1 T) :
    ∃ m2 T', hemVisit? cfg (g p) m1 v = some m2 ∧ LocalMatch dist inp g Wt cfg p act m m2 T' := by
  have R := W.represents p hp
  unfold hemVisit?
  by_cases h1 : m1 v.node ≠ invalidG
  · exact ⟨m1, T, if_pos h1, L⟩
  rw [if_neg h1]
  have h1 : m1 v.node = invalidG := by simpa using h1
  have hu := hlt _ hv
  have hown := R.own _ hu
  rw [hW p hp _ _ hown, Option.bind_some]
  obtain ⟨adj, h2, h3⟩ := R.neighbours _ hu
  have h4 := (mapM_mem h3).1
  rw [h2, Option.bind_some]
  obtain ⟨b, h5, h6⟩ := hem_pick (cfg := cfg) (gr := g p) (m := m1) (stale := v.stale) (uw := Wt (first dist p + v.node)) adj (0, 0) fun x hx => by
    obtain ⟨y, _, hy⟩ := h4 x hx
    obtain ⟨a, ha, _⟩ := Option.map_eq_some_iff.1 hy
    exact ⟨_, hW p hp _ _ ha⟩
  rw [h5, Option.bind_some]
  by_cases h7 : b.2 > 0
  swap
  · rw [if_neg h7]; exact ⟨m1, T, rfl, L⟩
  rw [if_pos h7]
  rcases h6 with rfl | ⟨hb, hlight⟩
  · exact absurd h7 (by decide)
  obtain ⟨y, hy0, hy⟩ := h4 b hb
  obtain ⟨t, ht, rfl⟩ := Option.map_eq_some_iff.1 hy
  rw [ht, Option.map_some]
  by_cases h8 : m1 b.1 = invalidG ∧ v.fail = false
  swap
  · rw [if_neg h8]; exact ⟨m1, T, rfl, L⟩
  rw [if_pos h8]
  have hed := mem_edges hp hu hy0
  have hne : b.1 ≠ v.node := by
    intro e
    rw [e, hown] at ht
    injection ht with ht
    exact hloop _ b.2 hv (by rw [← ht] at hed; exact hed)
  obtain ⟨u1, u2, u3⟩ := L.unmatched W hp h1
  obtain ⟨b1, b2, b3⟩ := L.unmatched W hp h8.1
  have hT : ∀ x l, upd T v.node (some b.1) x = some l → (x = v.node ∧ l = b.1) ∨ (x ≠ v.node ∧ T x = some l ∧ x ≠ b.1 ∧ l ≠ v.node ∧ l ≠ b.1) := by
    intro x l hx
    by_cases e : x = v.node
    · subst e
      rw [upd_same] at hx
      injection hx with hx
      exact Or.inl ⟨rfl, hx.symm⟩
    · rw [upd_ne _ _ e] at hx
      refine Or.inr ⟨e, hx, fun e' => ?_, fun e' => u2 x (by rw [hx, e']), fun e' => b2 x (by rw [hx, e'])⟩
      rw [e', b1] at hx
      cases hx
  refine ⟨_, upd T v.node (some b.1), rfl, ⟨fun x l hx => ?_, fun x x' l hx hx' => ?_, fun x l hx => ?_, fun x hx hno => ?_⟩⟩
  · rcases hT x l hx with ⟨rfl, rfl⟩ | ⟨e1, e2, e3, e4, e5⟩
    · exact ⟨hv, u3, b3, t, b.2, ht, hed, h7, fun hi => hlight _ (hW p hp _ _ ht) hi, upd_same _ _ _, by rw [upd_ne _ _ hne, upd_same]⟩
    · obtain ⟨c1, c2, c3, v', w, c4, c5, c6, c7, c8, c9⟩ := L.pair x l e2
      exact ⟨c1, c2, c3, v', w, c4, c5, c6, c7, by rw [upd_ne _ _ e1, upd_ne _ _ e3, c8], by rw [upd_ne _ _ e4, upd_ne _ _ e5, c9]⟩
  · rcases hT x l hx with ⟨rfl, rfl⟩ | ⟨e1, e2, e3, e4, e5⟩ <;> rcases hT x' _ hx' with ⟨rfl, f⟩ | ⟨f1, f2, f3, f4, f5⟩
    · rfl
    · exact absurd rfl f5
    · exact absurd f e5
    · exact L.inj _ _ _ e2 f2
  · rcases hT x l hx with ⟨rfl, rfl⟩ | ⟨e1, e2, e3, e4, e5⟩
    · rw [upd_ne _ _ hne, b1]
    · rw [upd_ne _ _ e4, L.apart _ _ e2]
  · have e1 : x ≠ v.node := by rintro rfl; rw [upd_same] at hx; cases hx
    have e2 : x ≠ b.1 := by rintro rfl; exact hno v.node (upd_same _ _ _)
    rw [upd_ne _ _ e1] at hx
    rw [upd_ne _ _ e1, upd_ne _ _ e2]
    refine L.same x hx fun u hu' => ?_
    by_cases e : u = v.node
    · rw [e, u1] at hu'; cases hu'
    · exact hno u (by rw [upd_ne _ _ e]; exact hu')

/-- All nodes of a colour. -/
theorem World.hem_visits (W : World dist inp g) (hW : KnowsWeights dist g Wt) (hp : p < procs dist) (hlt : ∀ u, act u → u < localN dist p)
    (hloop : ∀ u w, act u → (first dist p + u, first dist p + u, w) ∉ edges dist inp) : ∀ (vs : List HEMVisit) (m1 : Nat → Nat) (T : Nat → Option Nat),
    (∀ v, v ∈ vs → act v.node) → LocalMatch dist inp g Wt cfg p act m m1 T →
    ∃ m2 T', vs.foldlM (hemVisit? cfg (g p)) m1 = some m2 ∧ LocalMatch dist inp g Wt cfg p act m m2 T'
  | [], m1, T, _, L => ⟨m1, T, rfl, L⟩
  | v :: vs, m1, T, hvs, L => by
    obtain ⟨m2, T', h1, h2⟩ := W.hem_visit hW hp hlt hloop (hvs v List.mem_cons_self) L
    obtain ⟨m3, T'', h3, h4⟩ := World.hem_visits W hW hp hlt hloop vs m2 T' (fun v hv => hvs v (List.mem_cons_of_mem _ hv)) h2
    exact ⟨m3, T'', by rw [List.foldlM_cons, h1]; exact h3, h4⟩

end Verif.Dist

import Verif.LP.Refine
import Verif.LP.SelectLemmas
import Verif.Gains.Lemmas
import Verif.Partitioned.Props

/-! Lemmas for C39. -/

namespace Verif.LP
open Verif.Partitioned (Op PC weightOf replay)
open Finset (range mem_range)

/-! ## The rating map -/

theorem ratingIn_cons (d : Nat) (r : Int) (m : List (Nat × Int)) (c : Nat) :
    ratingIn ((d, r) :: m) c = if d = c then r else ratingIn m c := by
  unfold ratingIn
  rw [List.find?_cons]
  by_cases h : d = c
  · simp [h]
  · simp [h]

theorem addTo_keys : ∀ (m : List (Nat × Int)) (c : Nat) (w : Int) (d : Nat),
    d ∈ (addTo m c w).map Prod.fst ↔ d = c ∨ d ∈ m.map Prod.fst
  | [], c, w, d => by simp [addTo]
  | (a, r) :: m, c, w, d => by
    rw [addTo]
    by_cases h : a = c
    · rw [if_pos h]; simp only [List.map_cons, List.mem_cons, h]; grind
    · rw [if_neg h]
      simp only [List.map_cons, List.mem_cons, addTo_keys m c w d]; grind

theorem addTo_nodup : ∀ (m : List (Nat × Int)) (c : Nat) (w : Int), (m.map Prod.fst).Nodup →
    ((addTo m c w).map Prod.fst).Nodup
  | [], c, w, _ => by simp [addTo]
  | (a, r) :: m, c, w, h => by
    rw [List.map_cons, List.nodup_cons] at h
    rw [addTo]
    by_cases e : a = c
    · rw [if_pos e, List.map_cons, List.nodup_cons]; exact h
    · rw [if_neg e, List.map_cons, List.nodup_cons, addTo_keys]
      exact ⟨by rintro (h' | h'); exact e h'; exact h.1 h', addTo_nodup m c w h.2⟩

theorem addTo_rating : ∀ (m : List (Nat × Int)) (c : Nat) (w : Int) (d : Nat),
    ratingIn (addTo m c w) d = ratingIn m d + if d = c then w else 0
  | [], c, w, d => by
    rw [addTo, ratingIn_cons]
    by_cases h : d = c
    · rw [if_pos h.symm, if_pos h]; simp [ratingIn]
    · rw [if_neg (Ne.symm h), if_neg h]; simp [ratingIn]
  | (a, r) :: m, c, w, d => by
    rw [addTo]
    by_cases e : a = c
    · rw [if_pos e, ratingIn_cons, ratingIn_cons]
      by_cases h : a = d
      · rw [if_pos h, if_pos h, if_pos (by rw [← h, e])]
      · rw [if_neg h, if_neg h, if_neg (by rw [← e]; exact Ne.symm h), add_zero]
    · rw [if_neg e, ratingIn_cons, ratingIn_cons, addTo_rating m c w d]
      by_cases h : a = d
      · rw [if_pos h, if_pos h, if_neg (by rw [← h]; exact e), add_zero]
      · rw [if_neg h, if_neg h]

theorem ratingIn_mem {m : List (Nat × Int)} (h : (m.map Prod.fst).Nodup) {c : Nat} {r : Int}
    (hm : (c, r) ∈ m) : ratingIn m c = r := by
  induction m with
  | nil => cases hm
  | cons a m ih =>
    obtain ⟨d, x⟩ := a
    rw [List.map_cons, List.nodup_cons] at h
    rw [ratingIn_cons]
    rcases List.mem_cons.1 hm with hm | hm
    · cases hm; rw [if_pos rfl]
    · rw [if_neg, ih h.2 hm]
      intro e
      exact h.1 (List.mem_map.2 ⟨_, hm, e.symm⟩)

theorem ratingIn_not_mem {m : List (Nat × Int)} {c : Nat} (h : c ∉ m.map Prod.fst) : ratingIn m c = 0 := by
  induction m with
  | nil => rfl
  | cons a m ih =>
    obtain ⟨d, x⟩ := a
    rw [List.map_cons, List.mem_cons, not_or] at h
    rw [ratingIn_cons, if_neg (Ne.symm h.1), ih h.2]

structure RateInv (adj : List (Nat × Int)) (accept : Nat → Bool) (cl : Nat → Nat) (m : List (Nat × Int)) :
    Prop where
  nodup : (m.map Prod.fst).Nodup
  keys : ∀ c, c ∈ m.map Prod.fst ↔ ∃ e ∈ adj, accept e.1 = true ∧ cl e.1 = c
  rating : ∀ c, ratingIn m c = (adj.map fun e => if accept e.1 = true ∧ cl e.1 = c then e.2 else 0).sum

theorem rate_spec (adj : List (Nat × Int)) (lim : Nat) (accept : Nat → Bool) (cl : Nat → Nat) :
    RateInv (adj.take lim) accept cl (rate adj lim accept cl) := by
  have key : ∀ (l done : List (Nat × Int)) (m : List (Nat × Int)), RateInv done accept cl m →
      RateInv (done ++ l) accept cl
        (l.foldl (fun m e => if accept e.1 then addTo m (cl e.1) e.2 else m) m) := by
    intro l
    induction l with
    | nil => intro done m h; rw [List.append_nil]; exact h
    | cons e l ih =>
      intro done m h
      rw [List.foldl_cons, show done ++ e :: l = (done ++ [e]) ++ l by simp]
      refine ih _ _ ?_
      by_cases ha : accept e.1 = true
      · rw [if_pos ha]
        refine ⟨addTo_nodup _ _ _ h.nodup, fun c => ?_, fun c => ?_⟩
        · rw [addTo_keys, h.keys]
          constructor
          · rintro (rfl | ⟨e', he', h'⟩)
            · exact ⟨e, by simp, ha, rfl⟩
            · exact ⟨e', List.mem_append_left _ he', h'⟩
          · rintro ⟨e', he', h1, h2⟩
            rcases List.mem_append.1 he' with he' | he'
            · exact Or.inr ⟨e', he', h1, h2⟩
            · rw [List.mem_singleton.1 he'] at h2
              exact Or.inl h2.symm
        · rw [addTo_rating, h.rating, List.map_append, List.sum_append]
          simp only [List.map_cons, List.map_nil, List.sum_cons, List.sum_nil, add_zero, ha, true_and]
          by_cases hc : c = cl e.1
          · rw [if_pos hc, if_pos hc.symm]
          · rw [if_neg hc, if_neg (Ne.symm hc)]
      · rw [if_neg ha]
        refine ⟨h.nodup, fun c => ?_, fun c => ?_⟩
        · rw [h.keys]
          constructor
          · rintro ⟨e', he', h'⟩
            exact ⟨e', List.mem_append_left _ he', h'⟩
          · rintro ⟨e', he', h1, h2⟩
            rcases List.mem_append.1 he' with he' | he'
            · exact ⟨e', he', h1, h2⟩
            · rw [List.mem_singleton.1 he'] at h1
              exact absurd h1 ha
        · rw [h.rating, List.map_append, List.sum_append]
          simp [ha]
  exact key (adj.take lim) [] [] ⟨List.nodup_nil, fun c => by simp, fun c => by simp [ratingIn]⟩

/-- A choice is the own cluster with gain 0, or an acceptable entry of the rating map with its rating. -/
theorem Picks.spec {rule : Rule} {x : Ctx} {m : List (Nat × Int)} {W : Nat → Int → Prop} {r : Choice}
    (h : Picks rule x m W r) :
    ((r.best = x.own ∧ r.gain = 0) ∨
      ((r.best, r.gain) ∈ m ∧ ∃ e : Entry, e.c = r.best ∧ e.r = r.gain ∧ W e.c e.w ∧ rule.fits x e = true)) ∧
    0 ≤ r.gain ∧
    ∀ c q, (c, q) ∈ m → ∃ e : Entry, e.c = c ∧ e.r = q ∧ W e.c e.w ∧
      (rule.fits x e = true → q ≤ r.gain) := by
  have key : ∀ (es : List Entry), entriesOf m es → (∀ e ∈ es, W e.c e.w) →
      (((r.best = x.own ∧ r.gain = 0) ∨ ∃ e ∈ es, e.c = r.best ∧ e.r = r.gain ∧ rule.fits x e = true) ∧
        0 ≤ r.gain ∧ ∀ e ∈ es, rule.fits x e = true → e.r ≤ r.gain) →
      ((r.best = x.own ∧ r.gain = 0) ∨
        ((r.best, r.gain) ∈ m ∧ ∃ e : Entry, e.c = r.best ∧ e.r = r.gain ∧ W e.c e.w ∧
          rule.fits x e = true)) ∧
      0 ≤ r.gain ∧
      ∀ c q, (c, q) ∈ m → ∃ e : Entry, e.c = c ∧ e.r = q ∧ W e.c e.w ∧
        (rule.fits x e = true → q ≤ r.gain) := by
    intro es hm hw ⟨h1, h2, h3⟩
    refine ⟨h1.imp_right ?_, h2, fun c q hc => ?_⟩
    · rintro ⟨e, he, a, b, d⟩
      refine ⟨?_, e, a, b, hw e he, d⟩
      have := hm.mem_iff.1 (List.mem_map.2 ⟨e, he, rfl⟩)
      rw [a, b] at this
      exact this
    · obtain ⟨e, he, heq⟩ := List.mem_map.1 (hm.mem_iff.2 hc)
      cases heq
      exact ⟨e, rfl, rfl, hw e he, h3 e he⟩
  cases h with
  | single es i j hm hw => exact key es hm hw (select_spec rule x es i j)
  | groups ratingOf gs i j hm hw =>
    refine key _ hm ?_ (selectGroups_spec rule x ratingOf gs i j)
    intro e he
    obtain ⟨g, hg, he⟩ := List.mem_flatMap.1 he
    rcases g with _ | ⟨es, i', j'⟩
    · cases he
    · exact hw _ hg es i' j' rfl e he

/-- The own cluster is always acceptable. -/
theorem fits_own (rule : Rule) (x : Ctx) (e : Entry) (h : e.c = x.own) : rule.fits x e = true := by
  cases rule with
  | refine _ => show fitsRefine x e = true; unfold fitsRefine; simp [h]
  | cluster _ comm => show fitsCluster x comm e = true; unfold fitsCluster; simp [h]

/-! ## Sequential visits -/

theorem visit_gain {c : Cfg} {s s' : Seq} {u : Nat} (h : Visit c s u s') :
    ∃ best gain, s' = (tryMove c s u (s.part u) best gain).1 ∧
      (best = s.part u ∨
        (∃ e ∈ (c.g.adj u).take c.lim, c.accept u e.1 = true ∧ s.part e.1 = best) ∧ 0 ≤ gain ∧
        gain = ratingIn (rate (c.g.adj u) c.lim (c.accept u) s.part) best -
          ratingIn (rate (c.g.adj u) c.lim (c.accept u) s.part) (s.part u)) := by
  obtain ⟨r, hr⟩ := h
  have hrate := rate_spec (c.g.adj u) c.lim (c.accept u) s.part
  obtain ⟨h1, h2, h3⟩ := hr.spec
  refine ⟨_, _, rfl, ?_⟩
  rcases h1 with ⟨h1, _⟩ | ⟨h1, _⟩
  · exact Or.inl h1
  · right
    have hkey : r.best ∈ (rate (c.g.adj u) c.lim (c.accept u) s.part).map Prod.fst :=
      List.mem_map.2 ⟨_, h1, rfl⟩
    refine ⟨(hrate.keys _).1 hkey, ?_, ?_⟩
    · by_cases hown : s.part u ∈ (rate (c.g.adj u) c.lim (c.accept u) s.part).map Prod.fst
      · obtain ⟨⟨d, q⟩, hd, hdu⟩ := List.mem_map.1 hown
        cases hdu
        rw [ratingIn_mem hrate.nodup hd]
        obtain ⟨e, he1, he2, _, he4⟩ := h3 _ _ hd
        have := he4 (fits_own _ _ _ he1)
        omega
      · rw [ratingIn_not_mem hown]; omega
    · rw [ratingIn_mem hrate.nodup h1]

theorem rate_conn (c : Cfg) (u : Nat) (p : Nat → Nat) (hlim : (c.g.adj u).length ≤ c.lim)
    (hacc : ∀ v, c.accept u v = true) (b : Nat) :
    ratingIn (rate (c.g.adj u) c.lim (c.accept u) p) b = c.g.conn u (fun v => p v = b) := by
  rw [(rate_spec (c.g.adj u) c.lim (c.accept u) p).rating, List.take_of_length_le hlim]
  unfold Graph.conn
  simp [hacc]

/-! ## Concurrent visits -/

/-- Node `v` has been in block `b` at some time: at the beginning, or by one of the moves `h`. -/
def Was (part0 : Nat → Option Nat) (h : List (Op × Bool)) (v b : Nat) : Prop :=
  part0 v = some b ∨ ∃ src mx, (Op.move v src b mx, true) ∈ h

/-- Block `b` is the block of an accepted neighbour of `u` at some time. -/
def Near (c : Cfg) (part0 : Nat → Option Nat) (h : List (Op × Bool)) (u b : Nat) : Prop :=
  ∃ e ∈ c.g.adj u, c.accept u e.1 = true ∧ Was part0 h e.1 b

theorem Was.mono {part0 : Nat → Option Nat} {h : List (Op × Bool)} {v b : Nat} (hw : Was part0 h v b)
    (o : List (Op × Bool)) : Was part0 (h ++ o) v b :=
  hw.imp_right fun ⟨s, m, hm⟩ => ⟨s, m, List.mem_append_left _ hm⟩

theorem Near.mono {c : Cfg} {part0 : Nat → Option Nat} {h : List (Op × Bool)} {u b : Nat}
    (hn : Near c part0 h u b) (o : List (Op × Bool)) : Near c part0 (h ++ o) u b :=
  let ⟨e, he, ha, hw⟩ := hn
  ⟨e, he, ha, hw.mono o⟩

/-- A thread inside a move. -/
def pcNear (c : Cfg) (part0 : Nat → Option Nat) (h : List (Op × Bool)) : PC → Prop
  | .moveLoad u _ b mx | .moveCas u _ b mx _ | .moveDec u _ b mx | .moveStore u _ b mx =>
    Near c part0 h u b ∧ mx = c.maxW b ∧ b < c.k
  | .idle => True
  | _ => False

structure Inv (c : Cfg) (T : Nat) (part0 : Nat → Option Nat) (s : State) : Prop where
  /-- searching threads are not inside an operation -/
  look : ∀ t, t < T → ∀ q, s.look t = some q → s.core.pc t = .idle ∧ q.u < c.g.n ∧
    s.core.part q.u = some q.own ∧ q.own < c.k ∧ (∀ e ∈ q.todo, e ∈ c.g.adj q.u) ∧
    ∀ e ∈ q.m, e.1 < c.k ∧ Near c part0 s.core.hist q.u e.1
  free : ∀ t, t < T → ∀ q, s.look t = some q → ∀ t', t' < T →
    (s.core.pc t').node? ≠ some q.u ∧ (t' ≠ t → ∀ q', s.look t' = some q' → q'.u ≠ q.u)
  pc : ∀ t, t < T → pcNear c part0 s.core.hist (s.core.pc t)
  was : ∀ v b, s.core.part v = some b → Was part0 s.core.hist v b
  range : ∀ v b, v < c.g.n → s.core.part v = some b → b < c.k
  hist : ∀ h1 u src dst mx h2, s.core.hist = h1 ++ (.move u src dst mx, true) :: h2 →
    Near c part0 h1 u dst ∧ mx = c.maxW dst
  moves : ∀ o ∈ s.core.hist, ∃ u src dst mx, o.1 = .move u src dst mx

/-- What one atomic step of a move does. -/
theorem core_step {c : Cfg} {part0 : Nat → Option Nat} {s : Partitioned.State} {t : Nat}
    (hpc : pcNear c part0 s.hist (s.pc t)) (hbusy : s.pc t ≠ .idle) :
    (∃ x, (s.next c.g.w t).pc = upd s.pc t x ∧
      (x = .idle ∨ x.node? = (s.pc t).node? ∧ pcNear c part0 s.hist x)) ∧
    (((s.next c.g.w t).part = s.part ∧
      ((s.next c.g.w t).hist = s.hist ∨
        ∃ u src dst mx, (s.next c.g.w t).hist = s.hist ++ [(.move u src dst mx, false)])) ∨
     ∃ u src dst mx, (s.pc t).node? = some u ∧ Near c part0 s.hist u dst ∧ mx = c.maxW dst ∧ dst < c.k ∧
      (s.next c.g.w t).part = upd s.part u (some dst) ∧
      (s.next c.g.w t).hist = s.hist ++ [(.move u src dst mx, true)]) := by
  unfold Partitioned.State.next
  split <;> rename_i h
  · exact absurd h hbusy
  · rw [h] at hpc ⊢
    exact ⟨⟨_, rfl, Or.inr ⟨rfl, hpc⟩⟩, Or.inl ⟨rfl, Or.inl rfl⟩⟩
  · rw [h] at hpc ⊢
    split
    · split
      · exact ⟨⟨_, rfl, Or.inr ⟨rfl, hpc⟩⟩, Or.inl ⟨rfl, Or.inl rfl⟩⟩
      · exact ⟨⟨_, rfl, Or.inr ⟨rfl, hpc⟩⟩, Or.inl ⟨rfl, Or.inl rfl⟩⟩
    · exact ⟨⟨_, rfl, Or.inl rfl⟩, Or.inl ⟨rfl, Or.inr ⟨_, _, _, _, rfl⟩⟩⟩
  · rw [h] at hpc ⊢
    exact ⟨⟨_, rfl, Or.inr ⟨rfl, hpc⟩⟩, Or.inl ⟨rfl, Or.inl rfl⟩⟩
  · rw [h] at hpc ⊢
    exact ⟨⟨_, rfl, Or.inl rfl⟩, Or.inr ⟨_, _, _, _, rfl, hpc.1, hpc.2.1, hpc.2.2, rfl, rfl⟩⟩
  all_goals rw [h] at hpc; exact hpc.elim

theorem pcNear.mono {c : Cfg} {part0 : Nat → Option Nat} {h : List (Op × Bool)} {pc : PC}
    (hp : pcNear c part0 h pc) (o : List (Op × Bool)) : pcNear c part0 (h ++ o) pc := by
  cases pc <;> first | trivial | exact hp.elim | exact ⟨hp.1.mono o, hp.2⟩

theorem append_cases {α : Type} {l h1 h2 : List α} {x y : α} (h : l ++ [x] = h1 ++ y :: h2) :
    (h1 = l ∧ y = x) ∨ ∃ h2', l = h1 ++ y :: h2' := by
  rcases List.eq_nil_or_concat h2 with rfl | ⟨h2', z, rfl⟩
  · have := List.append_inj' h rfl
    exact Or.inl ⟨this.1.symm, by have := this.2; simp at this; exact this.symm⟩
  · right
    refine ⟨h2', ?_⟩
    have h' : l ++ [x] = (h1 ++ y :: h2') ++ [z] := by rw [h]; simp
    exact (List.append_inj' h' rfl).1

theorem inv_step {c : Cfg} (hg : c.g.WF) {T : Nat} {part0 : Nat → Option Nat} {s s' : State}
    (h : Inv c T part0 s) (hs : Step c T s s') : Inv c T part0 s' := by
  cases hs with
  | start t u own ht hu hl hidle hp hfree =>
    refine ⟨fun t' ht' q hq => ?_, fun t' ht' q hq t'' ht'' => ?_, h.pc, h.was, h.range, h.hist, h.moves⟩
    · by_cases e : t' = t
      · subst e
        rw [show ({ s with look := upd s.look t' _ } : State).look t' = _ from upd_same ..] at hq
        cases hq
        exact ⟨hidle, hu, hp, h.range u own hu hp, fun e he => List.mem_of_mem_take he,
          fun e he => nomatch he⟩
      · rw [show ({ s with look := upd s.look t _ } : State).look t' = s.look t' from upd_ne _ _ e] at hq
        exact h.look t' ht' q hq
    · by_cases e : t' = t
      · subst e
        rw [show ({ s with look := upd s.look t' _ } : State).look t' = _ from upd_same ..] at hq
        cases hq
        refine ⟨(hfree t'' ht'').1, fun hne q' hq' => ?_⟩
        rw [show ({ s with look := upd s.look t' _ } : State).look t'' = s.look t'' from upd_ne _ _ hne] at hq'
        exact (hfree t'' ht'').2 q' hq'
      · rw [show ({ s with look := upd s.look t _ } : State).look t' = s.look t' from upd_ne _ _ e] at hq
        refine ⟨(h.free t' ht' q hq t'' ht'').1, fun hne q' hq' => ?_⟩
        by_cases e' : t'' = t
        · subst e'
          rw [show ({ s with look := upd s.look t'' _ } : State).look t'' = _ from upd_same ..] at hq'
          cases hq'
          exact Ne.symm ((hfree t' ht').2 q hq)
        · rw [show ({ s with look := upd s.look t _ } : State).look t'' = s.look t'' from upd_ne _ _ e'] at hq'
          exact (h.free t' ht' q hq t'' ht'').2 hne q' hq'
  | see t q l1 l2 e b ht hl htodo hb =>
    have hq := h.look t ht q hl
    refine ⟨fun t' ht' q1 hq1 => ?_, fun t' ht' q1 hq1 t'' ht'' => ?_, h.pc, h.was, h.range, h.hist, h.moves⟩
    · by_cases e1 : t' = t
      · subst e1
        rw [show ({ s with look := upd s.look t' _ } : State).look t' = _ from upd_same ..] at hq1
        cases hq1
        obtain ⟨a1, a2, a3, a4, a5, a6⟩ := hq
        have hmem : e ∈ c.g.adj q.u := a5 e (by rw [htodo]; simp)
        refine ⟨a1, a2, a3, a4, fun e' he' => a5 e' (by rw [htodo]; simp at he' ⊢; grind), fun e' he' => ?_⟩
        have he' : e' ∈ if c.accept q.u e.1 then addTo q.m b e.2 else q.m := he'
        show e'.1 < c.k ∧ Near c part0 s.core.hist q.u e'.1
        by_cases hacc : c.accept q.u e.1 = true
        · rw [if_pos hacc] at he'
          rcases (addTo_keys q.m b e.2 e'.1).1 (List.mem_map.2 ⟨_, he', rfl⟩) with he' | he'
          · rw [he']
            exact ⟨h.range _ _ (hg q.u a2 e hmem) hb, e, hmem, hacc, h.was _ _ hb⟩
          · obtain ⟨e'', he'', heq⟩ := List.mem_map.1 he'
            rw [← heq]
            exact a6 e'' he''
        · rw [if_neg hacc] at he'
          exact a6 e' he'
      · rw [show ({ s with look := upd s.look t _ } : State).look t' = s.look t' from upd_ne _ _ e1] at hq1
        exact h.look t' ht' q1 hq1
    · have hu : ∀ (m : List (Nat × Int)) (t' : Nat) (q' : Search),
          upd s.look t (some ⟨q.u, q.own, l1 ++ l2, m⟩) t' = some q' →
          ∃ q'', s.look t' = some q'' ∧ q''.u = q'.u := by
        intro m t' q' hq'
        by_cases e1 : t' = t
        · subst e1
          rw [upd_same] at hq'
          cases hq'
          exact ⟨q, hl, rfl⟩
        · rw [upd_ne _ _ e1] at hq'
          exact ⟨q', hq', rfl⟩
      obtain ⟨q2, hq2, he2⟩ := hu _ t' q1 hq1
      have hf := h.free t' ht' q2 hq2 t'' ht''
      rw [he2] at hf
      refine ⟨hf.1, fun hne q' hq' => ?_⟩
      obtain ⟨q3, hq3, he3⟩ := hu _ t'' q' hq'
      rw [← he3]
      exact hf.2 hne q3 hq3
  | giveUp t q ht hl => exact dropLook h t
  | keep t q ownW r ht hl htodo hr heq => exact dropLook h t
  | move t q ownW r ht hl htodo hr hne =>
    have hq := h.look t ht q hl
    obtain ⟨a1, a2, a3, a4, a5, a6⟩ := hq
    have hbest : (r.best, r.gain) ∈ q.m := by
      rcases hr.spec.1 with ⟨e, _⟩ | ⟨e, _⟩
      · exact absurd (by rw [a3, e]) hne
      · exact e
    have hn := (a6 _ hbest)
    have h' := dropLook h t
    refine ⟨fun t' ht' q' hq' => ?_, fun t' ht' q' hq' t'' ht'' => ?_, fun t' ht' => ?_, h.was, h.range,
      h.hist, h.moves⟩
    · have := h'.look t' ht' q' hq'
      have hne' : t' ≠ t := by
        rintro rfl
        rw [show (s.call t' _).look t' = none from upd_same ..] at hq'
        cases hq'
      refine ⟨?_, this.2⟩
      show upd s.core.pc t _ t' = .idle
      rw [upd_ne _ _ hne']
      exact this.1
    · have hne' : t' ≠ t := by
        rintro rfl
        rw [show (s.call t' _).look t' = none from upd_same ..] at hq'
        cases hq'
      refine ⟨?_, (h'.free t' ht' q' hq' t'' ht'').2⟩
      show (upd s.core.pc t _ t'').node? ≠ some q'.u
      by_cases e : t'' = t
      · subst e
        rw [upd_same]
        rw [show (s.call t'' _).look t' = s.look t' from upd_ne _ _ hne'] at hq'
        have := (h.free t'' ht'' q hl t' ht').2 hne' q' hq'
        intro he
        exact this (Option.some.inj he).symm
      · rw [upd_ne _ _ e]
        exact (h'.free t' ht' q' hq' t'' ht'').1
    · show pcNear c part0 s.core.hist (upd s.core.pc t _ t')
      by_cases e : t' = t
      · subst e
        rw [upd_same]
        exact ⟨hn.2, rfl, hn.1⟩
      · rw [upd_ne _ _ e]
        exact h.pc t' ht'
  | core t ht hbusy =>
    obtain ⟨⟨x, hx, hx'⟩, hrest⟩ := core_step (h.pc t ht) hbusy
    have hnotlook : ∀ q, s.look t ≠ some q := fun q hq => hbusy (h.look t ht q hq).1
    -- the history grows
    have hh : ∃ o, (s.core.next c.g.w t).hist = s.core.hist ++ o := by
      rcases hrest with ⟨_, hh | ⟨_, _, _, _, hh⟩⟩ | ⟨_, _, _, _, _, _, _, _, _, hh⟩
      · exact ⟨[], by rw [hh, List.append_nil]⟩
      · exact ⟨_, hh⟩
      · exact ⟨_, hh⟩
    obtain ⟨o, ho⟩ := hh
    -- the blocks of nodes that are searched for do not change
    have hpart : ∀ t', t' < T → ∀ q, s.look t' = some q →
        (s.core.next c.g.w t).part q.u = s.core.part q.u := by
      intro t' ht' q hq
      rcases hrest with ⟨hp, _⟩ | ⟨u, _, _, _, hu, _, _, _, hp, _⟩
      · rw [hp]
      · rw [hp, upd_ne]
        intro e
        exact (h.free t' ht' q hq t ht).1 (by rw [hu, e])
    have hnode : ∀ t', t' < T → ((s.core.next c.g.w t).pc t').node? = none ∨
        ((s.core.next c.g.w t).pc t').node? = (s.core.pc t').node? := by
      intro t' ht'
      rw [hx]
      by_cases e : t' = t
      · subst e
        rw [upd_same]
        rcases hx' with rfl | ⟨hx', _⟩
        · exact Or.inl rfl
        · exact Or.inr hx'
      · rw [upd_ne _ _ e]; exact Or.inr rfl
    refine ⟨fun t' ht' q hq => ?_, fun t' ht' q hq t'' ht'' => ?_, fun t' ht' => ?_, fun v b hv => ?_,
      fun v b hvn hv => ?_, fun h1 u src dst mx h2 he => ?_, fun op hop => ?_⟩
    · obtain ⟨a1, a2, a3, a4, a5, a6⟩ := h.look t' ht' q hq
      have hne : t' ≠ t := by rintro rfl; exact hnotlook q hq
      refine ⟨?_, a2, ?_, a4, a5, fun e he => ⟨(a6 e he).1, ?_⟩⟩
      · show (s.core.next c.g.w t).pc t' = .idle
        rw [hx, upd_ne _ _ hne]; exact a1
      · show (s.core.next c.g.w t).part q.u = _
        rw [hpart t' ht' q hq]; exact a3
      · show Near c part0 (s.core.next c.g.w t).hist q.u e.1
        rw [ho]; exact (a6 e he).2.mono o
    · refine ⟨?_, (h.free t' ht' q hq t'' ht'').2⟩
      show ((s.core.next c.g.w t).pc t'').node? ≠ some q.u
      rcases hnode t'' ht'' with e | e
      · rw [e]; intro h; cases h
      · rw [e]; exact (h.free t' ht' q hq t'' ht'').1
    · show pcNear c part0 (s.core.next c.g.w t).hist ((s.core.next c.g.w t).pc t')
      rw [hx, ho]
      by_cases e : t' = t
      · subst e
        rw [upd_same]
        rcases hx' with rfl | ⟨_, hx'⟩
        · trivial
        · exact hx'.mono o
      · rw [upd_ne _ _ e]; exact (h.pc t' ht').mono o
    · have hv : (s.core.next c.g.w t).part v = some b := hv
      show Was part0 (s.core.next c.g.w t).hist v b
      rcases hrest with ⟨hp, _⟩ | ⟨u, src, dst, mx, hu, _, _, _, hp, hh⟩
      · rw [hp] at hv
        rw [ho]
        exact (h.was v b hv).mono o
      · rw [hp] at hv
        by_cases e : v = u
        · subst e
          rw [upd_same] at hv
          cases hv
          rw [hh]
          exact Or.inr ⟨src, mx, by simp⟩
        · rw [upd_ne _ _ e] at hv
          rw [ho]
          exact (h.was v b hv).mono o
    · have hv : (s.core.next c.g.w t).part v = some b := hv
      rcases hrest with ⟨hp, _⟩ | ⟨u, src, dst, mx, hu, hn, _, hk, hp, hh⟩
      · rw [hp] at hv; exact h.range v b hvn hv
      · rw [hp] at hv
        by_cases e : v = u
        · subst e
          rw [upd_same] at hv
          cases hv
          exact hk
        · rw [upd_ne _ _ e] at hv; exact h.range v b hvn hv
    · have he : (s.core.next c.g.w t).hist = h1 ++ (.move u src dst mx, true) :: h2 := he
      rcases hrest with ⟨_, hh | ⟨_, _, _, _, hh⟩⟩ | ⟨u', src', dst', mx', _, hn, hm, _, _, hh⟩
      · rw [hh] at he; exact h.hist h1 u src dst mx h2 he
      · rw [hh] at he
        rcases append_cases he with ⟨_, e⟩ | ⟨h2', e⟩
        · cases e
        · exact h.hist h1 u src dst mx h2' e
      · rw [hh] at he
        rcases append_cases he with ⟨rfl, e⟩ | ⟨h2', e⟩
        · cases e; exact ⟨hn, hm⟩
        · exact h.hist h1 u src dst mx h2' e
    · have hop : op ∈ (s.core.next c.g.w t).hist := hop
      rcases hrest with ⟨_, hh | ⟨u', src', dst', mx', hh⟩⟩ | ⟨u', src', dst', mx', _, _, _, _, _, hh⟩
      · rw [hh] at hop; exact h.moves op hop
      all_goals
        rw [hh] at hop
        rcases List.mem_append.1 hop with hop | hop
        · exact h.moves op hop
        · rw [List.mem_singleton.1 hop]; exact ⟨_, _, _, _, rfl⟩
where
  dropLook {c : Cfg} {T : Nat} {part0 : Nat → Option Nat} {s : State} (h : Inv c T part0 s) (t : Nat) :
      Inv c T part0 { s with look := upd s.look t none } := by
    have hu : ∀ t' q', upd s.look t none t' = some q' → s.look t' = some q' := by
      intro t' q' hq'
      by_cases e : t' = t
      · subst e; rw [upd_same] at hq'; cases hq'
      · rw [upd_ne _ _ e] at hq'; exact hq'
    exact ⟨fun t' ht' q hq => h.look t' ht' q (hu t' q hq),
      fun t' ht' q hq t'' ht'' => ⟨(h.free t' ht' q (hu t' q hq) t'' ht'').1,
        fun hne q' hq' => (h.free t' ht' q (hu t' q hq) t'' ht'').2 hne q' (hu t'' q' hq')⟩,
      h.pc, h.was, h.range, h.hist, h.moves⟩

end Verif.LP

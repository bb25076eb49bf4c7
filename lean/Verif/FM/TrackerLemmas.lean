import Verif.FM.Tracker
import Mathlib.Algebra.BigOperators.Group.Finset.Basic
import Mathlib.Algebra.Order.BigOperators.Group.Finset

/-! # Invariants of the node tracker -/

namespace Verif.FM.Tracker
open Verif.FM
open scoped BigOperators

/-- The nodes a worker has locked and not released. -/
def Wk.pend (w : Wk) : List Nat :=
  match w.pc with
  | .out => []
  | .free l => l.map Prod.snd
  | .freed u _ l => u :: l.map Prod.snd
  | _ => w.seeds ++ w.touched

/-- What holds at each position. -/
def Wk.pcOk (tr : Nat → Int) (w : Wk) : Prop :=
  match w.pc with
  | .out => w.touched = [] ∧ w.held = [] ∧ w.popped = []
  | .apply l => ∀ u ∈ l, u ∈ w.popped
  | .free _ => w.held = [] ∧ w.popped = []
  | .freed u o _ => w.held = [] ∧ w.popped = [] ∧ tr u = o
  | _ => True

structure WOk (tr : Nat → Int) (t : Nat) (w : Wk) : Prop where
  vals : ∀ u ∈ w.pend, tr u = idOf t ∨ tr u = movedLocally ∨ tr u = movedGlobally
  nodup : w.pend.Nodup
  held : ∀ u ∈ w.held, u ∈ w.pend ∧ tr u = idOf t
  popped : ∀ u ∈ w.popped, u ∈ w.pend ∧ (tr u = movedLocally ∨ tr u = movedGlobally)
  pc : w.pcOk tr

theorem idOf_ne (t : Nat) : idOf t ≠ movedLocally ∧ idOf t ≠ movedGlobally ∧ idOf t ≠ unlocked := by
  unfold idOf movedLocally movedGlobally unlocked; omega

theorem idOf_inj {t t' : Nat} (h : idOf t = idOf t') : t = t' := by unfold idOf at h; omega

/-- Changes of entries that a worker has not locked do not concern it. -/
theorem WOk.frame {tr tr' : Nat → Int} {t : Nat} {w : Wk} (h : WOk tr t w) (he : ∀ u ∈ w.pend, tr' u = tr u) : WOk tr' t w := by
  refine ⟨?_, h.nodup, ?_, ?_, ?_⟩
  · intro u hu; rw [he u hu]; exact h.vals u hu
  · intro u hu
    obtain ⟨h1, h2⟩ := h.held u hu
    exact ⟨h1, by rw [he u h1]; exact h2⟩
  · intro u hu
    obtain ⟨h1, h2⟩ := h.popped u hu
    exact ⟨h1, by rw [he u h1]; exact h2⟩
  · have := h.pc
    unfold Wk.pcOk at this ⊢
    cases hpc : w.pc with
    | freed u o l =>
      rw [hpc] at this
      refine ⟨this.1, this.2.1, ?_⟩
      rw [he u (by unfold Wk.pend; rw [hpc]; exact List.mem_cons_self)]; exact this.2.2
    | _ => rw [hpc] at this; exact this

/-- The invariant of the tracker. -/
structure Inv (p : Params) (s : St) : Prop where
  ok : ∀ t, t < p.workers → WOk s.tr t (s.wk t)
  disj : ∀ t t' u, t < p.workers → t' < p.workers → u ∈ (s.wk t).pend → u ∈ (s.wk t').pend → t = t'
  own : ∀ u, s.tr u = unlocked ∨ s.tr u = movedGlobally ∨ ∃ t, t < p.workers ∧ u ∈ (s.wk t).pend

/-- A step of one worker: it locks at most nodes that were free and changes at most entries that it had locked or that
were free. -/
theorem Inv.update {p : Params} {s s' : St} (h : Inv p s) {t : Nat} (ht : t < p.workers) {w : Wk}
    (hw : s'.wk = upd s.wk t w)
    (htr : ∀ u, s'.tr u ≠ s.tr u → u ∈ (s.wk t).pend ∨ s.tr u = unlocked)
    (hok : WOk s'.tr t w)
    (hpend : ∀ u ∈ w.pend, u ∈ (s.wk t).pend ∨ s.tr u = unlocked)
    (hfree : ∀ u, s'.tr u = unlocked ∨ s'.tr u = movedGlobally ∨ u ∈ w.pend ∨ (s'.tr u = s.tr u ∧ u ∉ (s.wk t).pend)) :
    Inv p s' := by
  have hother : ∀ t', t' < p.workers → t' ≠ t → ∀ u ∈ (s.wk t').pend, u ∉ (s.wk t).pend ∧ s.tr u ≠ unlocked := by
    intro t' ht' hne u hu
    refine ⟨fun hu' => hne (h.disj t' t u ht' ht hu hu'), ?_⟩
    intro h0
    obtain ⟨i1, i2, i3⟩ := idOf_ne t'
    rcases (h.ok t' ht').vals u hu with h1 | h1 | h1
    · rw [h0] at h1; exact i3 h1.symm
    · rw [h0] at h1; exact absurd h1 (by decide)
    · rw [h0] at h1; exact absurd h1 (by decide)
  refine ⟨?_, ?_, ?_⟩
  · intro t' ht'
    rw [hw]
    by_cases hne : t' = t
    · rw [hne, upd_same]; exact hok
    · rw [upd_ne _ _ hne]
      refine (h.ok t' ht').frame ?_
      intro u hu
      apply Classical.byContradiction
      intro hc
      obtain ⟨h1, h2⟩ := hother t' ht' hne u hu
      rcases htr u hc with h3 | h3
      · exact h1 h3
      · exact h2 h3
  · intro t1 t2 u h1 h2 hu1 hu2
    rw [hw] at hu1 hu2
    have key : ∀ t', t' < p.workers → t' ≠ t → u ∈ (s.wk t').pend → u ∉ w.pend := by
      intro t' ht' hne hu hu'
      obtain ⟨h3, h4⟩ := hother t' ht' hne u hu
      rcases hpend u hu' with h5 | h5
      · exact h3 h5
      · exact h4 h5
    by_cases e1 : t1 = t
    · by_cases e2 : t2 = t
      · rw [e1, e2]
      · rw [e1, upd_same] at hu1
        rw [upd_ne _ _ e2] at hu2
        exact absurd hu1 (key t2 h2 e2 hu2)
    · rw [upd_ne _ _ e1] at hu1
      by_cases e2 : t2 = t
      · rw [e2, upd_same] at hu2
        exact absurd hu2 (key t1 h1 e1 hu1)
      · rw [upd_ne _ _ e2] at hu2
        exact h.disj t1 t2 u h1 h2 hu1 hu2
  · intro u
    rcases hfree u with h1 | h1 | h1 | ⟨h1, h2⟩
    · exact Or.inl h1
    · exact Or.inr (Or.inl h1)
    · exact Or.inr (Or.inr ⟨t, ht, by rw [hw, upd_same]; exact h1⟩)
    · rcases h.own u with h3 | h3 | ⟨t', h3, h4⟩
      · exact Or.inl (h1.trans h3)
      · exact Or.inr (Or.inl (h1.trans h3))
      · refine Or.inr (Or.inr ⟨t', h3, ?_⟩)
        have : t' ≠ t := by rintro rfl; exact h2 h4
        rw [hw, upd_ne _ _ this]; exact h4

/-- Only the position changes. -/
theorem Inv.goto {p : Params} {s : St} (h : Inv p s) {t : Nat} (ht : t < p.workers) {w : Wk} {n : Nat}
    (hp : w.pend = (s.wk t).pend) (hh : w.held = (s.wk t).held) (hq : w.popped = (s.wk t).popped) (hpc : w.pcOk s.tr) :
    Inv p { s.set t w with next := n } := by
  have hw := h.ok t ht
  refine h.update ht (w := w) rfl (fun u hu => absurd rfl hu) ⟨?_, ?_, ?_, ?_, hpc⟩ ?_ ?_
  · rw [hp]; exact hw.vals
  · rw [hp]; exact hw.nodup
  · rw [hp, hh]; exact hw.held
  · rw [hp, hq]; exact hw.popped
  · intro u hu; rw [hp] at hu; exact Or.inl hu
  · intro u
    by_cases hu : u ∈ w.pend
    · exact Or.inr (Or.inr (Or.inl hu))
    · rw [hp] at hu; exact Or.inr (Or.inr (Or.inr ⟨rfl, hu⟩))

/-- A free node is locked. -/
theorem Inv.lock {p : Params} {s s' : St} (h : Inv p s) {t : Nat} (ht : t < p.workers) {w : Wk} {u : Nat}
    (hw : s'.wk = upd s.wk t w) (htr : s'.tr = upd s.tr u (idOf t)) (hu : s.tr u = unlocked)
    (hp : w.pend.Perm ((s.wk t).pend ++ [u])) (hh : w.held = (s.wk t).held ++ [u]) (hq : w.popped = (s.wk t).popped)
    (hpc : w.pcOk s'.tr) : Inv p s' := by
  have hk := h.ok t ht
  obtain ⟨i1, i2, i3⟩ := idOf_ne t
  have hnot : u ∉ (s.wk t).pend := by
    intro hm
    rcases hk.vals u hm with h1 | h1 | h1
    · rw [hu] at h1; exact i3 h1.symm
    · rw [hu] at h1; exact absurd h1 (by decide)
    · rw [hu] at h1; exact absurd h1 (by decide)
  have hmem : ∀ x, x ∈ w.pend ↔ x ∈ (s.wk t).pend ∨ x = u := by
    intro x; rw [hp.mem_iff, List.mem_append, List.mem_singleton]
  have hne : ∀ x, x ∈ (s.wk t).pend → s'.tr x = s.tr x := by
    intro x hx
    have : x ≠ u := by rintro rfl; exact hnot hx
    rw [htr, upd_ne _ _ this]
  refine h.update ht hw ?_ ⟨?_, ?_, ?_, ?_, hpc⟩ ?_ ?_
  · intro x hx
    by_cases hxu : x = u
    · right; rw [hxu]; exact hu
    · rw [htr, upd_ne _ _ hxu] at hx; exact absurd rfl hx
  · intro x hx
    rcases (hmem x).1 hx with h1 | h1
    · rw [hne x h1]; exact hk.vals x h1
    · left; rw [h1, htr, upd_same]
  · rw [hp.nodup_iff]
    exact List.Nodup.append hk.nodup (by simp) (by
      intro a ha hb
      rw [List.mem_singleton] at hb
      rw [hb] at ha; exact hnot ha)
  · intro x hx
    rw [hh, List.mem_append, List.mem_singleton] at hx
    rcases hx with hx | hx
    · obtain ⟨h1, h2⟩ := hk.held x hx
      exact ⟨(hmem x).2 (Or.inl h1), by rw [hne x h1]; exact h2⟩
    · exact ⟨(hmem x).2 (Or.inr hx), by rw [hx, htr, upd_same]⟩
  · intro x hx
    rw [hq] at hx
    obtain ⟨h1, h2⟩ := hk.popped x hx
    exact ⟨(hmem x).2 (Or.inl h1), by rw [hne x h1]; exact h2⟩
  · intro x hx
    rcases (hmem x).1 hx with h1 | h1
    · exact Or.inl h1
    · rw [h1]; exact Or.inr hu
  · intro x
    by_cases hx : x ∈ w.pend
    · exact Or.inr (Or.inr (Or.inl hx))
    · rw [hmem, not_or] at hx
      exact Or.inr (Or.inr (Or.inr ⟨by rw [htr, upd_ne _ _ hx.2], hx.1⟩))

/-- A worker writes the entry of a node it has locked, and keeps the node. -/
theorem Inv.write {p : Params} {s s' : St} (h : Inv p s) {t : Nat} (ht : t < p.workers) {w : Wk} {u : Nat} {x : Int}
    (hw : s'.wk = upd s.wk t w) (htr : s'.tr = upd s.tr u x) (hu : u ∈ (s.wk t).pend)
    (hx : x = movedLocally ∨ x = movedGlobally)
    (hp : w.pend = (s.wk t).pend) (hh : ∀ y ∈ w.held, y ∈ (s.wk t).held ∧ y ≠ u)
    (hq : ∀ y ∈ w.popped, y ∈ (s.wk t).popped ∨ y = u)
    (hpc : w.pcOk s'.tr) : Inv p s' := by
  have hk := h.ok t ht
  refine h.update ht hw ?_ ⟨?_, ?_, ?_, ?_, hpc⟩ ?_ ?_
  · intro y hy
    by_cases hyu : y = u
    · left; rw [hyu]; exact hu
    · rw [htr, upd_ne _ _ hyu] at hy; exact absurd rfl hy
  · intro y hy
    rw [hp] at hy
    by_cases hyu : y = u
    · right; rw [hyu, htr, upd_same]; exact hx
    · rw [htr, upd_ne _ _ hyu]; exact hk.vals y hy
  · rw [hp]; exact hk.nodup
  · intro y hy
    obtain ⟨h1, h2⟩ := hh y hy
    rw [hp, htr, upd_ne _ _ h2]
    exact hk.held y h1
  · intro y hy
    rw [hp]
    by_cases hyu : y = u
    · rw [hyu, htr, upd_same]; exact ⟨hu, hx⟩
    · rw [htr, upd_ne _ _ hyu]
      rcases hq y hy with h1 | h1
      · exact hk.popped y h1
      · exact absurd h1 hyu
  · intro y hy; rw [hp] at hy; exact Or.inl hy
  · intro y
    by_cases hy : y ∈ w.pend
    · exact Or.inr (Or.inr (Or.inl hy))
    · refine Or.inr (Or.inr (Or.inr ⟨?_, by rw [hp] at hy; exact hy⟩))
      have : y ≠ u := by rintro rfl; rw [hp] at hy; exact hy hu
      rw [htr, upd_ne _ _ this]

/-- A worker gives up a node at the end of a batch. -/
theorem Inv.giveUp {p : Params} {s s' : St} (h : Inv p s) {t : Nat} (ht : t < p.workers) {w : Wk} {u : Nat} {l : List Nat}
    (hw : s'.wk = upd s.wk t w) (hpend : (s.wk t).pend = u :: l) (hp : w.pend = l)
    (htr : ∀ y, y ≠ u → s'.tr y = s.tr y) (hx : s'.tr u = unlocked ∨ s'.tr u = movedGlobally)
    (hh : w.held = []) (hq : w.popped = []) (hpc : w.pcOk s'.tr) : Inv p s' := by
  have hk := h.ok t ht
  have hnd := hk.nodup
  rw [hpend, List.nodup_cons] at hnd
  have hne : ∀ y ∈ l, y ≠ u := by rintro y hy rfl; exact hnd.1 hy
  refine h.update ht hw ?_ ⟨?_, ?_, ?_, ?_, hpc⟩ ?_ ?_
  · intro y hy
    by_cases hyu : y = u
    · left; rw [hyu, hpend]; exact List.mem_cons_self
    · rw [htr y hyu] at hy; exact absurd rfl hy
  · intro y hy
    rw [hp] at hy
    rw [htr y (hne y hy)]
    exact hk.vals y (by rw [hpend]; exact List.mem_cons_of_mem _ hy)
  · rw [hp]; exact hnd.2
  · intro y hy; rw [hh] at hy; exact absurd hy List.not_mem_nil
  · intro y hy; rw [hq] at hy; exact absurd hy List.not_mem_nil
  · intro y hy; rw [hp] at hy; rw [hpend]; exact Or.inl (List.mem_cons_of_mem _ hy)
  · intro y
    by_cases hyu : y = u
    · rw [hyu]; exact hx.imp id Or.inl
    · by_cases hy : y ∈ w.pend
      · exact Or.inr (Or.inr (Or.inl hy))
      · refine Or.inr (Or.inr (Or.inr ⟨htr y hyu, ?_⟩))
        rw [hpend, List.mem_cons, not_or]
        rw [hp] at hy
        exact ⟨hyu, hy⟩

/-- The nodes of a worker at position `pc`. -/
def pendAt (w : Wk) : Pc → List Nat
  | .out => []
  | .free l => l.map Prod.snd
  | .freed u _ l => u :: l.map Prod.snd
  | _ => w.seeds ++ w.touched

theorem pend_eq {w : Wk} {pc : Pc} (h : w.pc = pc) : w.pend = pendAt w pc := by
  subst h; unfold Wk.pend pendAt; rfl

/-- The condition at position `pc`. -/
def okAt (tr : Nat → Int) (w : Wk) : Pc → Prop
  | .out => w.touched = [] ∧ w.held = [] ∧ w.popped = []
  | .apply l => ∀ u ∈ l, u ∈ w.popped
  | .free _ => w.held = [] ∧ w.popped = []
  | .freed u o _ => w.held = [] ∧ w.popped = [] ∧ tr u = o
  | _ => True

theorem pcOk_eq {tr : Nat → Int} {w : Wk} {pc : Pc} (h : w.pc = pc) : w.pcOk tr = okAt tr w pc := by
  subst h; unfold Wk.pcOk okAt; rfl

theorem step_inv {p : Params} {s s' : St} (h : Inv p s) (hs : Step p s s') : Inv p s' := by
  cases hs with
  | start t ht hpc =>
    have h1 := (h.ok t ht).pc
    rw [pcOk_eq hpc] at h1
    have h1 : (s.wk t).touched = [] ∧ (s.wk t).held = [] ∧ (s.wk t).popped = [] := h1
    refine h.goto ht (n := s.next) ?_ rfl rfl trivial
    rw [pend_eq hpc]
    show [] ++ (s.wk t).touched = []
    rw [h1.1]; rfl
  | more t q ht hpc h1 h2 => exact h.goto ht (n := s.next) (by rw [pend_eq hpc]; rfl) rfl rfl trivial
  | enough t q ht hpc h1 => exact h.goto ht (n := s.next) (by rw [pend_eq hpc]; rfl) rfl rfl trivial
  | take t q ht hpc => exact h.goto ht (by rw [pend_eq hpc]; rfl) rfl rfl trivial
  | scanned t q i e ht hpc h1 => exact h.goto ht (n := s.next) (by rw [pend_eq hpc]; rfl) rfl rfl trivial
  | skip t q i e ht hpc h1 h2 => exact h.goto ht (n := s.next) (by rw [pend_eq hpc]; rfl) rfl rfl trivial
  | look t q i e ht hpc h1 h2 => exact h.goto ht (n := s.next) (by rw [pend_eq hpc]; rfl) rfl rfl trivial
  | seed t q i e ht hpc h2 =>
    refine h.lock ht (u := p.border.getD i 0) rfl rfl h2 ?_ rfl rfl trivial
    rw [pend_eq hpc]
    show ((s.wk t).seeds ++ [p.border.getD i 0] ++ (s.wk t).touched).Perm ((s.wk t).seeds ++ (s.wk t).touched ++ [p.border.getD i 0])
    rw [List.append_assoc, List.append_assoc]
    exact List.Perm.append_left _ List.perm_append_comm
  | noSeed t q i e ht hpc h2 => exact h.goto ht (n := s.next) (by rw [pend_eq hpc]; rfl) rfl rfl trivial
  | pop t u ht hpc h1 =>
    refine h.write ht (u := u) rfl rfl ((h.ok t ht).held u h1).1 (Or.inl rfl) (by rw [pend_eq hpc]; unfold Wk.pend; simp only [hpc]; rfl) ?_ ?_ ?_
    · intro y hy
      have := List.mem_filter.1 hy
      exact ⟨this.1, by simpa using this.2⟩
    · intro y hy
      rcases List.mem_append.1 hy with h2 | h2
      · exact Or.inl h2
      · exact Or.inr (List.mem_singleton.1 h2)
    · unfold Wk.pcOk; simp only [hpc]
  | improve t l ht hpc h1 => exact h.goto ht (n := s.next) (by rw [pend_eq hpc]; rfl) rfl rfl h1
  | mark t u l ht hpc =>
    have h1 := (h.ok t ht).pc
    rw [pcOk_eq hpc] at h1
    have h1 : ∀ x ∈ u :: l, x ∈ (s.wk t).popped := h1
    have h2 := (h.ok t ht).popped u (h1 u List.mem_cons_self)
    refine h.write ht (u := u) rfl rfl h2.1 (Or.inr rfl) (by rw [pend_eq hpc]; rfl) ?_ (fun y hy => Or.inl hy) ?_
    · intro y hy
      refine ⟨hy, ?_⟩
      rintro rfl
      have h3 := ((h.ok t ht).held y hy).2
      obtain ⟨i1, i2, _⟩ := idOf_ne t
      rw [h3] at h2
      rcases h2.2 with h4 | h4
      · exact i1 h4
      · exact i2 h4
    · show ∀ x ∈ l, x ∈ (s.wk t).popped
      exact fun x hx => h1 x (List.mem_cons_of_mem _ hx)
  | marked t ht hpc => exact h.goto ht (n := s.next) (by rw [pend_eq hpc]; rfl) rfl rfl trivial
  | visit t v ht hpc h1 => exact h.goto ht (n := s.next) (by rw [pend_eq hpc]; rfl) rfl rfl trivial
  | touch t v ht hpc h1 =>
    refine h.lock ht (u := v) rfl rfl h1 ?_ rfl rfl trivial
    rw [pend_eq hpc]
    show ((s.wk t).seeds ++ ((s.wk t).touched ++ [v])).Perm ((s.wk t).seeds ++ (s.wk t).touched ++ [v])
    rw [List.append_assoc]
  | noTouch t v ht hpc h1 => exact h.goto ht (n := s.next) (by rw [pend_eq hpc]; rfl) rfl rfl trivial
  | stop t ht hpc =>
    have hk := h.ok t ht
    have hp : (((s.wk t).seeds.map (fun u => (true, u)) ++ (s.wk t).touched.map (fun u => (false, u))).map Prod.snd) = (s.wk t).pend := by
      rw [pend_eq hpc, List.map_append, List.map_map, List.map_map]
      show List.map id _ ++ List.map id _ = _
      rw [List.map_id, List.map_id]; rfl
    refine h.update ht rfl (fun u hu => absurd rfl hu) ⟨?_, ?_, fun u hu => absurd hu List.not_mem_nil,
      fun u hu => absurd hu List.not_mem_nil, ⟨rfl, rfl⟩⟩ ?_ ?_
    · intro u hu
      exact hk.vals u (hp ▸ hu)
    · show List.Nodup (List.map Prod.snd _)
      rw [hp]; exact hk.nodup
    · intro u hu
      exact Or.inl (hp ▸ hu)
    · intro u
      by_cases hu : u ∈ (s.wk t).pend
      · refine Or.inr (Or.inr (Or.inl ?_))
        show u ∈ List.map Prod.snd _
        rw [hp]; exact hu
      · exact Or.inr (Or.inr (Or.inr ⟨rfl, hu⟩))
  | keepSeed t u l ht hpc h1 =>
    have h2 := (h.ok t ht).pc
    rw [pcOk_eq hpc] at h2
    exact h.giveUp ht (u := u) (l := l.map Prod.snd) rfl (by rw [pend_eq hpc]; rfl) rfl (fun y hy => upd_ne _ _ hy)
      (Or.inr (upd_same _ _ _)) h2.1 h2.2 ⟨h2.1, h2.2⟩
  | read t x l ht hpc h1 =>
    have h2 := (h.ok t ht).pc
    rw [pcOk_eq hpc] at h2
    exact h.goto ht (n := s.next) (by rw [pend_eq hpc]; rfl) rfl rfl ⟨h2.1, h2.2, rfl⟩
  | unlock t u o y l ht hpc h1 =>
    have h2 := (h.ok t ht).pc
    rw [pcOk_eq hpc] at h2
    refine h.giveUp ht (u := u) (l := l.map Prod.snd) rfl (by rw [pend_eq hpc]; rfl) rfl (fun y hy => upd_ne _ _ hy)
      ?_ h2.1 h2.2.1 ⟨h2.1, h2.2.1⟩
    show upd s.tr u y u = _ ∨ upd s.tr u y u = _
    rw [upd_same]
    unfold release at h1
    split at h1
    · split at h1
      · cases h1; exact Or.inl rfl
      · cases h1; exact Or.inr rfl
    · split at h1
      · cases h1; exact Or.inl rfl
      · cases h1
  | leave t u o l ht hpc h1 =>
    have h2 := (h.ok t ht).pc
    rw [pcOk_eq hpc] at h2
    refine h.giveUp ht (u := u) (l := l.map Prod.snd) rfl (by rw [pend_eq hpc]; rfl) rfl (fun y hy => rfl)
      ?_ h2.1 h2.2.1 ⟨h2.1, h2.2.1⟩
    right
    show s.tr u = _
    have h3 := (h.ok t ht).vals u (by rw [pend_eq hpc]; exact List.mem_cons_self)
    rw [h2.2.2] at h3 ⊢
    unfold release at h1
    rcases h3 with h3 | h3 | h3
    · rw [h3, if_neg (idOf_ne t).1, if_pos rfl] at h1; cases h1
    · rw [h3, if_pos rfl] at h1
      split at h1 <;> cases h1
    · exact h3
  | done t ht hpc =>
    have h2 := (h.ok t ht).pc
    rw [pcOk_eq hpc] at h2
    exact h.goto ht (n := s.next) (by rw [pend_eq hpc]; rfl) rfl rfl ⟨rfl, h2.1, h2.2⟩

theorem init_inv (p : Params) : Inv p St.init := by
  refine ⟨?_, ?_, fun _ => Or.inl rfl⟩
  · intro t _
    refine ⟨fun u hu => absurd hu List.not_mem_nil, List.nodup_nil, fun u hu => absurd hu List.not_mem_nil,
      fun u hu => absurd hu List.not_mem_nil, ⟨rfl, rfl, rfl⟩⟩
  · intro t t' u _ _ hu
    exact absurd hu List.not_mem_nil

theorem reach_inv {p : Params} {s : St} (h : Reach p St.init s) : Inv p s := by
  induction h with
  | refl => exact init_inv p
  | step _ hs ih => exact step_inv ih hs

/-! ## Nodes that are locked for good -/

/-- A step keeps the mark, and does not lock the node. -/
theorem step_marked {p : Params} {s s' : St} (h : Inv p s) (hs : Step p s s') {u : Nat} (hu : s.tr u = movedGlobally) :
    s'.tr u = movedGlobally ∧ ∃ l, s'.locks = s.locks ++ l ∧ ∀ x ∈ l, x.2 ≠ u := by
  have keep : ∀ (v : Nat) (x : Int), (v = u → x = movedGlobally) → upd s.tr v x u = movedGlobally := by
    intro v x hx
    by_cases hv : u = v
    · rw [hv, upd_same]; exact hx hv.symm
    · rw [upd_ne _ _ hv]; exact hu
  have nolock : s.locks = s.locks ++ [] ∧ ∀ x ∈ ([] : List (Nat × Nat)), x.2 ≠ u :=
    ⟨(List.append_nil _).symm, fun x hx => absurd hx List.not_mem_nil⟩
  have hfree : ∀ v, s.tr v = unlocked → v ≠ u := by
    rintro v hv rfl; rw [hu] at hv; exact absurd hv (by decide)
  cases hs with
  | seed t q i e ht hpc h2 =>
    have := hfree _ h2
    exact ⟨keep _ _ (fun hc => absurd hc this), _, rfl, fun x hx => by rw [List.mem_singleton.1 hx]; exact this⟩
  | touch t v ht hpc h1 =>
    have := hfree _ h1
    exact ⟨keep _ _ (fun hc => absurd hc this), _, rfl, fun x hx => by rw [List.mem_singleton.1 hx]; exact this⟩
  | pop t v ht hpc h1 =>
    refine ⟨keep _ _ ?_, [], nolock⟩
    rintro rfl
    have := ((h.ok t ht).held v h1).2
    rw [hu] at this
    exact absurd this.symm (idOf_ne t).2.1
  | mark t v l ht hpc => exact ⟨keep _ _ (fun _ => rfl), [], nolock⟩
  | keepSeed t v l ht hpc h1 => exact ⟨keep _ _ (fun _ => rfl), [], nolock⟩
  | unlock t v o y l ht hpc h1 =>
    refine ⟨keep _ _ ?_, [], nolock⟩
    rintro rfl
    have h2 := (h.ok t ht).pc
    rw [pcOk_eq hpc] at h2
    have h3 := h2.2.2
    rw [hu] at h3
    rw [← h3] at h1
    unfold release at h1
    rw [if_neg (by decide), if_neg (fun hc => (idOf_ne t).2.1 hc.symm)] at h1
    cases h1
  | _ => exact ⟨hu, [], nolock⟩

/-! ## The counter -/

/-- The positions of the border nodes a worker has taken and not yet tried. -/
def Wk.takes (w : Wk) (i : Nat) : Prop :=
  match w.pc with
  | .scan _ c e => c ≤ i ∧ i < e
  | .try_ _ c e => c ≤ i ∧ i < e
  | _ => False

/-- Is the worker about to increase the counter? -/
def Wk.armed (w : Wk) : Nat :=
  match w.pc with
  | .take _ => 1
  | _ => 0

/-- Number of workers that are about to increase the counter. -/
def armed (p : Params) (s : St) : Nat := ∑ t ∈ Finset.range p.workers, (s.wk t).armed

/-- The invariant of the counter. -/
structure Cnt (p : Params) (s : St) : Prop where
  next : s.next + armed p s * p.count ≤ p.border.length + p.workers * p.count
  takes : ∀ t i, t < p.workers → (s.wk t).takes i → i < s.next ∧ i < p.border.length
  disj : ∀ t t' i, t < p.workers → t' < p.workers → (s.wk t).takes i → (s.wk t').takes i → t = t'
  handed : ∃ idx : List Nat, s.handed = idx.map (fun i => p.border.getD i 0) ∧ idx.Nodup ∧
    ∀ i ∈ idx, i < s.next ∧ i < p.border.length ∧ ∀ t, t < p.workers → ¬ (s.wk t).takes i
  tries : ∀ t q i e, t < p.workers → (s.wk t).pc = .try_ q i e → i < e

theorem tries_upd {p : Params} {s s' : St} (h : Cnt p s) {t : Nat} {w : Wk} (hw : s'.wk = upd s.wk t w)
    (hwt : ∀ q i e, w.pc = .try_ q i e → i < e) :
    ∀ t q i e, t < p.workers → (s'.wk t).pc = .try_ q i e → i < e := by
  intro t' q i e ht' hpc
  rw [hw] at hpc
  by_cases hc : t' = t
  · rw [hc, upd_same] at hpc; exact hwt q i e hpc
  · rw [upd_ne _ _ hc] at hpc; exact h.tries t' q i e ht' hpc

/-- A worker takes no new positions and hands out no node. -/
theorem Cnt.same {p : Params} {s s' : St} (h : Cnt p s) {t : Nat} {w : Wk} (hw : s'.wk = upd s.wk t w)
    (hn : s'.next = s.next) (hh : s'.handed = s.handed) (ha : w.armed ≤ (s.wk t).armed)
    (ht : ∀ i, w.takes i → (s.wk t).takes i) (hwt : ∀ q i e, w.pc = .try_ q i e → i < e) : Cnt p s' := by
  have hle : ∀ t' i, (s'.wk t').takes i → (s.wk t').takes i := by
    intro t' i hi
    rw [hw] at hi
    by_cases hc : t' = t
    · rw [hc, upd_same] at hi; rw [hc]; exact ht i hi
    · rw [upd_ne _ _ hc] at hi; exact hi
  have harm : armed p s' ≤ armed p s := by
    unfold armed
    apply Finset.sum_le_sum
    intro t' _
    rw [hw]
    by_cases hc : t' = t
    · rw [hc, upd_same]; exact ha
    · rw [upd_ne _ _ hc]
  obtain ⟨idx, h1, h2, h3⟩ := h.handed
  refine ⟨?_, ?_, ?_, ⟨idx, by rw [hh]; exact h1, h2, ?_⟩, tries_upd h hw hwt⟩
  · rw [hn]
    have := Nat.mul_le_mul_right p.count harm
    have := h.next
    omega
  · intro t' i ht' hi; rw [hn]; exact h.takes t' i ht' (hle t' i hi)
  · intro t1 t2 i h1 h2 hi hj; exact h.disj t1 t2 i h1 h2 (hle _ _ hi) (hle _ _ hj)
  · intro i hi
    obtain ⟨h4, h5, h6⟩ := h3 i hi
    exact ⟨by rw [hn]; exact h4, h5, fun t' ht' hc => h6 t' ht' (hle _ _ hc)⟩

theorem armed_upd {p : Params} {s s' : St} {t : Nat} (ht : t < p.workers) {w : Wk} (hw : s'.wk = upd s.wk t w) :
    armed p s' + (s.wk t).armed = armed p s + w.armed := by
  have hm := Finset.mem_range.2 ht
  unfold armed
  rw [← Finset.add_sum_erase _ _ hm, ← Finset.add_sum_erase (Finset.range p.workers) (fun t => (s.wk t).armed) hm, hw, upd_same]
  have : ∑ x ∈ (Finset.range p.workers).erase t, (upd s.wk t w x).armed = ∑ x ∈ (Finset.range p.workers).erase t, (s.wk x).armed := by
    apply Finset.sum_congr rfl
    intro x hx
    rw [upd_ne _ _ (Finset.ne_of_mem_erase hx)]
  rw [this]; omega

theorem armed_le (p : Params) (s : St) : armed p s ≤ p.workers := by
  unfold armed
  have : ∀ t ∈ Finset.range p.workers, (s.wk t).armed ≤ 1 := by
    intro t _
    unfold Wk.armed; split <;> omega
  have := Finset.sum_le_card_nsmul _ _ 1 this
  simpa using this

theorem step_cnt {p : Params} (hb : p.border.length + p.workers * p.count < 2 ^ p.bits) {s s' : St} (h : Cnt p s)
    (hs : Step p s s') : Cnt p s' := by
  cases hs with
  | start t ht hpc => exact h.same (w := _) rfl rfl rfl (Nat.zero_le _) (fun i hi => hi.elim) (fun _ _ _ hc => nomatch hc)
  | more t q ht hpc h1 h2 =>
    have e := armed_upd (s' := s.set t { s.wk t with pc := .take q }) ht rfl
    have e1 : (s.wk t).armed = 0 := by unfold Wk.armed; rw [hpc]
    have e2 : ({ s.wk t with pc := .take q } : Wk).armed = 1 := rfl
    have e3 := armed_le p (s.set t { s.wk t with pc := .take q })
    have hle : ∀ t' i, ((s.set t { s.wk t with pc := .take q }).wk t').takes i → (s.wk t').takes i := by
      intro t' i hi
      have hi : (upd s.wk t _ t').takes i := hi
      by_cases hc : t' = t
      · rw [hc, upd_same] at hi; exact hi.elim
      · rw [upd_ne _ _ hc] at hi; exact hi
    obtain ⟨idx, i1, i2, i3⟩ := h.handed
    refine ⟨?_, fun t' i ht' hi => h.takes t' i ht' (hle t' i hi), fun t1 t2 i h1 h2 hi hj => h.disj t1 t2 i h1 h2 (hle _ _ hi) (hle _ _ hj),
      ⟨idx, i1, i2, fun i hi => ⟨(i3 i hi).1, (i3 i hi).2.1, fun t' ht' hc => (i3 i hi).2.2 t' ht' (hle _ _ hc)⟩⟩,
      tries_upd h (t := t) rfl (fun _ _ _ hc => nomatch hc)⟩
    show s.next + _ ≤ _
    have := Nat.mul_le_mul_right p.count e3
    omega
  | enough t q ht hpc h1 => exact h.same (w := _) rfl rfl rfl (Nat.zero_le _) (fun i hi => hi.elim) (fun _ _ _ hc => nomatch hc)
  | take t q ht hpc =>
    have e1 : (s.wk t).armed = 1 := by unfold Wk.armed; rw [hpc]
    have hlt : s.next + (p.count - q) < 2 ^ p.bits := by
      have h1 := h.next
      have h2 : 1 ≤ armed p s := by
        have := Finset.single_le_sum (f := fun t => (s.wk t).armed) (fun _ _ => Nat.zero_le _) (Finset.mem_range.2 ht)
        unfold armed
        calc 1 = (s.wk t).armed := e1.symm
          _ ≤ _ := this
      have := Nat.mul_le_mul_right p.count h2
      omega
    rw [Nat.mod_eq_of_lt hlt]
    have e : armed p (s.set t { s.wk t with pc := .scan q s.next (min (s.next + (p.count - q)) p.border.length) }) + 1 = armed p s := by
      have := armed_upd (s' := s.set t { s.wk t with pc := .scan q s.next (min (s.next + (p.count - q)) p.border.length) }) ht rfl
      rw [e1] at this
      exact this
    have hold : ∀ t' i, t' < p.workers → t' ≠ t → (upd s.wk t { s.wk t with pc := .scan q s.next (min (s.next + (p.count - q)) p.border.length) } t').takes i →
        (s.wk t').takes i := by
      intro t' i _ hne hi; rw [upd_ne _ _ hne] at hi; exact hi
    have hnew : ∀ i, (upd s.wk t { s.wk t with pc := .scan q s.next (min (s.next + (p.count - q)) p.border.length) } t).takes i →
        s.next ≤ i ∧ i < min (s.next + (p.count - q)) p.border.length := by
      intro i hi; rw [upd_same] at hi; exact hi
    obtain ⟨idx, i1, i2, i3⟩ := h.handed
    refine ⟨?_, ?_, ?_, ⟨idx, i1, i2, ?_⟩, tries_upd h (t := t) rfl (fun _ _ _ hc => nomatch hc)⟩
    · have h1 := h.next
      rw [← e, Nat.add_mul] at h1
      have h2 : s.next + (p.count - q) + armed p (s.set t { s.wk t with pc := .scan q s.next (min (s.next + (p.count - q)) p.border.length) }) * p.count ≤
          p.border.length + p.workers * p.count := by omega
      exact h2
    · intro t' i ht' hi
      show i < s.next + (p.count - q) ∧ _
      by_cases hc : t' = t
      · rw [hc] at hi
        have := hnew i hi
        omega
      · have := h.takes t' i ht' (hold t' i ht' hc hi)
        omega
    · intro t1 t2 i h1 h2 hi hj
      by_cases c1 : t1 = t
      · by_cases c2 : t2 = t
        · rw [c1, c2]
        · rw [c1] at hi
          have a1 := hnew i hi
          have a2 := h.takes t2 i h2 (hold t2 i h2 c2 hj)
          omega
      · by_cases c2 : t2 = t
        · rw [c2] at hj
          have a1 := hnew i hj
          have a2 := h.takes t1 i h1 (hold t1 i h1 c1 hi)
          omega
        · exact h.disj t1 t2 i h1 h2 (hold t1 i h1 c1 hi) (hold t2 i h2 c2 hj)
    · intro i hi
      obtain ⟨a1, a2, a3⟩ := i3 i hi
      refine ⟨?_, a2, ?_⟩
      · show i < s.next + (p.count - q)
        omega
      · intro t' ht' hc
        by_cases c1 : t' = t
        · rw [c1] at hc
          have := hnew i hc
          omega
        · exact a3 t' ht' (hold t' i ht' c1 hc)
  | scanned t q i e ht hpc h1 => exact h.same (w := _) rfl rfl rfl (Nat.zero_le _) (fun i hi => hi.elim) (fun _ _ _ hc => nomatch hc)
  | skip t q i e ht hpc h1 h2 =>
    refine h.same (w := _) rfl rfl rfl (Nat.zero_le _) ?_ (fun _ _ _ hc => nomatch hc)
    intro j hj
    have hj : i + 1 ≤ j ∧ j < e := hj
    unfold Wk.takes; rw [hpc]
    exact ⟨by omega, hj.2⟩
  | look t q i e ht hpc h1 h2 =>
    refine h.same (w := _) rfl rfl rfl (Nat.zero_le _) ?_ (fun _ _ _ hc => by cases hc; exact h1)
    intro j hj
    have hj : i ≤ j ∧ j < e := hj
    unfold Wk.takes; rw [hpc]
    exact hj
  | seed t q i e ht hpc h2 =>
    have hie := h.tries t q i e ht hpc
    have hin : (s.wk t).takes i := by
      unfold Wk.takes; rw [hpc]; exact ⟨Nat.le_refl _, hie⟩
    have hle : ∀ j, ({ s.wk t with pc := .scan (q + 1) (i + 1) e, held := (s.wk t).held ++ [p.border.getD i 0]
                                   seeds := (s.wk t).seeds ++ [p.border.getD i 0] } : Wk).takes j → (s.wk t).takes j := by
      intro j hj
      have hj : i + 1 ≤ j ∧ j < e := hj
      unfold Wk.takes; rw [hpc]
      exact ⟨by omega, hj.2⟩
    have hc := h.same (s' := s.set t { s.wk t with pc := .scan (q + 1) (i + 1) e, held := (s.wk t).held ++ [p.border.getD i 0]
                                                   seeds := (s.wk t).seeds ++ [p.border.getD i 0] })
      (t := t) rfl rfl rfl (Nat.zero_le _) hle (fun _ _ _ hc => nomatch hc)
    obtain ⟨idx, i1, i2, i3⟩ := hc.handed
    obtain ⟨idx', j1, j2, j3⟩ := h.handed
    refine ⟨hc.next, hc.takes, hc.disj, ⟨idx' ++ [i], ?_, ?_, ?_⟩, hc.tries⟩
    · show s.handed ++ _ = _
      rw [List.map_append, j1]; rfl
    · refine List.Nodup.append j2 (by simp) ?_
      intro a ha hb
      rw [List.mem_singleton] at hb
      subst hb
      exact (j3 a ha).2.2 t ht hin
    · intro j hj
      rcases List.mem_append.1 hj with hj | hj
      · obtain ⟨a1, a2, a3⟩ := j3 j hj
        refine ⟨a1, a2, ?_⟩
        intro t' ht' hc'
        by_cases c1 : t' = t
        · rw [c1] at hc'
          have hc' : (upd s.wk t _ t).takes j := hc'
          rw [upd_same] at hc'
          exact a3 t ht (hle j hc')
        · have hc' : (upd s.wk t _ t').takes j := hc'
          rw [upd_ne _ _ c1] at hc'
          exact a3 t' ht' hc'
      · rw [List.mem_singleton] at hj
        subst hj
        obtain ⟨a1, a2⟩ := h.takes t j ht hin
        refine ⟨a1, a2, ?_⟩
        intro t' ht' hc'
        by_cases c1 : t' = t
        · rw [c1] at hc'
          have hc' : (upd s.wk t _ t).takes j := hc'
          rw [upd_same] at hc'
          have hc' : j + 1 ≤ j ∧ j < e := hc'
          omega
        · have hc' : (upd s.wk t _ t').takes j := hc'
          rw [upd_ne _ _ c1] at hc'
          exact c1 (h.disj t' t j ht' ht hc' hin)
  | noSeed t q i e ht hpc h2 =>
    refine h.same (w := _) rfl rfl rfl (Nat.zero_le _) ?_ (fun _ _ _ hc => nomatch hc)
    intro j hj
    have hj : i + 1 ≤ j ∧ j < e := hj
    unfold Wk.takes; rw [hpc]
    exact ⟨by omega, hj.2⟩
  | pop t u ht hpc h1 =>
    refine h.same (t := t) rfl rfl rfl (by unfold Wk.armed; simp only [hpc]; exact Nat.le_refl _) ?_ ?_
    · intro j hj
      unfold Wk.takes at hj; simp only [hpc] at hj
    · intro _ _ _ hc
      have hc : (s.wk t).pc = _ := hc
      rw [hpc] at hc; cases hc
  | improve t l ht hpc h1 => exact h.same (w := _) rfl rfl rfl (Nat.zero_le _) (fun i hi => hi.elim) (fun _ _ _ hc => nomatch hc)
  | mark t u l ht hpc => exact h.same (w := _) rfl rfl rfl (Nat.zero_le _) (fun i hi => hi.elim) (fun _ _ _ hc => nomatch hc)
  | marked t ht hpc => exact h.same (w := _) rfl rfl rfl (Nat.zero_le _) (fun i hi => hi.elim) (fun _ _ _ hc => nomatch hc)
  | visit t v ht hpc h1 => exact h.same (w := _) rfl rfl rfl (Nat.zero_le _) (fun i hi => hi.elim) (fun _ _ _ hc => nomatch hc)
  | touch t v ht hpc h1 => exact h.same (w := _) rfl rfl rfl (Nat.zero_le _) (fun i hi => hi.elim) (fun _ _ _ hc => nomatch hc)
  | noTouch t v ht hpc h1 => exact h.same (w := _) rfl rfl rfl (Nat.zero_le _) (fun i hi => hi.elim) (fun _ _ _ hc => nomatch hc)
  | stop t ht hpc => exact h.same (w := _) rfl rfl rfl (Nat.zero_le _) (fun i hi => hi.elim) (fun _ _ _ hc => nomatch hc)
  | keepSeed t u l ht hpc h1 => exact h.same (w := _) rfl rfl rfl (Nat.zero_le _) (fun i hi => hi.elim) (fun _ _ _ hc => nomatch hc)
  | read t x l ht hpc h1 => exact h.same (w := _) rfl rfl rfl (Nat.zero_le _) (fun i hi => hi.elim) (fun _ _ _ hc => nomatch hc)
  | unlock t u o y l ht hpc h1 => exact h.same (w := _) rfl rfl rfl (Nat.zero_le _) (fun i hi => hi.elim) (fun _ _ _ hc => nomatch hc)
  | leave t u o l ht hpc h1 => exact h.same (w := _) rfl rfl rfl (Nat.zero_le _) (fun i hi => hi.elim) (fun _ _ _ hc => nomatch hc)
  | done t ht hpc => exact h.same (w := _) rfl rfl rfl (Nat.zero_le _) (fun i hi => hi.elim) (fun _ _ _ hc => nomatch hc)

theorem init_cnt (p : Params) : Cnt p St.init := by
  refine ⟨?_, fun t i _ hi => hi.elim, fun t t' i _ _ hi => hi.elim,
    ⟨[], rfl, List.nodup_nil, fun i hi => absurd hi List.not_mem_nil⟩, fun _ _ _ _ _ hc => nomatch hc⟩
  have : armed p St.init = 0 := by
    unfold armed
    exact Finset.sum_eq_zero (fun _ _ => rfl)
  rw [this]
  show 0 + 0 * _ ≤ _
  omega

theorem reach_cnt {p : Params} (hb : p.border.length + p.workers * p.count < 2 ^ p.bits) {s : St} (h : Reach p St.init s) : Cnt p s := by
  induction h with
  | refl => exact init_cnt p
  | step _ hs ih => exact step_cnt hb ih hs

end Verif.FM.Tracker

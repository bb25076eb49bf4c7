import Verif.Math.Props
import Verif.Dist.Spec

namespace Verif.Dist
open Verif.Math

theorem subW_of_le {w a b : Nat} (h : b ≤ a) (ha : a < 2 ^ w) : subW w a b = a - b := by
  unfold subW
  rw [show a + 2 ^ w - b = (a - b) + 2 ^ w by omega, Nat.add_mod_right, Nat.mod_eq_of_lt (by omega)]

theorem lookup_none {l : List (Nat × Nat)} {k : Nat} : l.lookup k = none ↔ k ∉ l.map Prod.fst := by
  induction l with
  | nil => simp
  | cons a l ih =>
    rw [List.lookup_cons]
    by_cases h : k = a.1
    · simp [h]
    · have hb : (k == a.1) = false := by simpa using h
      rw [hb]
      simp [ih, h]

theorem mem_of_lookup {l : List (Nat × Nat)} {k v : Nat} (h : l.lookup k = some v) : (k, v) ∈ l := by
  induction l with
  | nil => simp at h
  | cons a l ih =>
    rw [List.lookup_cons] at h
    by_cases hk : k = a.1
    · have hb : (k == a.1) = true := by simpa using hk
      rw [hb] at h
      cases h
      rw [hk]
      exact List.mem_cons_self
    · have hb : (k == a.1) = false := by simpa using hk
      rw [hb] at h
      exact List.mem_cons_of_mem _ (ih h)

theorem lookup_of_mem {l : List (Nat × Nat)} {k v : Nat} (hn : (l.map Prod.fst).Nodup) (h : (k, v) ∈ l) : l.lookup k = some v := by
  induction l with
  | nil => cases h
  | cons a l ih =>
    rw [List.map_cons, List.nodup_cons] at hn
    rw [List.lookup_cons]
    rcases List.mem_cons.1 h with rfl | h
    · simp
    · have hb : (k == a.1) = false := by
        have : k ≠ a.1 := fun e => hn.1 (e ▸ List.mem_map_of_mem h)
        simpa using this
      rw [hb]
      exact ih hn.2 h

theorem getD_some {l : List Nat} {i : Nat} (h : i < l.length) : l[i]? = some (l.getD i 0) := by
  simp [h]

theorem getDI_some {l : List Int} {i : Nat} (h : i < l.length) : l[i]? = some (l.getD i 0) := by
  simp [h]

/-- The state of the loop over the edges after the iterations `pre`. -/
structure EInv (n fr ub : Nat) (adjncy : List Nat) (pre : List Nat) (s : Edges) : Prop where
  keys : (s.mapper.table.map Prod.fst).Nodup
  values : s.mapper.table.map Prod.snd = (List.range' n s.mapper.table.length).reverse
  next : s.mapper.next = n + s.mapper.table.length
  mem : ∀ g, g ∈ s.mapper.table.map Prod.fst ↔ ∃ e, e ∈ pre ∧ adjncy[e]? = some g ∧ (g < fr ∨ ub ≤ g)
  edges : ∀ e, e ∈ pre → ∃ v, adjncy[e]? = some v ∧
    if fr ≤ v ∧ v < ub then s.edges e = v - fr else s.mapper.table.lookup v = some (s.edges e)

variable {n fr ub : Nat} {adjncy : List Nat}

theorem step_ok {pre : List Nat} {s : Edges} (h : EInv n fr ub adjncy pre s) {e : Nat} (he : e < adjncy.length) (hpre : e ∉ pre)
    (hfit : n + ((adjncy.filter fun v => decide (v < fr ∨ ub ≤ v)).dedup).length < 2 ^ 32) (hub : ub - fr ≤ n) :
    ∃ s', mapEdge? fr ub adjncy s e = some s' ∧ EInv n fr ub adjncy (pre ++ [e]) s' := by
  obtain ⟨hk, hv, hn, hm, hE⟩ := h
  have hg : adjncy[e]? = some adjncy[e] := List.getElem?_eq_getElem he
  generalize hvv : adjncy[e] = v at hg
  unfold mapEdge?
  rw [hg]
  refine ⟨_, rfl, ?_⟩
  dsimp only
  have hold : ∀ {f : Edges}, f.edges = upd s.edges e (f.edges e) →
      (∀ v l, s.mapper.table.lookup v = some l → f.mapper.table.lookup v = some l) → ∀ x, x ∈ pre → ∃ v, adjncy[x]? = some v ∧
      if fr ≤ v ∧ v < ub then f.edges x = v - fr else f.mapper.table.lookup v = some (f.edges x) := by
    intro f hf hl x hx
    have hne : x ≠ e := fun h => hpre (h ▸ hx)
    obtain ⟨v, h1, h2⟩ := hE x hx
    refine ⟨v, h1, ?_⟩
    have hfx : f.edges x = s.edges x := by rw [hf, upd_ne _ _ hne]
    split
    · next hc =>
      rw [if_pos hc] at h2
      rw [hfx, h2]
    · next hc =>
      rw [if_neg hc] at h2
      rw [hfx]
      exact hl _ _ h2
  by_cases ho : fr ≤ v ∧ v < ub
  · rw [if_pos ho]
    refine ⟨hk, hv, hn, fun g => ?_, fun x hx => ?_⟩
    · rw [hm g]
      constructor
      · rintro ⟨x, h1, h2⟩
        exact ⟨x, List.mem_append_left _ h1, h2⟩
      · rintro ⟨x, h1, h2, h3⟩
        rcases List.mem_append.1 h1 with h1 | h1
        · exact ⟨x, h1, h2, h3⟩
        · rw [List.mem_singleton] at h1
          subst h1
          rw [hg] at h2
          cases h2
          omega
    · rcases List.mem_append.1 hx with hx | hx
      · exact hold (f := { s with edges := upd s.edges e ((v - fr) % 2 ^ 32) }) (by simp) (fun _ _ h => h) x hx
      · rw [List.mem_singleton] at hx
        subst hx
        refine ⟨v, hg, ?_⟩
        rw [if_pos ho]
        show upd s.edges x ((v - fr) % 2 ^ 32) x = v - fr
        rw [upd_same, Nat.mod_eq_of_lt (by omega)]
  · rw [if_neg ho]
    have hfo : v < fr ∨ ub ≤ v := by omega
    have hsub : s.mapper.table.map Prod.fst ⊆ (adjncy.filter fun v => decide (v < fr ∨ ub ≤ v)).dedup := by
      intro g hg'
      obtain ⟨x, _, h2, h3⟩ := (hm g).1 hg'
      rw [List.mem_dedup, List.mem_filter]
      exact ⟨List.mem_of_getElem? h2, by simpa using h3⟩
    cases hl : s.mapper.table.lookup v with
    | some l =>
      have hr : s.mapper.newGhostNode v = (s.mapper, l) := by unfold Mapper.newGhostNode; rw [hl]
      rw [hr]
      refine ⟨hk, hv, hn, fun g => ?_, fun x hx => ?_⟩
      · show g ∈ s.mapper.table.map Prod.fst ↔ _
        rw [hm g]
        constructor
        · rintro ⟨x, h1, h2⟩
          exact ⟨x, List.mem_append_left _ h1, h2⟩
        · rintro ⟨x, h1, h2, h3⟩
          rcases List.mem_append.1 h1 with h1 | h1
          · exact ⟨x, h1, h2, h3⟩
          · rw [List.mem_singleton] at h1
            subst h1
            rw [hg] at h2
            cases h2
            exact (hm v).1 (List.mem_map_of_mem (mem_of_lookup hl))
      · rcases List.mem_append.1 hx with hx | hx
        · exact hold (f := ⟨s.mapper, upd s.edges e l⟩) (by simp) (fun _ _ h => h) x hx
        · rw [List.mem_singleton] at hx
          subst hx
          refine ⟨v, hg, ?_⟩
          rw [if_neg ho]
          show s.mapper.table.lookup v = some (upd s.edges x l x)
          rw [upd_same, hl]
    | none =>
      have hnew := lookup_none.1 hl
      have hr : s.mapper.newGhostNode v = (⟨(v, s.mapper.next) :: s.mapper.table, (s.mapper.next + 1) % 2 ^ 32⟩, s.mapper.next) := by
        unfold Mapper.newGhostNode; rw [hl]
      rw [hr]
      have hlen : s.mapper.table.length + 1 ≤ ((adjncy.filter fun v => decide (v < fr ∨ ub ≤ v)).dedup).length := by
        have := nodup_length_le (l := v :: s.mapper.table.map Prod.fst) (List.nodup_cons.2 ⟨hnew, hk⟩)
          (m := (adjncy.filter fun v => decide (v < fr ∨ ub ≤ v)).dedup) (by
            intro g hg'
            rcases List.mem_cons.1 hg' with rfl | hg'
            · rw [List.mem_dedup, List.mem_filter]
              exact ⟨List.mem_of_getElem? hg, by simpa using hfo⟩
            · exact hsub hg')
        simpa using this
      refine ⟨List.nodup_cons.2 ⟨hnew, hk⟩, ?_, ?_, fun g => ?_, fun x hx => ?_⟩
      · show s.mapper.next :: s.mapper.table.map Prod.snd = (List.range' n (s.mapper.table.length + 1)).reverse
        rw [List.range'_concat, List.reverse_append, hv, hn]
        simp
      · show (s.mapper.next + 1) % 2 ^ 32 = n + (s.mapper.table.length + 1)
        rw [hn, Nat.mod_eq_of_lt (by omega)]
        omega
      · show g ∈ v :: s.mapper.table.map Prod.fst ↔ _
        rw [List.mem_cons, hm g]
        constructor
        · rintro (rfl | ⟨x, h1, h2⟩)
          · exact ⟨e, by simp, hg, hfo⟩
          · exact ⟨x, List.mem_append_left _ h1, h2⟩
        · rintro ⟨x, h1, h2, h3⟩
          rcases List.mem_append.1 h1 with h1 | h1
          · exact .inr ⟨x, h1, h2, h3⟩
          · rw [List.mem_singleton] at h1
            subst h1
            rw [hg] at h2
            cases h2
            exact .inl rfl
      · rcases List.mem_append.1 hx with hx | hx
        · refine hold (f := ⟨⟨(v, s.mapper.next) :: s.mapper.table, (s.mapper.next + 1) % 2 ^ 32⟩, upd s.edges e s.mapper.next⟩) (by simp)
            (fun w l h => ?_) x hx
          show List.lookup w ((v, s.mapper.next) :: s.mapper.table) = some l
          have hne : w ≠ v := fun he => by rw [he, hl] at h; cases h
          have hb : (w == v) = false := by simpa using hne
          rw [List.lookup_cons, hb]
          exact h
        · rw [List.mem_singleton] at hx
          subst hx
          refine ⟨v, hg, ?_⟩
          rw [if_neg ho]
          show List.lookup v ((v, s.mapper.next) :: s.mapper.table) = some (upd s.edges x s.mapper.next x)
          rw [upd_same]
          simp

theorem loop_ok (hfit : n + ((adjncy.filter fun v => decide (v < fr ∨ ub ≤ v)).dedup).length < 2 ^ 32) (hub : ub - fr ≤ n) :
    ∀ (order pre : List Nat) (s : Edges), EInv n fr ub adjncy pre s → (∀ e, e ∈ order → e < adjncy.length) → (pre ++ order).Nodup →
    ∃ s', order.foldlM (mapEdge? fr ub adjncy) s = some s' ∧ EInv n fr ub adjncy (pre ++ order) s'
  | [], pre, s, h, _, _ => ⟨s, rfl, by rw [List.append_nil]; exact h⟩
  | e :: order, pre, s, h, hb, hnd => by
    have hpre : e ∉ pre := fun hm => (List.nodup_append.1 hnd).2.2 e hm e List.mem_cons_self rfl
    obtain ⟨s1, h1, i1⟩ := step_ok h (hb e List.mem_cons_self) hpre hfit hub
    have hnd' : ((pre ++ [e]) ++ order).Nodup := by simpa using hnd
    obtain ⟨s2, h2, i2⟩ := loop_ok hfit hub order (pre ++ [e]) s1 i1 (fun x hx => hb x (List.mem_cons_of_mem _ hx)) hnd'
    refine ⟨s2, ?_, by simpa using i2⟩
    rw [List.foldlM_cons, h1]
    exact h2

/-- The arrays of `finalize` after the entries `pre`. -/
structure FInv (dist : List Nat) (n : Nat) (pre : List (Nat × Nat)) (t : Ghosts) : Prop where
  arrays : ∀ e, e ∈ pre → t.toGlobal (e.2 - n) = e.1 ∧ t.owner (e.2 - n) = findInDistribution e.1 dist
  table : t.toGhost = (pre.map fun e => (e.1 + 1, e.2)).reverse

theorem finalize_ok {dist : List Nat} {n ghostN : Nat} (hfit : n + ghostN < 2 ^ 32) : ∀ (l pre : List (Nat × Nat)) (t : Ghosts),
    FInv dist n pre t → (∀ e, e ∈ l → n ≤ e.2 ∧ e.2 < n + ghostN) → ((pre ++ l).map Prod.fst).Nodup → ((pre ++ l).map Prod.snd).Nodup →
    (∀ e, e ∈ pre → n ≤ e.2) →
    ∃ t', l.foldlM (finalizeEntry? dist n ghostN) t = some t' ∧ FInv dist n (pre ++ l) t'
  | [], pre, t, h, _, _, _, _ => ⟨t, rfl, by rw [List.append_nil]; exact h⟩
  | e :: l, pre, t, h, hb, hk, hv, hp => by
    have heb := hb e List.mem_cons_self
    have hsub : subW 32 e.2 n = e.2 - n := subW_of_le heb.1 (by omega)
    have hk' : e.1 ∉ pre.map Prod.fst := by
      rw [List.map_append, List.nodup_append] at hk
      intro hm
      exact hk.2.2 _ hm _ (by simp) rfl
    have hv' : e.2 ∉ pre.map Prod.snd := by
      rw [List.map_append, List.nodup_append] at hv
      intro hm
      exact hv.2.2 _ hm _ (by simp) rfl
    have hnone : t.toGhost.lookup (e.1 + 1) = none := by
      rw [lookup_none, h.table]
      intro hm
      apply hk'
      simp only [List.map_reverse, List.mem_reverse, List.mem_map] at hm ⊢
      obtain ⟨_, ⟨x, h1, rfl⟩, h2⟩ := hm
      exact ⟨x, h1, by simpa using h2⟩
    have hstep : finalizeEntry? dist n ghostN t e = some { toGlobal := upd t.toGlobal (e.2 - n) e.1
                                                           owner := upd t.owner (e.2 - n) (findInDistribution e.1 dist)
                                                           toGhost := (e.1 + 1, e.2) :: t.toGhost } := by
      unfold finalizeEntry?
      rw [hsub, if_pos (by omega), hnone]
      rfl
    have key : FInv dist n (pre ++ [e]) { toGlobal := upd t.toGlobal (e.2 - n) e.1
                                          owner := upd t.owner (e.2 - n) (findInDistribution e.1 dist)
                                          toGhost := (e.1 + 1, e.2) :: t.toGhost } := by
      refine ⟨fun x hx => ?_, ?_⟩
      · rcases List.mem_append.1 hx with hx | hx
        · have hne : x.2 - n ≠ e.2 - n := by
            have h1 := hp x hx
            have : x.2 ≠ e.2 := fun he => hv' (he ▸ List.mem_map_of_mem hx)
            omega
          dsimp only
          rw [upd_ne _ _ hne, upd_ne _ _ hne]
          exact h.arrays x hx
        · rw [List.mem_singleton] at hx
          subst hx
          dsimp only
          rw [upd_same, upd_same]
          exact ⟨rfl, rfl⟩
      · dsimp only
        rw [h.table]
        simp
    obtain ⟨t', h1, h2⟩ := finalize_ok hfit l (pre ++ [e]) _ key (fun x hx => hb x (List.mem_cons_of_mem _ hx)) (by simpa using hk)
      (by simpa using hv) (fun x hx => by
        rcases List.mem_append.1 hx with hx | hx
        · exact hp x hx
        · rw [List.mem_singleton] at hx
          rw [hx]; exact heb.1)
    refine ⟨t', ?_, by simpa using h2⟩
    rw [List.foldlM_cons, hstep]
    exact h1

end Verif.Dist

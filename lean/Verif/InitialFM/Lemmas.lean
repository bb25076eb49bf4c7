import Verif.InitialFM.Spec
import Verif.Gains.Lemmas
import Verif.Metrics.Props
import Mathlib.Data.Finset.Max
import Mathlib.Tactic.Ring
import Mathlib.Tactic.Linarith

namespace Verif.InitialFM
open Finset
open Verif.Metrics (totalOverload)

/-! ## Order of the nodes -/

theorem perm_flatMap {α β : Type} {f g : α → List β} {l : List α} (h : ∀ a ∈ l, (f a).Perm (g a)) :
    (l.flatMap f).Perm (l.flatMap g) := by
  induction l with
  | nil => exact .refl _
  | cons a l ih =>
    rw [List.flatMap_cons, List.flatMap_cons]
    exact (h a List.mem_cons_self).append (ih fun b hb => h b (List.mem_cons_of_mem _ hb))

theorem range_chunks (size : Nat) : ∀ m, ((List.range m).flatMap fun i => (List.range size).map fun x => i * size + x) =
    List.range (m * size)
  | 0 => by simp
  | m + 1 => by
    rw [List.range_succ, List.flatMap_append, range_chunks size m, Nat.succ_mul, List.range_add]
    simp

theorem visitOrder_perm {size n : Nat} (hs : 0 < size) {chunks : List Nat} {perm : Nat → List Nat}
    (hc : chunks.Perm (List.range (n / size + 1))) (hp : ∀ j, (perm j).Perm (List.range size)) :
    (visitOrder size n chunks perm).Perm (List.range n) := by
  have h1 : (chunks.zipIdx.flatMap fun (i, j) => (perm j).map fun x => i * size + x).Perm
      (List.range ((n / size + 1) * size)) := by
    refine (perm_flatMap (g := fun a => (List.range size).map fun x => a.1 * size + x)
      fun a _ => (hp a.2).map _).trans ?_
    have : (chunks.zipIdx.flatMap fun a => (List.range size).map fun x => a.1 * size + x) =
        chunks.flatMap fun i => (List.range size).map fun x => i * size + x := by
      conv_rhs => rw [← List.zipIdx_map_fst 0 chunks, List.flatMap_map]
    rw [this, ← range_chunks]
    exact hc.flatMap_right _
  refine (h1.filter _).trans ?_
  have hle : n ≤ (n / size + 1) * size := by
    have := Nat.div_add_mod n size
    have := Nat.mod_lt n hs
    rw [Nat.succ_mul, Nat.mul_comm]; omega
  obtain ⟨k, hk⟩ := Nat.exists_eq_add_of_le hle
  rw [hk, List.range_add, List.filter_append, List.filter_eq_self.2, List.filter_eq_nil_iff.2]
  · simp
  · intro a ha
    obtain ⟨b, _, rfl⟩ := List.mem_map.1 ha
    simp
  · intro a ha; simpa using ha

/-! ## Gains -/

theorem foldl_add_eq {α : Type} (f : α → Int) (l : List α) (a : Int) :
    l.foldl (fun s t => s + f t) a = a + (l.map f).sum := Verif.Metrics.foldl_sum f l a

theorem wdeg_eq (g : Graph) (u : Nat) : wdeg g u = ((g.adj u).map Prod.snd).sum := by
  unfold wdeg; rw [foldl_add_eq (fun e : Nat × Int => e.2)]; simp

theorem gain_eq (g : Graph) (p : Nat → Nat) (u : Nat) :
    gain g p u = wdeg g u - 2 * g.conn u (fun v => p v ≠ p u) := by
  unfold gain Graph.conn
  simp only [foldl_add_eq (fun e : Nat × Int => if p e.1 ≠ p u then e.2 else 0), zero_add]
  ring

theorem conn_add_not (g : Graph) (u : Nat) (P : Nat → Prop) [DecidablePred P] :
    g.conn u P + g.conn u (fun v => ¬ P v) = wdeg g u := by
  rw [wdeg_eq]; unfold Graph.conn
  induction g.adj u with
  | nil => rfl
  | cons a l ih =>
    simp only [List.map_cons, List.sum_cons]
    beta_reduce at ih
    by_cases h : P a.1
    · rw [if_pos h, if_neg (not_not.2 h)]; omega
    · rw [if_neg h, if_pos h]; omega

theorem conn_congr {g : Graph} {u : Nat} {P Q : Nat → Prop} [DecidablePred P] [DecidablePred Q]
    (h : ∀ e ∈ g.adj u, P e.1 ↔ Q e.1) : g.conn u P = g.conn u Q := by
  unfold Graph.conn
  congr 1
  apply List.map_congr_left
  intro e he
  simp only [h e he]

theorem conn_nonneg {g : Graph} (h : Valid g) {u : Nat} (hu : u < g.n) (P : Nat → Prop) [DecidablePred P] :
    0 ≤ g.conn u P := by
  unfold Graph.conn
  apply List.sum_nonneg
  intro x hx
  obtain ⟨e, he, rfl⟩ := List.mem_map.1 hx
  have := h.nonneg u hu e he
  split <;> omega

theorem wt_self {g : Graph} (h : Valid g) {u : Nat} (hu : u < g.n) : g.wt u u = 0 := by
  unfold Graph.wt
  rw [List.filter_eq_nil_iff.2]
  · rfl
  · intro e he; simpa using h.noLoop u hu e he

theorem flip_eq {p : Nat → Nat} {u : Nat} : flip p u = upd p u (1 - p u) := by
  funext v
  unfold flip upd
  split
  · rename_i h; rw [h]
  · rfl

/-- The gain is the change of the cut. -/
theorem cut_flip {g : Graph} (h : Valid g) {p : Nat → Nat} (hp : ∀ u, u < g.n → p u < 2) {u : Nat} (hu : u < g.n) :
    g.cut (flip p u) = g.cut p + gain g p u := by
  rw [flip_eq, Verif.Gains.cut_upd g h.wf h.symm p hu (wt_self h hu), gain_eq]
  have h1 := conn_add_not g u (fun v => p v = p u)
  have h2 : g.conn u (fun v => p v = 1 - p u) = g.conn u (fun v => ¬ p v = p u) := by
    apply conn_congr
    intro e he
    have := hp _ (h.wf u hu e he)
    have := hp u hu
    omega
  have h3 : g.conn u (fun v => p v ≠ p u) = g.conn u (fun v => ¬ p v = p u) := rfl
  rw [h2, h3]; omega

/-- The weight of the edges of the list that lead to `v`. -/
def lw (l : List (Nat × Int)) (v : Nat) : Int := (l.map fun e => if e.1 = v then e.2 else 0).sum

theorem lw_adj (g : Graph) (u v : Nat) : lw (g.adj u) v = g.wt u v := (g.wt_eq u v).symm

theorem lw_cons (e : Nat × Int) (l : List (Nat × Int)) (v : Nat) : lw (e :: l) v = (if e.1 = v then e.2 else 0) + lw l v := by
  simp [lw]

theorem lw_nonneg {l : List (Nat × Int)} (h : ∀ e ∈ l, 0 ≤ e.2) (v : Nat) : 0 ≤ lw l v := by
  unfold lw
  apply List.sum_nonneg
  intro x hx
  obtain ⟨e, he, rfl⟩ := List.mem_map.1 hx
  have := h e he
  split <;> omega

def sgn (dst b : Nat) : Int := if dst = b then 1 else -1

theorem gain_flip {g : Graph} {p : Nat → Nat} {u v : Nat} (hu : u < g.n) (hp : ∀ u, u < g.n → p u < 2)
    (hv : v < g.n) (hne : v ≠ u) :
    gain g (flip p u) v = gain g p v + 2 * g.wt v u * sgn (1 - p u) (p v) := by
  rw [gain_eq, gain_eq]
  have hv' : flip p u v = p v := if_neg hne
  have key : g.conn v (fun x => flip p u x ≠ p v) = g.conn v (fun x => p x ≠ p v) - g.wt v u * sgn (1 - p u) (p v) := by
    rw [g.wt_eq]; unfold Graph.conn
    have := hp u hu
    have := hp v hv
    induction g.adj v with
    | nil => simp
    | cons e l ih =>
      simp only [List.map_cons, List.sum_cons, Int.add_mul]
      rw [ih]
      have : (if flip p u e.1 ≠ p v then e.2 else 0) =
          (if p e.1 ≠ p v then e.2 else 0) - (if e.1 = u then e.2 else 0) * sgn (1 - p u) (p v) := by
        by_cases he : e.1 = u
        · rw [he]
          have : flip p u u = 1 - p u := if_pos rfl
          rw [this]
          unfold sgn
          by_cases h1 : 1 - p u = p v
          · have : p u ≠ p v := by omega
            simp [h1, this]
          · have : p u = p v := by omega
            simp only [this, ne_eq, not_true, if_false]
            rw [this] at h1
            simp [h1]
        · have : flip p u e.1 = p e.1 := if_neg he
          rw [this]; simp [he]
      rw [this]; ring
  rw [hv', key]; ring

theorem gain_le (g : Graph) (h : Valid g) (p : Nat → Nat) {u : Nat} (hu : u < g.n) : gain g p u ≤ wdeg g u := by
  rw [gain_eq]
  have := conn_nonneg h hu (fun v => p v ≠ p u)
  omega

/-- A node outside the block of `v` accounts for at most the external degree of `v`. -/
theorem gain_ext {g : Graph} (h : Valid g) {p : Nat → Nat} {u v : Nat} (hv : v < g.n) (hne : p u ≠ p v) :
    gain g p v + 2 * g.wt v u ≤ wdeg g v := by
  rw [gain_eq, g.wt_eq]
  have : ((g.adj v).map fun e => if e.1 = u then e.2 else 0).sum ≤ g.conn v (fun x => p x ≠ p v) := by
    unfold Graph.conn
    have hn := h.nonneg v hv
    revert hn
    induction g.adj v with
    | nil => intro _; simp
    | cons e l ih =>
      intro hn
      simp only [List.map_cons, List.sum_cons]
      have h0 := hn e List.mem_cons_self
      have := ih fun e he => hn e (List.mem_cons_of_mem _ he)
      beta_reduce at this
      have : (if e.1 = u then e.2 else 0) ≤ (if p e.1 ≠ p v then e.2 else 0) := by
        by_cases he : e.1 = u
        · rw [he]; simp [hne]
        · rw [if_neg he]; split <;> omega
      omega
  omega

/-! ## The heaps -/

/-- The heaps hold unmarked nodes with the key `val`, and the other unmarked nodes have `val = wdeg`. -/
structure Good (g : Graph) (part : Nat → Nat) (marked : Nat → Bool) (qs : Queues) (val : Nat → Int) : Prop where
  bd : (∀ u, u < g.n → ∀ e ∈ g.adj u, 0 < e.2) → ∀ b v x, qs b v = some x → x < wdeg g v
  key : ∀ b v x, qs b v = some x → v < g.n ∧ part v = b ∧ marked v = false ∧ x = val v
  out : ∀ v, v < g.n → marked v = false → qs (part v) v = none → val v = wdeg g v

theorem upd2_apply (qs : Queues) (b u : Nat) (x : Option Int) (b' v : Nat) :
    upd qs b (upd (qs b) u x) b' v = if b' = b ∧ v = u then x else qs b' v := by
  by_cases h : b' = b
  · subst h
    by_cases h' : v = u <;> simp [upd, h']
  · simp [upd, h]

theorem visit_fold {g : Graph} {part : Nat → Nat} {marked : Nat → Bool} {dst : Nat} :
    ∀ (l : List (Nat × Int)) (qs : Queues) (val : Nat → Int), Good g part marked qs val →
    (∀ e ∈ l, e.1 < g.n ∧ 0 ≤ e.2) → ((∀ u, u < g.n → ∀ e ∈ g.adj u, 0 < e.2) → ∀ e ∈ l, 0 < e.2) →
    (∀ v, v < g.n → marked v = false → val v ≤ wdeg g v ∧ (part v = dst → val v + 2 * lw l v ≤ wdeg g v)) →
    ∃ qs', l.foldlM (visit? g part marked dst) qs = some qs' ∧
      Good g part marked qs' fun v => val v + 2 * lw l v * sgn dst (part v)
  | [], qs, val, h, _, _, _ => ⟨qs, rfl, by simpa [lw] using h⟩
  | e :: l, qs, val, h, hl, hpos, hle => by
    have he := hl e List.mem_cons_self
    have hl' : ∀ e ∈ l, e.1 < g.n ∧ 0 ≤ e.2 := fun e he => hl e (List.mem_cons_of_mem _ he)
    have hl0 : ∀ v, 0 ≤ lw l v := lw_nonneg fun e he => (hl' e he).2
    rw [List.foldlM_cons]
    let val' := fun v => val v + 2 * (if e.1 = v then e.2 else 0) * sgn dst (part v)
    have hcase : ∀ v, v < g.n → marked v = false →
        val' v ≤ wdeg g v ∧ (part v = dst → val' v + 2 * lw l v ≤ wdeg g v) := by
      intro v hv hm
      have h1 := hle v hv hm
      have h2 := hl0 v
      rw [lw_cons] at h1
      show val v + 2 * (if e.1 = v then e.2 else 0) * sgn dst (part v) ≤ _ ∧
        (_ → val v + 2 * (if e.1 = v then e.2 else 0) * sgn dst (part v) + _ ≤ _)
      unfold sgn
      by_cases hd : dst = part v
      · rw [if_pos hd]
        have := h1.2 hd.symm
        split at this
        · rename_i hev; rw [if_pos hev]; constructor
          · omega
          · intro _; omega
        · rename_i hev; rw [if_neg hev]; constructor
          · omega
          · intro _; omega
      · rw [if_neg hd]
        refine ⟨?_, fun h => absurd h.symm hd⟩
        have := h1.1
        split
        · omega
        · omega
    suffices hs : ∃ qs1, visit? g part marked dst qs e = some qs1 ∧ Good g part marked qs1 val' by
      obtain ⟨qs1, h1, h2⟩ := hs
      obtain ⟨qs2, h3, h4⟩ := visit_fold l qs1 val' h2 hl' (fun h e he => hpos h e (List.mem_cons_of_mem _ he)) hcase
      refine ⟨qs2, by rw [h1]; exact h3, ?_⟩
      have : (fun v => val v + 2 * lw (e :: l) v * sgn dst (part v)) =
          fun v => val' v + 2 * lw l v * sgn dst (part v) := by
        funext v
        show _ = val v + 2 * (if e.1 = v then e.2 else 0) * sgn dst (part v) + _
        rw [lw_cons]; ring
      rw [this]; exact h4
    have hother : ∀ v, v ≠ e.1 → val' v = val v := by
      intro v hv
      show val v + 2 * (if e.1 = v then e.2 else 0) * sgn dst (part v) = val v
      rw [if_neg (Ne.symm hv)]; omega
    have hself : val' e.1 = val e.1 + 2 * e.2 * sgn dst (part e.1) := by
      show val e.1 + 2 * (if e.1 = e.1 then e.2 else 0) * sgn dst (part e.1) = _
      rw [if_pos rfl]
    unfold visit?
    by_cases hm : marked e.1
    · simp only [hm, if_true]
      refine ⟨qs, rfl, ⟨h.bd, fun b v x hx => ?_, fun v hv hmv hx => ?_⟩⟩
      · obtain ⟨h1, h2, h3, h4⟩ := h.key b v x hx
        have : v ≠ e.1 := by rintro rfl; rw [hm] at h3; cases h3
        exact ⟨h1, h2, h3, by rw [hother v this]; exact h4⟩
      · have : v ≠ e.1 := by rintro rfl; rw [hm] at hmv; cases hmv
        rw [hother v this]; exact h.out v hv hmv hx
    · have hm : marked e.1 = false := by simpa using hm
      simp only [hm, Bool.false_eq_true, if_false]
      have hv' := (hcase e.1 he.1 hm).1
      have hsg : (2 * e.2 * if dst = part e.1 then (1 : Int) else -1) = 2 * e.2 * sgn dst (part e.1) := rfl
      rw [hsg]
      cases hq : qs (part e.1) e.1 with
      | some key =>
        obtain ⟨_, _, _, hk⟩ := h.key _ _ _ hq
        simp only
        split
        · rename_i hlt
          refine ⟨_, rfl, ⟨fun hp b v x hx => ?_, fun b v x hx => ?_, fun v hv hmv hx => ?_⟩⟩
          · unfold change at hx
            rw [upd2_apply] at hx
            split at hx
            · rename_i hb
              obtain ⟨rfl, rfl⟩ := hb
              rw [← Option.some.inj hx]; exact hlt
            · exact h.bd hp b v x hx
          · unfold change at hx
            rw [upd2_apply] at hx
            split at hx
            · rename_i hb
              obtain ⟨rfl, rfl⟩ := hb
              refine ⟨he.1, rfl, hm, ?_⟩
              rw [hself, ← hk]; exact (Option.some.inj hx).symm
            · rename_i hb
              obtain ⟨h1, h2, h3, h4⟩ := h.key b v x hx
              have : v ≠ e.1 := by rintro rfl; exact hb ⟨h2.symm, rfl⟩
              exact ⟨h1, h2, h3, by rw [hother v this]; exact h4⟩
          · unfold change at hx
            rw [upd2_apply] at hx
            split at hx
            · cases hx
            · rename_i hb
              have : v ≠ e.1 := by rintro rfl; exact hb ⟨rfl, rfl⟩
              rw [hother v this]; exact h.out v hv hmv hx
        · rename_i hge
          refine ⟨_, rfl, ⟨fun hp b v x hx => ?_, fun b v x hx => ?_, fun v hv hmv hx => ?_⟩⟩
          · unfold remove at hx
            rw [upd2_apply] at hx
            split at hx
            · cases hx
            · exact h.bd hp b v x hx
          · unfold remove at hx
            rw [upd2_apply] at hx
            split at hx
            · cases hx
            · rename_i hb
              obtain ⟨h1, h2, h3, h4⟩ := h.key b v x hx
              have : v ≠ e.1 := by rintro rfl; exact hb ⟨h2.symm, rfl⟩
              exact ⟨h1, h2, h3, by rw [hother v this]; exact h4⟩
          · by_cases hve : v = e.1
            · subst hve
              rw [hself] at hv' ⊢
              rw [hk] at hge
              omega
            · rw [hother v hve]
              refine h.out v hv hmv ?_
              unfold remove at hx
              rw [upd2_apply, if_neg fun hb => hve hb.2] at hx
              exact hx
      | none =>
        simp only
        unfold push?
        rw [hq]
        have hval := h.out _ he.1 hm hq
        refine ⟨_, rfl, ⟨fun hp b v x hx => ?_, fun b v x hx => ?_, fun v hv hmv hx => ?_⟩⟩
        · rw [upd2_apply] at hx
          split at hx
          · rename_i hb
            obtain ⟨rfl, rfl⟩ := hb
            rw [← Option.some.inj hx]
            have h0 := hpos hp e List.mem_cons_self
            rw [hself, hval] at hv'
            unfold sgn at hv' ⊢
            split at hv' <;> split <;> omega
          · exact h.bd hp b v x hx
        · rw [upd2_apply] at hx
          split at hx
          · rename_i hb
            obtain ⟨rfl, rfl⟩ := hb
            refine ⟨he.1, rfl, hm, ?_⟩
            rw [hself, hval]; exact (Option.some.inj hx).symm
          · rename_i hb
            obtain ⟨h1, h2, h3, h4⟩ := h.key b v x hx
            have : v ≠ e.1 := by rintro rfl; exact hb ⟨h2.symm, rfl⟩
            exact ⟨h1, h2, h3, by rw [hother v this]; exact h4⟩
        · rw [upd2_apply] at hx
          split at hx
          · cases hx
          · rename_i hb
            have : v ≠ e.1 := by rintro rfl; exact hb ⟨rfl, rfl⟩
            rw [hother v this]; exact h.out v hv hmv hx

/-- `init_pq`. -/
theorem init_fold {g : Graph} {part : Nat → Nat} : ∀ (l : List Nat) (qs : Queues), l.Nodup → (∀ u ∈ l, u < g.n) →
    (∀ u ∈ l, ∀ b, qs b u = none) → (∀ b v x, qs b v = some x → v < g.n ∧ part v = b ∧ x = gain g part v) →
    ∃ qs', l.foldlM (insert? g part) qs = some qs' ∧
      (∀ b v x, qs' b v = some x → v < g.n ∧ part v = b ∧ x = gain g part v) ∧
      (∀ v, qs (part v) v ≠ none → qs' (part v) v ≠ none) ∧
      ∀ u ∈ l, qs' (part u) u = none → gain g part u = wdeg g u
  | [], qs, _, _, _, h => ⟨qs, rfl, h, fun _ h => h, fun u hu => absurd hu List.not_mem_nil⟩
  | u :: l, qs, hn, hl, hq, h => by
    obtain ⟨hul, hn⟩ := List.nodup_cons.1 hn
    have hl' := fun v hv => hl v (List.mem_cons_of_mem _ hv)
    rw [List.foldlM_cons]
    unfold insert?
    split
    · rename_i hne
      unfold push?
      rw [hq u List.mem_cons_self]
      obtain ⟨qs', h1, h2, h3, h4⟩ := init_fold l (upd qs (part u) (upd (qs (part u)) u (some (gain g part u)))) hn hl'
        (fun v hv b => by
          have hvu : ¬ (b = part u ∧ v = u) := fun hb => hul (hb.2 ▸ hv)
          rw [upd2_apply, if_neg hvu]
          exact hq v (List.mem_cons_of_mem _ hv) b)
        (fun b v x hx => by
          rw [upd2_apply] at hx
          split at hx
          · rename_i hb; obtain ⟨rfl, rfl⟩ := hb
            exact ⟨hl _ List.mem_cons_self, rfl, (Option.some.inj hx).symm⟩
          · exact h b v x hx)
      refine ⟨qs', h1, h2, fun v hv => h3 v ?_, fun v hv hx => ?_⟩
      · rw [upd2_apply]; split
        · simp
        · exact hv
      · rcases List.mem_cons.1 hv with rfl | hv
        · refine absurd hx (h3 v ?_)
          rw [upd2_apply, if_pos ⟨rfl, rfl⟩]; simp
        · exact h4 v hv hx
    · rename_i heq
      obtain ⟨qs', h1, h2, h3, h4⟩ := init_fold l qs hn hl' (fun v hv => hq v (List.mem_cons_of_mem _ hv)) h
      refine ⟨qs', h1, h2, h3, fun v hv hx => ?_⟩
      rcases List.mem_cons.1 hv with rfl | hv
      · by_contra hc; exact heq (Ne.symm hc)
      · exact h4 v hv hx

theorem init_bd {g : Graph} (hg : Valid g) {part : Nat → Nat} : ∀ (l : List Nat) (qs : Queues), (∀ u ∈ l, u < g.n) →
    (∀ b v x, qs b v = some x → x < wdeg g v) → ∀ qs', l.foldlM (insert? g part) qs = some qs' →
    ∀ b v x, qs' b v = some x → x < wdeg g v
  | [], qs, _, h, qs', h' => by cases h'; exact h
  | u :: l, qs, hl, h, qs', h' => by
    have hl' := fun v hv => hl v (List.mem_cons_of_mem _ hv)
    rw [List.foldlM_cons] at h'
    have hle := gain_le g hg part (hl u List.mem_cons_self)
    unfold insert? at h'
    split at h'
    · rename_i hne
      unfold push? at h'
      split at h'
      · cases h'
      · refine init_bd hg l _ hl' (fun b v x hx => ?_) qs' h'
        rw [upd2_apply] at hx
        split at hx
        · rename_i hb
          rw [← Option.some.inj hx, hb.2]; omega
        · exact h b v x hx
    · exact init_bd hg l qs hl' h qs' h'

theorem initPq_good {g : Graph} (hg : Valid g) {part : Nat → Nat} {o : Oracle} (ho : o.Ok g.n) :
    ∃ qs, initPq? g part o = some qs ∧ Good g part (fun _ => false) qs (gain g part) := by
  have hp := visitOrder_perm (by decide : 0 < chunkSize) ho.chunks ho.perm
  obtain ⟨qs, h1, h2, _, h4⟩ := init_fold (g := g) (part := part) (visitOrder chunkSize g.n o.chunks o.perm) (fun _ _ => none)
    (hp.nodup_iff.2 List.nodup_range) (fun u hu => by simpa using hp.mem_iff.1 hu) (fun _ _ _ => rfl) (by simp)
  refine ⟨qs, h1, ⟨fun _ => init_bd hg _ _ (fun u hu => by simpa using hp.mem_iff.1 hu) (by simp) qs h1,
    fun b v x hx => ?_, fun v hv _ hx => ?_⟩⟩
  · obtain ⟨a, b, c⟩ := h2 b v x hx
    exact ⟨a, b, rfl, c⟩
  · exact h4 v (hp.mem_iff.2 (by simpa using hv)) hx

/-! ## Selection -/

theorem isEmpty_false {c : Cfg} {q : Nat → Option Int} : isEmpty c q = false ↔ ∃ u, u < c.g.n ∧ ∃ x, q u = some x := by
  unfold isEmpty
  rw [List.all_eq_false]
  simp only [List.mem_range]
  constructor
  · rintro ⟨u, hu, h⟩
    cases hq : q u with
    | none => rw [hq] at h; simp at h
    | some x => exact ⟨u, hu, x, hq⟩
  · rintro ⟨u, hu, x, h⟩
    exact ⟨u, hu, by rw [h]; simp⟩

theorem isEmpty_true {c : Cfg} {q : Nat → Option Int} : isEmpty c q = true ↔ ∀ u, u < c.g.n → q u = none := by
  unfold isEmpty
  simp

theorem mem_smallest {c : Cfg} {q : Nat → Option Int} {u : Nat} : u ∈ smallest c q ↔
    u < c.g.n ∧ ∃ x, q u = some x ∧ ∀ v, v < c.g.n → ∀ y, q v = some y → x ≤ y := by
  unfold smallest
  rw [List.mem_filter, List.mem_range]
  constructor
  · rintro ⟨hu, h⟩
    refine ⟨hu, ?_⟩
    cases hq : q u with
    | none => rw [hq] at h; cases h
    | some x =>
      rw [hq] at h
      refine ⟨x, rfl, fun v hv y hy => ?_⟩
      have := List.all_eq_true.1 h v (List.mem_range.2 hv)
      rw [hy] at this
      simpa using this
  · rintro ⟨hu, x, hx, h⟩
    refine ⟨hu, ?_⟩
    rw [hx]
    apply List.all_eq_true.2
    intro v hv
    cases hq : q v with
    | none => rfl
    | some y => simpa using h v (List.mem_range.1 hv) y hq

theorem smallest_ne {c : Cfg} {q : Nat → Option Int} (h : isEmpty c q = false) : smallest c q ≠ [] := by
  obtain ⟨u, hu, x, hx⟩ := isEmpty_false.1 h
  obtain ⟨m, hm, hmin⟩ := Finset.exists_min_image ((range c.g.n).filter fun u => q u ≠ none) (fun u => (q u).getD 0)
    ⟨u, by simp [hu, hx]⟩
  simp only [mem_filter, mem_range, ne_eq] at hm hmin
  cases hq : q m with
  | none => exact absurd hq hm.2
  | some y =>
    apply List.ne_nil_of_mem (a := m)
    rw [mem_smallest]
    refine ⟨hm.1, y, hq, fun v hv z hz => ?_⟩
    have := hmin v ⟨hv, by rw [hz]; simp⟩
    rw [hq, hz] at this
    exact this

theorem peek_some {c : Cfg} {q : Nat → Option Int} (h : isEmpty c q = false) (tie : Nat) :
    ∃ u x, peek? c q tie = some (u, x) ∧ u < c.g.n ∧ q u = some x ∧ ∀ v, v < c.g.n → ∀ y, q v = some y → x ≤ y := by
  have hne := smallest_ne h
  have hlt : tie % (smallest c q).length < (smallest c q).length := Nat.mod_lt _ (List.length_pos_of_ne_nil hne)
  have hmem := List.getElem_mem hlt
  obtain ⟨hu, x, hx, hmin⟩ := mem_smallest.1 hmem
  refine ⟨_, x, ?_, hu, hx, hmin⟩
  unfold peek?
  rw [List.getElem?_eq_getElem hlt]
  simp only [hx]; rfl

theorem peek_none {c : Cfg} {q : Nat → Option Int} (h : isEmpty c q = true) (tie : Nat) : peek? c q tie = none := by
  have : smallest c q = [] := by
    rw [List.eq_nil_iff_forall_not_mem]
    intro u hu
    obtain ⟨hu, x, hx, _⟩ := mem_smallest.1 hu
    rw [isEmpty_true.1 h u hu] at hx; cases hx
  unfold peek?
  rw [this]; rfl

theorem selectWeight_lt (c : Cfg) (s : St) (coin : Bool) : selectWeight c s coin < 2 := by
  unfold selectWeight; simp only; split <;> omega

theorem select_lt (c : Cfg) (s : St) (coin : Bool) : select c s coin < 2 := by
  have h1 : selectGain c s coin < 2 := by
    unfold selectGain
    split
    · exact selectWeight_lt c s coin
    · split <;> omega
  unfold select; simp only
  split
  · exact h1
  · split <;> omega

theorem active_lt (c : Cfg) (s : St) (coin : Bool) : active c s coin < 2 := by
  have := select_lt c s coin
  unfold active; simp only
  split <;> omega

/-- If some heap is not empty, the chosen heap is not empty. -/
theorem active_nonempty {c : Cfg} {s : St} (coin : Bool)
    (h : ¬ (isEmpty c (s.queues 0) = true ∧ isEmpty c (s.queues 1) = true)) :
    isEmpty c (s.queues (active c s coin)) = false := by
  have := select_lt c s coin
  unfold active
  simp only
  by_cases he : isEmpty c (s.queues (select c s coin)) = true
  · rw [if_pos he]
    by_contra hc
    have hc : isEmpty c (s.queues (1 - select c s coin)) = true := by simpa using hc
    apply h
    rcases (by omega : select c s coin = 0 ∨ select c s coin = 1) with h0 | h0
    · rw [h0] at he hc; exact ⟨he, hc⟩
    · rw [h0] at he hc; exact ⟨hc, he⟩
  · rw [if_neg he]; simpa using he

/-! ## Block weights -/

theorem blockW_upd {g : Graph} {p : Nat → Nat} {u : Nat} (hu : u < g.n) (d b : Nat) :
    blockW g (upd p u d) b = blockW g p b - (if p u = b then g.w u else 0) + (if d = b then g.w u else 0) := by
  unfold blockW
  exact sum_upd (range g.n) (fun v x => if x = b then g.w v else 0) p (mem_range.2 hu) d

theorem blockW_congr {g : Graph} {p q : Nat → Nat} (h : ∀ u, u < g.n → p u = q u) (b : Nat) : blockW g p b = blockW g q b := by
  unfold blockW
  apply Finset.sum_congr rfl
  intro u hu; rw [h u (mem_range.1 hu)]

theorem cut_congr {g : Graph} {p q : Nat → Nat} (h : ∀ u, u < g.n → p u = q u) : g.cut p = g.cut q := by
  unfold Graph.cut
  apply Finset.sum_congr rfl
  intro u hu
  apply Finset.sum_congr rfl
  intro v hv
  have hu := mem_range.1 hu
  rw [h u hu, h v (by have := mem_range.1 hv; omega)]

theorem over_congr {g : Graph} {m : Nat → Int} {p q : Nat → Nat} (h : ∀ u, u < g.n → p u = q u) : over g m p = over g m q := by
  unfold over; rw [blockW_congr h, blockW_congr h]

theorem totalOverload_eq {g : Graph} {m : Nat → Int} {p : Nat → Nat} {bw : Nat → Int} (h : Bipartition g p bw) :
    totalOverload 2 bw m = over g m p := by
  unfold totalOverload over
  rw [← h.bw0, ← h.bw1]
  simp [List.range_succ]

theorem setBlock_ok {g : Graph} {p : Nat → Nat} {bw : Nat → Int} (h : Bipartition g p bw) {u : Nat} (hu : u < g.n) :
    (setBlock g p bw u (1 - p u)).1 = flip p u ∧
    Bipartition g (setBlock g p bw u (1 - p u)).1 (setBlock g p bw u (1 - p u)).2 := by
  have hlt := h.lt u hu
  refine ⟨flip_eq.symm, ⟨fun v hv => ?_, ?_, ?_⟩⟩
  · show upd p u (1 - p u) v < 2
    by_cases hvu : v = u
    · rw [hvu, upd_same]; omega
    · rw [upd_ne _ _ hvu]; exact h.lt v hv
  · show upd (upd bw (p u) (bw (p u) - g.w u)) (1 - p u) _ 0 = blockW g (upd p u (1 - p u)) 0
    rw [blockW_upd hu]
    rcases (by omega : p u = 0 ∨ p u = 1) with h0 | h0 <;> rw [h0] <;> simp [upd, h.bw0]
  · show upd (upd bw (p u) (bw (p u) - g.w u)) (1 - p u) _ 1 = blockW g (upd p u (1 - p u)) 1
    rw [blockW_upd hu]
    rcases (by omega : p u = 0 ∨ p u = 1) with h0 | h0 <;> rw [h0] <;> simp [upd, h.bw1]

end Verif.InitialFM

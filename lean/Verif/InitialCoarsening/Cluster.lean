import Verif.InitialCoarsening.Rating
import Verif.InitialCoarsening.Spec

/-!
# Clusterings
-/

namespace Verif.InitialCoarsening
open Verif.Maps (FastResetArray)
open Finset

theorem fit_eq {bits : Nat} (hb : 0 < bits) {x : Int} (h0 : 0 ≤ x) (h1 : x < 2 ^ (bits - 1)) : fit bits x = x := by
  unfold fit
  obtain ⟨k, rfl⟩ : ∃ k, bits = k + 1 := ⟨bits - 1, by omega⟩
  simp only [Nat.add_sub_cancel] at h1
  have h2 : ((2 ^ (k + 1) : Nat) : Int) = 2 * 2 ^ k := by push_cast; rw [pow_succ]; ring
  apply Int.bmod_eq_of_le
  · rw [h2]; generalize (2 : Int) ^ k = y at *; omega
  · rw [h2]; generalize (2 : Int) ^ k = y at *; omega

theorem sum_if_le {n : Nat} {w : Nat → Int} (hw : ∀ u, u < n → 0 ≤ w u) (p : Nat → Prop) [DecidablePred p] :
    0 ≤ ∑ u ∈ range n, (if p u then w u else 0) ∧ ∑ u ∈ range n, (if p u then w u else 0) ≤ ∑ u ∈ range n, w u := by
  constructor
  · apply Finset.sum_nonneg
    intro u hu
    have := hw u (mem_range.1 hu)
    split <;> omega
  · apply Finset.sum_le_sum
    intro u hu
    have := hw u (mem_range.1 hu)
    split <;> omega

/-- A clustering of `n` nodes with weights `w`: leaders represent their clusters, know their weights, and every cluster of more
than one node has at most weight `max` and is connected by `R`. -/
structure VC (n : Nat) (w : Nat → Int) (R : Nat → Nat → Prop) (max : Int) (cl : Clus) : Prop where
  lt : ∀ u, u < n → cl.leader u < n
  idem : ∀ u, u < n → cl.leader (cl.leader u) = cl.leader u
  lock : ∀ u, u < n → cl.locked u = true → cl.leader u = u
  lead : ∀ u, u < n → cl.leader u ≠ u → cl.locked (cl.leader u) = true
  weight : ∀ l, l < n → cl.leader l = l → cl.weight l = ∑ u ∈ range n, if cl.leader u = l then w u else 0
  moves : cl.moves = #{u ∈ range n | cl.leader u ≠ u}
  bound : ∀ l, l < n → cl.locked l = true → cl.weight l ≤ max
  conn : ∀ u, u < n → Relation.ReflTransGen (fun a b => R a b ∧ cl.leader a = cl.leader b) u (cl.leader u)

theorem VC.mono {n : Nat} {w : Nat → Int} {R R' : Nat → Nat → Prop} {max max' : Int} {cl : Clus} (h : VC n w R max cl)
    (hm : max ≤ max') (hR : ∀ a b, R a b → R' a b) : VC n w R' max' cl :=
  { h with
    bound := fun l hl hk => (h.bound l hl hk).trans hm
    conn := fun u hu => Relation.ReflTransGen.mono (p := fun a b => R' a b ∧ cl.leader a = cl.leader b)
      (fun _ _ hab => ⟨hR _ _ hab.1, hab.2⟩) u _ (h.conn u hu) }

theorem VC.congr_w {n : Nat} {w w' : Nat → Int} {R : Nat → Nat → Prop} {max : Int} {cl : Clus} (h : VC n w R max cl)
    (hw : ∀ u, u < n → w u = w' u) : VC n w' R max cl :=
  { h with
    weight := fun l hl hk => by
      rw [h.weight l hl hk]
      apply Finset.sum_congr rfl
      intro u hu
      rw [hw u (mem_range.1 hu)] }

theorem reset_vc {bits n : Nat} {w : Nat → Int} (hs : Small bits n w) (R : Nat → Nat → Prop) (max : Int) (cl : Clus) :
    VC n w R max (reset bits n w cl) := by
  have hl : ∀ u, u < n → (reset bits n w cl).leader u = u := fun u hu => if_pos hu
  have hk : ∀ u, u < n → (reset bits n w cl).locked u = false := fun u hu => if_pos hu
  refine ⟨fun u hu => by rw [hl u hu]; exact hu, fun u hu => by rw [hl u hu, hl u hu], fun u hu _ => hl u hu,
    fun u hu h => absurd (hl u hu) h, fun l hlt _ => ?_, ?_, fun l hlt h => ?_, fun u hu => ?_⟩
  · have h1 : (reset bits n w cl).weight l = fit bits (w l) := if_pos hlt
    have h2 := sum_if_le hs.nonneg (fun u => u = l)
    have h3 : ∑ u ∈ range n, (if (reset bits n w cl).leader u = l then w u else 0) = w l := by
      rw [Finset.sum_congr rfl (g := fun u => if u = l then w u else 0) fun u hu => by rw [hl u (mem_range.1 hu)]]
      simp [hlt]
    have h4 : ∑ u ∈ range n, (if u = l then w u else 0) = w l := by simp [hlt]
    rw [h4] at h2
    have := hs.total
    rw [h3, h1, fit_eq hs.pos h2.1 (by omega)]
  · show 0 = _
    symm
    rw [Finset.card_eq_zero, Finset.filter_eq_empty_iff]
    intro u hu
    simp [hl u (mem_range.1 hu)]
  · rw [hk l hlt] at h; cases h
  · rw [hl u hu]

/-- A node of its own joins the cluster of a neighbour. -/
theorem join_vc {bits n : Nat} {w : Nat → Int} (hs : Small bits n w) {R : Nat → Nat → Prop} {max : Int} {cl : Clus}
    (h : VC n w R max cl) {u best : Nat} (hu : u < n) (hul : cl.locked u = false) (huu : cl.leader u = u)
    (hb : best = u ∨ (∃ v, v < n ∧ R u v ∧ cl.leader v = best) ∧ cl.weight best + w u ≤ max) :
    VC n w R max (join bits cl u best (w u)) := by
  unfold join
  split
  · rename_i hbu
    obtain ⟨⟨v, hv, huv, hvb⟩, hfit⟩ := hb.resolve_left hbu
    have hbn : best < n := hvb ▸ h.lt v hv
    have hbb : cl.leader best = best := by rw [← hvb]; exact h.idem v hv
    -- nobody else is in the cluster of `u`
    have hno : ∀ x, x < n → cl.leader x = u → x = u := by
      intro x hx he
      by_contra hne
      have := h.lead x hx (by rw [he]; exact Ne.symm hne)
      rw [he, hul] at this
      cases this
    have hl : ∀ x, x ≠ u → upd cl.leader u best x = cl.leader x := fun x hx => upd_ne _ _ hx
    have hlu : upd cl.leader u best u = best := upd_same _ _ _
    have hlb : upd cl.leader u best best = best := by rw [hl best hbu]; exact hbb
    refine ⟨?_, ?_, ?_, ?_, ?_, ?_, ?_, ?_⟩
    · intro x hx
      show upd cl.leader u best x < n
      by_cases hxu : x = u
      · rw [hxu, hlu]; exact hbn
      · rw [hl x hxu]; exact h.lt x hx
    · intro x hx
      show upd cl.leader u best (upd cl.leader u best x) = upd cl.leader u best x
      by_cases hxu : x = u
      · rw [hxu, hlu, hlb]
      · rw [hl x hxu, hl _ (fun he => hxu (hno x hx he))]; exact h.idem x hx
    · intro x hx hk
      show upd cl.leader u best x = x
      replace hk : upd cl.locked best true x = true := hk
      by_cases hxb : x = best
      · rw [hxb, hlb]
      · rw [upd_ne _ _ hxb] at hk
        have hxu : x ≠ u := by rintro rfl; rw [hul] at hk; cases hk
        rw [hl x hxu]; exact h.lock x hx hk
    · intro x hx hne
      show upd cl.locked best true (upd cl.leader u best x) = true
      have hne : upd cl.leader u best x ≠ x := hne
      by_cases hxu : x = u
      · rw [hxu, hlu, upd_same]
      · rw [hl x hxu] at hne ⊢
        by_cases hxb : cl.leader x = best
        · rw [hxb, upd_same]
        · rw [upd_ne _ _ hxb]; exact h.lead x hx hne
    · intro l hln hle
      show upd cl.weight best (fit bits (cl.weight best + w u)) l =
        ∑ x ∈ range n, if upd cl.leader u best x = l then w x else 0
      have hle : upd cl.leader u best l = l := hle
      have hsum := sum_upd (range n) (fun x y => if y = l then w x else 0) cl.leader (mem_range.2 hu) best
      have hlu' : l ≠ u := by rintro rfl; rw [hlu] at hle; exact hbu hle
      rw [hsum, huu, if_neg (Ne.symm hlu')]
      rw [hl l hlu'] at hle
      have hw := h.weight l hln hle
      by_cases hlb' : l = best
      · rw [hlb'] at hw ⊢
        rw [upd_same, if_pos rfl, ← hw]
        have htot : cl.weight best + w u =
            ∑ x ∈ range n, if upd cl.leader u best x = best then w x else 0 := by
          have := sum_upd (range n) (fun x y => if y = best then w x else 0) cl.leader (mem_range.2 hu) best
          rw [this, huu, if_neg (Ne.symm hbu), if_pos rfl, ← hw]; ring
        have h2 := sum_if_le hs.nonneg (fun x => upd cl.leader u best x = best)
        have := hs.total
        rw [fit_eq hs.pos (by omega) (by omega)]
        ring
      · rw [upd_ne _ _ hlb', if_neg (Ne.symm hlb'), hw]; ring
    · show cl.moves + 1 = #{x ∈ range n | upd cl.leader u best x ≠ x}
      have : ({x ∈ range n | upd cl.leader u best x ≠ x} : Finset Nat) = insert u {x ∈ range n | cl.leader x ≠ x} := by
        ext x
        simp only [mem_filter, mem_range, mem_insert]
        by_cases hxu : x = u
        · rw [hxu, hlu]; simp [hu, hbu]
        · rw [hl x hxu]; simp [hxu]
      rw [this, Finset.card_insert_of_notMem (by simp [huu]), h.moves]
    · intro l hln hk
      show upd cl.weight best (fit bits (cl.weight best + w u)) l ≤ max
      have hk : upd cl.locked best true l = true := hk
      by_cases hlb' : l = best
      · rw [hlb', upd_same]
        have hw := h.weight best hbn hbb
        have h2 := sum_if_le hs.nonneg (fun x => cl.leader x = best)
        have htot : cl.weight best + w u =
            ∑ x ∈ range n, if upd cl.leader u best x = best then w x else 0 := by
          have := sum_upd (range n) (fun x y => if y = best then w x else 0) cl.leader (mem_range.2 hu) best
          rw [this, huu, if_neg (Ne.symm hbu), if_pos rfl, ← hw]; ring
        have h3 := sum_if_le hs.nonneg (fun x => upd cl.leader u best x = best)
        have := hs.total
        rw [fit_eq hs.pos (by omega) (by omega)]
        exact hfit
      · rw [upd_ne _ _ hlb'] at hk ⊢
        exact h.bound l hln hk
    · have hmono : ∀ x, x < n → x ≠ u → Relation.ReflTransGen
          (fun a b => R a b ∧ upd cl.leader u best a = upd cl.leader u best b) x (cl.leader x) := by
        intro x hx hxu
        -- the path stays in the cluster of `x`, so it avoids `u`
        have key : ∀ {a b : Nat}, Relation.ReflTransGen (fun a b => R a b ∧ cl.leader a = cl.leader b) a b →
            cl.leader a = cl.leader x →
            cl.leader b = cl.leader x ∧ Relation.ReflTransGen
              (fun a b => R a b ∧ upd cl.leader u best a = upd cl.leader u best b) a b := by
          intro a b hab
          induction hab with
          | refl => exact fun h => ⟨h, .refl⟩
          | tail _ hbc ih =>
            intro ha
            obtain ⟨h1, h2⟩ := ih ha
            rename_i b c _
            have hne : ∀ y, cl.leader y = cl.leader x → y ≠ u := by
              rintro y hy rfl
              rw [huu] at hy
              exact hxu (hno x hx hy.symm)
            refine ⟨by rw [← hbc.2]; exact h1, h2.tail ⟨hbc.1, ?_⟩⟩
            rw [hl b (hne b h1), hl c (hne c (by rw [← hbc.2]; exact h1))]
            exact hbc.2
        exact (key (h.conn x hx) rfl).2
      intro x hx
      show Relation.ReflTransGen (fun a b => R a b ∧ upd cl.leader u best a = upd cl.leader u best b) x
        (upd cl.leader u best x)
      by_cases hxu : x = u
      · rw [hxu, hlu]
        have hvu : v ≠ u := by rintro rfl; rw [huu] at hvb; exact hbu hvb.symm
        have h1 := hmono v hv hvu
        rw [hvb] at h1
        exact h1.head ⟨huv, by rw [hlu, hl v hvu, hvb]⟩
      · rw [hl x hxu]; exact hmono x hx hxu
  · exact h

theorem join_leader {bits : Nat} {cl : Clus} {u best : Nat} {uw : Int} {v : Nat} (h : v ≠ u) :
    (join bits cl u best uw).leader v = cl.leader v := by
  unfold join
  split
  · exact upd_ne _ _ h
  · rfl

/-- The state of label propagation: the nodes in `todo` were not handled. -/
structure LpInv (bits : Nat) (max : Int) (g : Graph) (cap : Nat) (todo : List Nat) (s : St) : Prop where
  vc : VC g.n g.w (Adj g) max s.cl
  rating : s.rating = FastResetArray.new cap
  fresh : ∀ u ∈ todo, s.cl.leader u = u

theorem rate_ok {cap : Nat} {leader : Nat → Nat} : ∀ (l : List (Nat × Int)) (r : FastResetArray) (ins : List (Nat × Int)),
    Holds r ins → Positive ins → r.cap = cap → (∀ e ∈ l, 0 < e.2 ∧ leader e.1 < cap) →
    ∃ r', l.foldlM (fun (r : FastResetArray) e => r.modify? (leader e.1) (· + e.2)) r = some r' ∧ r'.cap = cap ∧
      Holds r' (ins ++ l.map fun e => (leader e.1, e.2)) ∧ Positive (ins ++ l.map fun e => (leader e.1, e.2))
  | [], r, ins, h, hp, hc, _ => ⟨r, rfl, hc, by simpa using h, by simpa using hp⟩
  | e :: l, r, ins, h, hp, hc, hl => by
    have he := hl e List.mem_cons_self
    obtain ⟨r1, h1, h2, h3⟩ := holds_add h hp (k := leader e.1) (by rw [hc]; exact he.2) e.2
    have hp1 : Positive (ins ++ [(leader e.1, e.2)]) := by
      intro x hx
      rcases List.mem_append.1 hx with hx | hx
      · exact hp x hx
      · rw [List.mem_singleton.1 hx]; exact he.1
    obtain ⟨r2, h4, h5, h6, h7⟩ := rate_ok l r1 _ h3 hp1 (h2.trans hc) fun e he => hl e (List.mem_cons_of_mem _ he)
    refine ⟨r2, ?_, h5, ?_, ?_⟩
    · rw [List.foldlM_cons, h1]; exact h4
    · simpa [List.append_assoc] using h6
    · simpa [List.append_assoc] using h7

theorem handle_ok {bits : Nat} {max : Int} {coin : Nat → Nat → Bool} {g : Graph} {cap : Nat} (hg : g.WF)
    (hpos : ∀ u, u < g.n → ∀ e ∈ g.adj u, 0 < e.2) (hs : Small bits g.n g.w) (hcap : g.n ≤ cap) {u : Nat} {todo : List Nat}
    {s : St} (h : LpInv bits max g cap (u :: todo) s) (hu : u < g.n) (hnd : u ∉ todo) :
    ∃ s', handle? bits max coin g s u = some s' ∧ LpInv bits max g cap todo s' ∧ s'.ilocked = s.ilocked := by
  unfold handle?
  split
  · exact ⟨s, rfl, { h with fresh := fun v hv => h.fresh v (List.mem_cons_of_mem _ hv) }, rfl⟩
  · rename_i hk
    have hk : s.cl.locked u = false := by simpa using hk
    obtain ⟨r, h1, h2, h3, h4⟩ := rate_ok (cap := cap) (leader := s.cl.leader) (g.adj u) s.rating []
      (by rw [h.rating]; exact holds_new cap) (by intro e he; cases he) (by rw [h.rating]; rfl)
      fun e he => ⟨hpos u hu e he, (h.vc.lt e.1 (hg u hu e he)).trans_le hcap⟩
    obtain ⟨best, h5, h6, _⟩ := pick_ok (max := max) (uw := g.w u) (coin := coin u) (cl := s.cl) (u := u) h3 h4
    refine ⟨{ s with cl := join bits s.cl u best (g.w u), rating := FastResetArray.new r.cap },
      by rw [h1]; simp only [Option.bind_eq_bind, Option.bind_some, h5], ?_, rfl⟩
    refine ⟨?_, by simp only [h2], ?_⟩
    · apply join_vc hs h.vc hu hk (h.fresh u List.mem_cons_self)
      rcases h6 with h6 | ⟨h6, h7⟩
      · exact Or.inl h6
      · refine Or.inr ⟨?_, h7⟩
        rw [List.nil_append, List.map_map] at h6
        obtain ⟨e, he, rfl⟩ := List.mem_map.1 h6
        exact ⟨e.1, hg u hu e he, ⟨e, he, rfl⟩, rfl⟩
    · intro v hv
      show (join bits s.cl u best (g.w u)).leader v = v
      rw [join_leader (by rintro rfl; exact hnd hv)]
      exact h.fresh v (List.mem_cons_of_mem _ hv)

theorem handle_fold {bits : Nat} {max : Int} {coin : Nat → Nat → Bool} {g : Graph} {cap : Nat} (hg : g.WF)
    (hpos : ∀ u, u < g.n → ∀ e ∈ g.adj u, 0 < e.2) (hs : Small bits g.n g.w) (hcap : g.n ≤ cap) :
    ∀ (order : List Nat) (s : St), LpInv bits max g cap order s → (∀ u ∈ order, u < g.n) → order.Nodup →
    ∃ s', order.foldlM (handle? bits max coin g) s = some s' ∧ LpInv bits max g cap [] s'
  | [], s, h, _, _ => ⟨s, rfl, h⟩
  | u :: order, s, h, hlt, hnd => by
    obtain ⟨s1, h1, h2, _⟩ := handle_ok (coin := coin) hg hpos hs hcap h (hlt u List.mem_cons_self) (List.nodup_cons.1 hnd).1
    obtain ⟨s2, h3, h4⟩ := handle_fold hg hpos hs hcap order s1 h2 (fun v hv => hlt v (List.mem_cons_of_mem _ hv))
      (List.nodup_cons.1 hnd).2
    exact ⟨s2, by rw [List.foldlM_cons, h1]; exact h3, h4⟩

theorem lp_ok {bits : Nat} {max : Int} {g : Graph} {cap : Nat} (hg : g.WF)
    (hpos : ∀ u, u < g.n → ∀ e ∈ g.adj u, 0 < e.2) (hs : Small bits g.n g.w) (hcap : g.n ≤ cap) {o : Oracle}
    {order : List Nat} (hlt : ∀ u ∈ order, u < g.n) (hnd : order.Nodup) {s : St} (hr : s.rating = FastResetArray.new cap) :
    ∃ s', lp? bits max o order g s = some s' ∧ VC g.n g.w (Adj g) max s'.cl ∧ s'.rating = FastResetArray.new cap := by
  obtain ⟨s', h1, h2⟩ := handle_fold (coin := o.coinLp) (max := max) hg hpos hs hcap order
    { s with cl := reset bits g.n g.w s.cl }
    ⟨reset_vc hs _ _ _, hr, fun u hu => if_pos (hlt u hu)⟩ hlt hnd
  exact ⟨s', h1, h2.vc, h2.rating⟩

end Verif.InitialCoarsening

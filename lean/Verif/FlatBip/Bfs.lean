import Verif.FlatBip.Fill

/-! Lemmas: growing two blocks by breadth first search. -/

namespace Verif.FlatBip
open Finset
open Verif.InitialFM

/-- The invariant of the loop: marked nodes are still queued or assigned, except for the nodes in `hole`.  If `H` holds, the blocks
are within their limits. -/
structure BInv (c : Cfg) (H : Prop) (hole : Nat → Prop) (s : BFS) : Prop where
  acc : Acc c.g s.assigned s.s
  mem : ∀ b, b < 2 → ∀ u ∈ s.queue b, u < c.g.n
  marked : ∀ b, b < 2 → ∀ u, u < c.g.n → s.marked b u = true → u ∈ s.queue b ∨ s.assigned u = true ∨ hole u
  pushed : ∀ b, b < 2 → s.pushed b = cnt c.g.n (s.marked b)
  active : s.active < 2
  bal : H → ∀ b, b < 2 → s.s.bw b ≤ c.maxW b

/-- The number of iterations that are left. -/
def mu (n : Nat) (s : BFS) : Nat := (n - s.pushed 0) + (n - s.pushed 1) + (s.queue 0).length + (s.queue 1).length

theorem bfsPush_ok {c : Cfg} {cap : Nat} (hcap : c.g.n ≤ cap) {H : Prop} {hole : Nat → Prop} {s : BFS} (h : BInv c H hole s) {b u : Nat}
    (hb : b < 2) (hu : u < c.g.n) (hm : s.marked b u = false) :
    ∃ s', bfsPush? cap s b u = some s' ∧ BInv c H hole s' ∧ mu c.g.n s' = mu c.g.n s ∧ s'.active = s.active ∧ s'.assigned = s.assigned ∧
      s'.queue = upd s.queue b (s.queue b ++ [u]) := by
  have hlt := cnt_lt hu hm
  have hp := h.pushed b hb
  unfold bfsPush?
  rw [if_pos (by omega)]
  refine ⟨_, rfl, ⟨h.acc, ?_, ?_, ?_, h.active, h.bal⟩, ?_, rfl, rfl, rfl⟩
  · intro b' hb' v hv
    change v ∈ upd s.queue b (s.queue b ++ [u]) b' at hv
    by_cases hbb : b' = b
    · subst hbb
      rw [upd_same] at hv
      rcases List.mem_append.1 hv with h1 | h1
      · exact h.mem b' hb' v h1
      · rw [List.mem_singleton.1 h1]; exact hu
    · rw [upd_ne _ _ hbb] at hv; exact h.mem b' hb' v hv
  · intro b' hb' v hv hmv
    change upd s.marked b (upd (s.marked b) u true) b' v = true at hmv
    show v ∈ upd s.queue b (s.queue b ++ [u]) b' ∨ _
    by_cases hbb : b' = b
    · subst hbb
      rw [upd_same] at hmv ⊢
      by_cases hvu : v = u
      · left; simp [hvu]
      · rw [upd_ne _ _ hvu] at hmv
        rcases h.marked b' hb' v hv hmv with h1 | h1
        · left; simp [h1]
        · right; exact h1
    · rw [upd_ne _ _ hbb] at hmv ⊢; exact h.marked b' hb' v hv hmv
  · intro b' hb'
    show upd s.pushed b (s.pushed b + 1) b' = cnt c.g.n (upd s.marked b (upd (s.marked b) u true) b')
    by_cases hbb : b' = b
    · subst hbb; rw [upd_same, upd_same, cnt_upd hu hm, hp]
    · rw [upd_ne _ _ hbb, upd_ne _ _ hbb]; exact h.pushed b' hb'
  · unfold mu
    show (c.g.n - upd s.pushed b (s.pushed b + 1) 0) + (c.g.n - upd s.pushed b (s.pushed b + 1) 1) +
      (upd s.queue b (s.queue b ++ [u]) 0).length + (upd s.queue b (s.queue b ++ [u]) 1).length = _
    rcases (by omega : b = 0 ∨ b = 1) with rfl | rfl
    · rw [upd_same, upd_same, upd_ne _ _ (by decide), upd_ne _ _ (by decide), List.length_append]
      simp only [List.length_singleton]
      omega
    · rw [upd_same, upd_same, upd_ne _ _ (by decide), upd_ne _ _ (by decide), List.length_append]
      simp only [List.length_singleton]
      omega

theorem bfsVisit_fold {c : Cfg} {cap : Nat} (hcap : c.g.n ≤ cap) {H : Prop} {hole : Nat → Prop} : ∀ (l : List (Nat × Int)) (s : BFS),
    (∀ e ∈ l, e.1 < c.g.n) → BInv c H hole s →
    ∃ s', l.foldlM (bfsVisit? cap) s = some s' ∧ BInv c H hole s' ∧ mu c.g.n s' = mu c.g.n s ∧ s'.active = s.active ∧
      s'.assigned = s.assigned
  | [], s, _, h => ⟨s, rfl, h, rfl, rfl, rfl⟩
  | e :: l, s, hl, h => by
    have hl' : ∀ e ∈ l, e.1 < c.g.n := fun x hx => hl x (List.mem_cons_of_mem _ hx)
    rw [List.foldlM_cons]
    unfold bfsVisit?
    by_cases hc : s.assigned e.1 = true ∨ s.marked s.active e.1 = true
    · rw [if_pos hc]
      exact bfsVisit_fold hcap l s hl' h
    · rw [if_neg hc]
      obtain ⟨s1, h1, h2, h3, h4, h5, _⟩ := bfsPush_ok hcap h h.active (hl e List.mem_cons_self)
        (by rw [not_or] at hc; simpa using hc.2)
      obtain ⟨s2, h6, h7, h8, h9, h10⟩ := bfsVisit_fold hcap l s1 hl' h2
      exact ⟨s2, by rw [h1]; exact h6, h7, by rw [h8, h3], by rw [h9, h4], by rw [h10, h5]⟩

/-- What is used about the weights and limits. -/
structure Slack (c : Cfg) (M : Int) : Prop where
  w : ∀ u, u < c.g.n → 0 ≤ c.g.w u ∧ c.g.w u ≤ M
  le : FlatBip.total c.g + M ≤ c.maxW 0 + c.maxW 1 + 1
  limit : ∀ b, b < 2 → 0 ≤ c.maxW b

theorem bfsAssign_ok {c : Cfg} {cap : Nat} (hcap : c.g.n ≤ cap) (hg : c.g.WF) {H : Prop} {M : Int} (hH : H → Slack c M) {s : BFS} {u : Nat}
    (hu : u < c.g.n) (h : BInv c H (fun v => v = u) s) :
    ∃ s', bfsAssign? c cap s u = some s' ∧ BInv c H (fun _ => False) s' ∧ mu c.g.n s' = mu c.g.n s := by
  unfold bfsAssign?
  by_cases ha : s.assigned u = true
  · rw [if_pos ha]
    refine ⟨s, rfl, ⟨h.acc, h.mem, ?_, h.pushed, h.active, h.bal⟩, rfl⟩
    intro b hb v hv hm
    rcases h.marked b hb v hv hm with h1 | h1 | h1
    · exact Or.inl h1
    · exact Or.inr (Or.inl h1)
    · rw [h1]; exact Or.inr (Or.inl ha)
  · rw [if_neg ha]
    have ha : s.assigned u = false := by simpa using ha
    simp only
    generalize hact : (if s.s.bw s.active + c.g.w u ≤ c.maxW s.active then s.active else 1 - s.active) = a
    have ha2 : a < 2 := by
      have := h.active
      rw [← hact]; split <;> omega
    have hinv : BInv c H (fun _ => False)
        { s with active := a, s := FlatBip.setBlock c.g s.s u a, assigned := upd s.assigned u true } := by
      refine ⟨h.acc.set hu ha ha2, h.mem, ?_, h.pushed, ha2, ?_⟩
      · intro b hb v hv hm
        show v ∈ s.queue b ∨ upd s.assigned u true v = true ∨ False
        by_cases hvu : v = u
        · subst hvu; simp
        · rw [upd_ne _ _ hvu]
          rcases h.marked b hb v hv hm with h1 | h1 | h1
          · exact Or.inl h1
          · exact Or.inr (Or.inl h1)
          · exact absurd h1 hvu
      · intro hh b hb
        have hsl := hH hh
        show upd s.s.bw a (s.s.bw a + c.g.w u) b ≤ c.maxW b
        by_cases hba : b = a
        · subst hba
          rw [upd_same]
          by_cases hfit : s.s.bw s.active + c.g.w u ≤ c.maxW s.active
          · rw [if_pos hfit] at hact
            rw [← hact]; exact hfit
          · rw [if_neg hfit] at hact
            have h1 := h.acc.total
            have h2 := assigned_le (fun v hv => (hsl.w v hv).1) hu ha
            have h3 := hsl.w u hu
            have h4 := hsl.le
            have := h.active
            rcases (by omega : s.active = 0 ∨ s.active = 1) with h5 | h5
            · rw [h5] at hfit hact
              subst hact
              simp only [Nat.sub_zero]
              omega
            · rw [h5] at hfit hact
              subst hact
              simp only [Nat.sub_self]
              omega
        · rw [upd_ne _ _ hba]; exact h.bal hh b hb
    obtain ⟨s', h1, h2, h3, _, _⟩ := bfsVisit_fold hcap (c.g.adj u) _ (hg u hu) hinv
    exact ⟨s', h1, h2, h3⟩

theorem next_lt (sel : Select) (c : Cfg) (s : BFS) : sel.next c s < 2 := by
  cases sel <;> unfold Select.next <;> simp only <;> first | omega | (split <;> omega)

theorem bfsTake_ok {c : Cfg} {sel : Select} {cap : Nat} (hcap : c.g.n ≤ cap) (hg : c.g.WF) {H : Prop} {M : Int} (hH : H → Slack c M) {s : BFS}
    (h : BInv c H (fun _ => False) s) (hne : s.queue s.active ≠ []) :
    ∃ s', bfsTake? c sel cap s = some s' ∧ BInv c H (fun _ => False) s' ∧ mu c.g.n s' + 1 = mu c.g.n s := by
  unfold bfsTake?
  have hact := h.active
  cases hq : s.queue s.active with
  | nil => exact absurd hq hne
  | cons u q =>
    simp only
    have hu : u < c.g.n := h.mem _ hact u (by rw [hq]; exact List.mem_cons_self)
    have hinv : BInv c H (fun v => v = u) { s with queue := upd s.queue s.active q } := by
      refine ⟨h.acc, ?_, ?_, h.pushed, h.active, h.bal⟩
      · intro b hb v hv
        change v ∈ upd s.queue s.active q b at hv
        by_cases hba : b = s.active
        · subst hba
          rw [upd_same] at hv
          exact h.mem _ hact v (by rw [hq]; exact List.mem_cons_of_mem _ hv)
        · rw [upd_ne _ _ hba] at hv; exact h.mem b hb v hv
      · intro b hb v hv hm
        show v ∈ upd s.queue s.active q b ∨ s.assigned v = true ∨ v = u
        rcases h.marked b hb v hv hm with h1 | h1 | h1
        · by_cases hba : b = s.active
          · subst hba
            rw [upd_same]
            rw [hq] at h1
            rcases List.mem_cons.1 h1 with h2 | h2
            · exact Or.inr (Or.inr h2)
            · exact Or.inl h2
          · rw [upd_ne _ _ hba]; exact Or.inl h1
        · exact Or.inr (Or.inl h1)
        · exact h1.elim
    have hmu : mu c.g.n { s with queue := upd s.queue s.active q } + 1 = mu c.g.n s := by
      unfold mu
      show (c.g.n - s.pushed 0) + (c.g.n - s.pushed 1) + (upd s.queue s.active q 0).length + (upd s.queue s.active q 1).length + 1 = _
      rcases (by omega : s.active = 0 ∨ s.active = 1) with h1 | h1
      · rw [h1] at hq ⊢
        rw [upd_same, upd_ne _ _ (by decide), hq, List.length_cons]; omega
      · rw [h1] at hq ⊢
        rw [upd_same, upd_ne _ _ (by decide), hq, List.length_cons]; omega
    obtain ⟨s', h1, h2, h3⟩ := bfsAssign_ok hcap hg hH hu hinv
    rw [h1]
    exact ⟨_, rfl, ⟨h2.acc, h2.mem, h2.marked, h2.pushed, next_lt sel c s', h2.bal⟩, by rw [← hmu, ← h3]; rfl⟩

/-- In every iteration a node is taken from a queue. -/
theorem bfsStep_ok {c : Cfg} {sel : Select} {cap : Nat} (hcap : c.g.n ≤ cap) (hg : c.g.WF) {H : Prop} {M : Int} (hH : H → Slack c M) {s : BFS}
    (h : BInv c H (fun _ => False) s) (hf : firstUnmarked c.g.n s.assigned < c.g.n) :
    ∃ s', bfsStep? c sel cap s = some s' ∧ BInv c H (fun _ => False) s' ∧ mu c.g.n s' + 1 = mu c.g.n s := by
  unfold bfsStep?
  by_cases hq : s.queue s.active = []
  · rw [if_pos hq]
    simp only
    have ha := firstUnmarked_lt hf
    have hm : s.marked s.active (firstUnmarked c.g.n s.assigned) = false := by
      by_contra hm
      rcases h.marked _ h.active _ hf (by simpa using hm) with h1 | h1 | h1
      · rw [hq] at h1; cases h1
      · rw [ha] at h1; cases h1
      · exact h1
    rw [hm, if_neg (by simp)]
    obtain ⟨s1, h1, h2, h3, h4, h5, h6⟩ := bfsPush_ok hcap h h.active hf hm
    rw [h1]
    simp only [Option.bind_some]
    obtain ⟨s2, h7, h8, h9⟩ := bfsTake_ok (sel := sel) hcap hg hH h2 (by rw [h4, h6, upd_same]; simp)
    exact ⟨s2, h7, h8, by omega⟩
  · rw [if_neg hq]
    exact bfsTake_ok hcap hg hH h hq

theorem bfsLoop_ok {c : Cfg} {sel : Select} {cap : Nat} (hcap : c.g.n ≤ cap) (hg : c.g.WF) {H : Prop} {M : Int} (hH : H → Slack c M) :
    ∀ (fuel : Nat) (s : BFS), BInv c H (fun _ => False) s → mu c.g.n s ≤ fuel →
    ∃ s', bfsLoop? c sel cap fuel s = some s' ∧ BInv c H (fun _ => False) s' ∧ ∀ u, u < c.g.n → s'.assigned u = true
  | 0, s, h, hf => by
    unfold bfsLoop?
    by_cases hd : firstUnmarked c.g.n s.assigned < c.g.n
    · obtain ⟨s', _, _, h3⟩ := bfsStep_ok (sel := sel) hcap hg hH h hd
      omega
    · rw [if_neg hd]
      exact ⟨s, rfl, h, fun u hu => firstUnmarked_all hd hu⟩
  | fuel + 1, s, h, hf => by
    unfold bfsLoop?
    by_cases hd : firstUnmarked c.g.n s.assigned < c.g.n
    · rw [if_pos hd]
      obtain ⟨s', h1, h2, h3⟩ := bfsStep_ok (sel := sel) hcap hg hH h hd
      rw [h1]
      exact bfsLoop_ok hcap hg hH fuel s' h2 (by omega)
    · rw [if_neg hd]
      exact ⟨s, rfl, h, fun u hu => firstUnmarked_all hd hu⟩

end Verif.FlatBip

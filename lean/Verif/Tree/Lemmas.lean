import Mathlib.Tactic.Common
import Mathlib.Data.Nat.Find
import Mathlib.Data.List.Perm.Basic
import Verif.Tree.Spec

/-!
# The states of the reduction

Each rank runs a fixed number of rounds; the state of the system is determined by the number of steps that each rank has done.
-/

namespace Verif.Tree
variable {α : Type}

/-- `active` in a round. -/
def lvl (N : Nat) : Nat → Nat
  | 0 => N
  | j + 1 => next (lvl N j)

theorem next_eq (a : Nat) : next a = (a + 1) / 2 := by unfold next; omega

theorem lvl_succ (N j : Nat) : lvl N (j + 1) = (lvl N j + 1) / 2 := next_eq _

theorem lvl_pos {N : Nat} (h : 0 < N) : ∀ j, 0 < lvl N j
  | 0 => h
  | j + 1 => by have := lvl_pos h j; rw [lvl_succ]; omega

theorem lvl_anti (N : Nat) {i j : Nat} (h : i ≤ j) : lvl N j ≤ lvl N i := by
  induction h with
  | refl => exact Nat.le_refl _
  | step _ ih => rw [lvl_succ]; omega

theorem lvl_small (N : Nat) : ∀ j, lvl N j ≤ max 1 (N - j)
  | 0 => by simp only [lvl]; omega
  | j + 1 => by have := lvl_small N j; rw [lvl_succ]; omega

theorem exists_exit (N : Nat) : ∃ j, lvl N j ≤ 1 := ⟨N, by have := lvl_small N N; omega⟩

theorem exists_send (N rank : Nat) : ∃ j, rank = 0 ∨ lvl N (j + 1) ≤ rank :=
  ⟨N, by have := lvl_small N (N + 1); omega⟩

/-- The number of rounds of rank 0. -/
def rounds (N : Nat) : Nat := Nat.find (exists_exit N)

/-- The round in which a rank sends its buffer. -/
def sr (N rank : Nat) : Nat := Nat.find (exists_send N rank)

/-- The number of steps of a rank. -/
def fin (N rank : Nat) : Nat := (if rank = 0 then rounds N else sr N rank) + 1

theorem lvl_rounds {N : Nat} (h : 0 < N) : lvl N (rounds N) = 1 := by
  have h1 : lvl N (rounds N) ≤ 1 := Nat.find_spec (exists_exit N)
  have h2 := lvl_pos h (rounds N)
  omega

theorem lvl_lt_rounds {N j : Nat} (h : j < rounds N) : 1 < lvl N j := by
  have := Nat.find_min (exists_exit N) h
  omega

theorem lt_rounds {N j : Nat} (h : 1 < lvl N j) : j < rounds N := by
  by_contra hc
  have h1 : lvl N (rounds N) ≤ 1 := Nat.find_spec (exists_exit N)
  have := lvl_anti N (Nat.le_of_not_lt hc)
  omega

theorem sr_spec {N rank : Nat} (h0 : rank ≠ 0) : lvl N (sr N rank + 1) ≤ rank :=
  (Nat.find_spec (exists_send N rank)).resolve_left h0

theorem lt_of_lt_sr {N rank j : Nat} (h : j < sr N rank) : rank ≠ 0 ∧ rank < lvl N (j + 1) := by
  have := Nat.find_min (exists_send N rank) h
  omega

theorem lt_lvl_sr {N rank : Nat} (h : rank < N) : rank < lvl N (sr N rank) := by
  cases hs : sr N rank with
  | zero => exact h
  | succ j => exact (lt_of_lt_sr (by omega)).2

theorem lt_sr {N rank j : Nat} (h0 : rank ≠ 0) (h : rank < lvl N (j + 1)) : j < sr N rank := by
  by_contra hc
  have := sr_spec (N := N) h0
  have := lvl_anti N (Nat.succ_le_succ (Nat.le_of_not_lt hc))
  simp only [Nat.succ_eq_add_one] at this
  omega

theorem sr_eq {N rank j : Nat} (h0 : rank ≠ 0) (h1 : lvl N (j + 1) ≤ rank) (h2 : rank < lvl N j) : sr N rank = j := by
  rcases Nat.lt_trichotomy (sr N rank) j with h | h | h
  · have h3 := sr_spec (N := N) h0
    have := lvl_anti N h
    simp only [Nat.succ_eq_add_one] at this
    omega
  · exact h
  · have := (lt_of_lt_sr h).2
    omega

/-- The value of a rank in a round, as an expression. -/
def expr (N : Nat) : Nat → Nat → Expr
  | 0, rank => .leaf rank
  | j + 1, rank => if role rank (lvl N j) = .receiver then .node (expr N j rank) (expr N j (rank + lvl N j / 2)) else expr N j rank

section
variable (N : Nat) (comb : α → α → α) (buf : Nat → α)

/-- The value of a rank in a round. -/
def val (j rank : Nat) : α := (expr N j rank).eval comb buf

/-- The state of a rank after `p` steps. -/
def procAt (p rank : Nat) : Proc α :=
  if rank < N ∧ fin N rank ≤ p then .done (if rank = 0 then some (val N comb buf (rounds N) 0) else none)
  else .run (lvl N p) (val N comb buf p rank)

/-- The partner to which a rank sends. -/
def target (rank : Nat) : Nat := rank - lvl N (sr N rank) / 2

open Classical in
/-- The state in which each rank has done a number of steps. -/
noncomputable def conf (p : Nat → Nat) : St α :=
  ⟨fun rank => procAt N comb buf (p rank) rank,
   fun s d => if s ≠ 0 ∧ s < N ∧ d = target N s ∧ sr N s < p s ∧ p d ≤ sr N s then [val N comb buf (sr N s) s] else []⟩

/-- The positions that can occur. -/
structure Pos (p : Nat → Nat) : Prop where
  le : ∀ rank, p rank ≤ fin N rank
  out : ∀ rank, N ≤ rank → p rank = 0
  sent : ∀ s, s ≠ 0 → s < N → sr N s < p (target N s) → sr N s < p s
end

variable {N : Nat} {comb : α → α → α} {buf : Nat → α}

theorem procAt_run {p rank : Nat} (h : p < fin N rank) : procAt N comb buf p rank = .run (lvl N p) (val N comb buf p rank) :=
  if_neg fun hc => absurd hc.2 (by omega)

/-- In a round, the rank is still active. -/
theorem active_of_lt {p rank : Nat} (hr : rank < N) (h : p < fin N rank) : rank < lvl N p := by
  by_cases h0 : rank = 0
  · subst h0; exact lvl_pos (by omega) _
  · rw [fin, if_neg h0] at h
    exact Nat.lt_of_lt_of_le (lt_lvl_sr hr) (lvl_anti N (by omega))

theorem role_zero (a : Nat) : role 0 a = if a % 2 = 1 then .noop else if 0 < (a + 1) / 2 then .receiver else .sender := by
  unfold role; simp

/-- A sender is in its last round. -/
theorem sender_round {p rank : Nat} (hr : rank < N) (h : p < fin N rank) (ha : 1 < lvl N p) (hs : role rank (lvl N p) = .sender) :
    rank ≠ 0 ∧ p = sr N rank := by
  have h0 : rank ≠ 0 := by
    rintro rfl
    rw [role_zero] at hs
    split at hs
    · cases hs
    · rw [if_pos (by omega)] at hs; cases hs
  refine ⟨h0, (sr_eq h0 ?_ (active_of_lt hr h)).symm⟩
  rw [lvl_succ]
  unfold role at hs
  rw [if_neg (fun hc => h0 hc.1)] at hs
  by_contra hc
  rw [if_pos (by omega)] at hs
  cases hs

theorem role_sr {rank : Nat} (hr : rank < N) (h0 : rank ≠ 0) : role rank (lvl N (sr N rank)) = .sender := by
  have h1 := sr_spec (N := N) h0
  have h2 := lt_lvl_sr hr
  rw [lvl_succ] at h1
  unfold role
  rw [if_neg (fun hc => h0 hc.1), if_neg (by omega)]

/-- The target of a sender is a receiver in the same round, and expects the sender. -/
theorem target_spec {rank : Nat} (hr : rank < N) (h0 : rank ≠ 0) :
    target N rank + lvl N (sr N rank) / 2 = rank ∧ target N rank < lvl N (sr N rank + 1) ∧
      role (target N rank) (lvl N (sr N rank)) = .receiver ∧ target N rank < N ∧ sr N rank + 1 < fin N (target N rank) := by
  have h1 := sr_spec (N := N) h0
  have h2 := lt_lvl_sr hr
  rw [lvl_succ] at h1
  have h3 : lvl N (sr N rank) ≤ N := lvl_anti N (Nat.zero_le _)
  have h4 : target N rank < lvl N (sr N rank + 1) := by rw [lvl_succ]; unfold target; omega
  refine ⟨by unfold target; omega, h4, ?_, by unfold target; omega, ?_⟩
  · unfold role
    rw [if_neg (by unfold target; omega), if_pos (by unfold target; omega)]
  · unfold fin
    split
    · have := lt_rounds (N := N) (j := sr N rank) (by omega); omega
    · have := lt_sr (by assumption) h4; omega

/-- The partner of a receiver sends in the same round, to the receiver. -/
theorem partner_spec {p rank : Nat} (ha : 1 < lvl N p) (hs : role rank (lvl N p) = .receiver) :
    rank + lvl N p / 2 ≠ 0 ∧ rank + lvl N p / 2 < N ∧ sr N (rank + lvl N p / 2) = p ∧ target N (rank + lvl N p / 2) = rank ∧
      rank < lvl N (p + 1) := by
  have h3 : lvl N p ≤ N := lvl_anti N (Nat.zero_le _)
  have h4 : ¬ (rank = 0 ∧ lvl N p % 2 = 1) ∧ rank < (lvl N p + 1) / 2 := by
    unfold role at hs
    split at hs
    · cases hs
    · split at hs
      · exact ⟨by assumption, by assumption⟩
      · cases hs
  have h5 : sr N (rank + lvl N p / 2) = p := by
    refine sr_eq (by omega) ?_ ?_
    · rw [lvl_succ]; omega
    · omega
  exact ⟨by omega, by omega, h5, by unfold target; rw [h5]; omega, by rw [lvl_succ]; omega⟩

theorem val_receiver {j rank : Nat} (h : role rank (lvl N j) = .receiver) :
    val N comb buf (j + 1) rank = comb (val N comb buf j rank) (val N comb buf j (rank + lvl N j / 2)) := by
  unfold val
  rw [expr, if_pos h]
  rfl

theorem val_other {j rank : Nat} (h : role rank (lvl N j) ≠ .receiver) : val N comb buf (j + 1) rank = val N comb buf j rank := by
  unfold val
  rw [expr, if_neg h]

theorem conf_ext {p : Nat → Nat} {s : St α} (h1 : ∀ r, s.procs r = procAt N comb buf (p r) r)
    (h2 : ∀ x d, s.net x d = (conf N comb buf p).net x d) : s = conf N comb buf p := by
  obtain ⟨a, b⟩ := s
  simp only [conf, St.mk.injEq]
  refine ⟨funext h1, funext fun x => funext fun d => ?_⟩
  simpa [conf] using h2 x d

theorem procs_upd {p : Nat → Nat} {rank : Nat} {x : Proc α} (hx : x = procAt N comb buf (p rank + 1) rank) (r : Nat) :
    upd (conf N comb buf p).procs rank x r = procAt N comb buf (upd p rank (p rank + 1) r) r := by
  by_cases h : r = rank
  · subst h; rw [upd_same, upd_same, hx]
  · rw [upd_ne _ _ h, upd_ne _ _ h]; rfl

/-- A queue that no step of `rank` changes. -/
theorem net_same {p : Nat → Nat} {rank x d : Nat} (h : x ≠ 0 → x < N → d = target N x →
    ((sr N x < upd p rank (p rank + 1) x ∧ upd p rank (p rank + 1) d ≤ sr N x) ↔ (sr N x < p x ∧ p d ≤ sr N x))) :
    (conf N comb buf p).net x d = (conf N comb buf (upd p rank (p rank + 1))).net x d := by
  simp only [conf]
  by_cases hc : x ≠ 0 ∧ x < N ∧ d = target N x
  · have := h hc.1 hc.2.1 hc.2.2
    obtain ⟨c1, c2, c3⟩ := hc
    by_cases hh : sr N x < p x ∧ p d ≤ sr N x
    · have hh' := this.2 hh
      rw [if_pos ⟨c1, c2, c3, hh.1, hh.2⟩, if_pos ⟨c1, c2, c3, hh'.1, hh'.2⟩]
    · rw [if_neg (fun h => hh ⟨h.2.2.2.1, h.2.2.2.2⟩),
        if_neg (fun h' => hh (this.1 ⟨h'.2.2.2.1, h'.2.2.2.2⟩))]
  · rw [if_neg (fun h => hc ⟨h.1, h.2.1, h.2.2.1⟩), if_neg (fun h => hc ⟨h.1, h.2.1, h.2.2.1⟩)]

theorem conf_proc {p : Nat → Nat} {rank a : Nat} {b : α} (hr : rank < N) (h : (conf N comb buf p).procs rank = .run a b) :
    p rank < fin N rank ∧ a = lvl N (p rank) ∧ b = val N comb buf (p rank) rank := by
  have h' : procAt N comb buf (p rank) rank = .run a b := h
  by_cases hf : p rank < fin N rank
  · rw [procAt_run hf] at h'
    cases h'
    exact ⟨hf, rfl, rfl⟩
  · rw [procAt, if_pos ⟨hr, by omega⟩] at h'
    cases h'

/-- The step after which a rank has returned. -/
theorem procAt_done {p rank : Nat} (hr : rank < N) (h : fin N rank ≤ p) :
    procAt N comb buf p rank = .done (if rank = 0 then some (val N comb buf (rounds N) 0) else none) := if_pos ⟨hr, h⟩

theorem Pos.step {p : Nat → Nat} (hpos : Pos N p) {rank : Nat} (hr : rank < N) (hf : p rank < fin N rank)
    (hs : ∀ s, s ≠ 0 → s < N → target N s = rank → p rank = sr N s → sr N s < p s) :
    Pos N (upd p rank (p rank + 1)) := by
  refine ⟨fun r => ?_, fun r h => ?_, fun s h0 hs' h => ?_⟩
  · by_cases h : r = rank
    · subst h; rw [upd_same]; omega
    · rw [upd_ne _ _ h]; exact hpos.le r
  · rw [upd_ne _ _ (by omega)]; exact hpos.out r h
  · have key : sr N s < p s := by
      by_cases ht : target N s = rank
      · rw [ht, upd_same] at h
        by_cases he : p rank = sr N s
        · exact hs s h0 hs' ht he
        · exact hpos.sent s h0 hs' (by rw [ht]; omega)
      · rw [upd_ne _ _ ht] at h
        exact hpos.sent s h0 hs' h
    by_cases h : s = rank
    · subst h; rw [upd_same]; omega
    · rw [upd_ne _ _ h]; exact key

theorem conf_net_ne {p : Nat → Nat} {x d : Nat} {m : α} {rest : List α} (h : (conf N comb buf p).net x d = m :: rest) :
    x ≠ 0 ∧ x < N ∧ d = target N x ∧ sr N x < p x ∧ p d ≤ sr N x ∧ m = val N comb buf (sr N x) x ∧ rest = [] := by
  simp only [conf] at h
  split at h
  · rename_i hc
    cases h
    exact ⟨hc.1, hc.2.1, hc.2.2.1, hc.2.2.2.1, hc.2.2.2.2, rfl, rfl⟩
  · cases h

theorem local_conf {p : Nat → Nat} {s' : St α} (hpos : Pos N p) (h : Local N (conf N comb buf p) s') :
    ∃ rank, rank < N ∧ p rank < fin N rank ∧ s' = conf N comb buf (upd p rank (p rank + 1)) ∧ Pos N (upd p rank (p rank + 1)) := by
  cases h with
  | exit rank a b hr hp ha =>
    obtain ⟨hf, rfl, rfl⟩ := conf_proc hr hp
    have hlt := active_of_lt hr hf
    have h0 : rank = 0 := by omega
    subst h0
    have hpr : rounds N ≤ p 0 := by
      by_contra hc
      have := lvl_lt_rounds (N := N) (Nat.lt_of_not_le hc)
      omega
    have hpe : p 0 = rounds N := by
      have : fin N 0 = rounds N + 1 := by unfold fin; rw [if_pos rfl]
      omega
    refine ⟨0, hr, hf, conf_ext (procs_upd ?_) fun x d => net_same fun h0 hx hd => ?_, hpos.step hr hf fun s h0 hs ht he => ?_⟩
    · rw [procAt_done hr (by unfold fin; rw [if_pos rfl]; omega), if_pos rfl, hpe]
    · rw [upd_ne _ _ h0]
      by_cases hd0 : d = 0
      · subst hd0
        rw [upd_same]
        have := (target_spec hx h0).2.2.2.2
        rw [← hd] at this
        unfold fin at this
        rw [if_pos rfl] at this
        omega
      · rw [upd_ne _ _ hd0]
    · have := (target_spec hs h0).2.2.2.2
      rw [ht] at this
      unfold fin at this
      rw [if_pos rfl] at this
      omega
  | «continue» rank a b hr hp ha hk =>
    obtain ⟨hf, rfl, rfl⟩ := conf_proc hr hp
    exact absurd (active_of_lt hr hf) (by omega)
  | noop rank a b hr hp ha hk hrole =>
    obtain ⟨hf, rfl, rfl⟩ := conf_proc hr hp
    have h00 : rank = 0 := by
      unfold role at hrole
      split at hrole
      · exact (by assumption : _ ∧ _).1
      · split at hrole <;> cases hrole
    subst h00
    have hodd : ∀ s, s ≠ 0 → s < N → target N s = 0 → p 0 ≠ sr N s := by
      intro s h0 hs ht he
      have := (target_spec hs h0).2.2.1
      rw [ht, ← he, hrole] at this
      cases this
    refine ⟨0, hr, hf, conf_ext (procs_upd ?_) fun x d => net_same fun h0 hx hd => ?_, hpos.step hr hf fun s h0 hs ht he => ?_⟩
    · have hlt := lt_rounds ha
      rw [procAt_run (by unfold fin; rw [if_pos rfl]; omega), val_other (by rw [hrole]; decide)]
      rfl
    · rw [upd_ne _ _ h0]
      by_cases hd0 : d = 0
      · subst hd0
        rw [upd_same]
        have := hodd x h0 hx hd.symm
        omega
      · rw [upd_ne _ _ hd0]
    · exact absurd he (hodd s h0 hs ht)

theorem target_ne {s : Nat} (hs : s < N) (h0 : s ≠ 0) : target N s ≠ s := by
  have h1 := (target_spec hs h0).2.1
  have h2 := sr_spec (N := N) h0
  omega

/-- Every step is a step of one rank. -/
theorem step_conf {p : Nat → Nat} {s' : St α} (hpos : Pos N p) (h : Step N comb (conf N comb buf p) s') :
    ∃ rank, rank < N ∧ p rank < fin N rank ∧ s' = conf N comb buf (upd p rank (p rank + 1)) ∧ Pos N (upd p rank (p rank + 1)) := by
  cases h with
  | loc h => exact local_conf hpos h
  | send rank a b hr hp ha hk hrole =>
    obtain ⟨hf, rfl, rfl⟩ := conf_proc hr hp
    obtain ⟨h0, hpe⟩ := sender_round hr hf ha hrole
    have htgt : rank - lvl N (p rank) / 2 = target N rank := by unfold target; rw [hpe]
    have hne := target_ne hr h0
    have hnd : ∀ x, x ≠ 0 → x < N → target N x = rank → sr N x ≠ p rank := by
      intro x hx0 hx ht he
      have := (target_spec hx hx0).2.2.1
      rw [ht, he, hrole] at this
      cases this
    refine ⟨rank, hr, hf, conf_ext (procs_upd ?_) fun x d => ?_, hpos.step hr hf fun s h0 hs ht he => absurd he.symm (hnd s h0 hs ht)⟩
    · rw [procAt_done hr (by unfold fin; rw [if_neg h0]; omega), if_neg h0]
    · rw [htgt]
      show upd (conf N comb buf p).net rank (upd ((conf N comb buf p).net rank) (target N rank) _) x d = _
      by_cases hx : x = rank
      · subst hx
        rw [upd_same]
        by_cases hd : d = target N x
        · subst hd
          rw [upd_same]
          have he : (conf N comb buf p).net x (target N x) = [] := by
            simp only [conf]
            exact if_neg fun h => by omega
          rw [he, List.nil_append]
          have hle : upd p x (p x + 1) (target N x) ≤ sr N x := by
            rw [upd_ne _ _ hne]
            by_contra hc
            have := hpos.sent x h0 hr (by omega)
            omega
          have hlt : sr N x < upd p x (p x + 1) x := by rw [upd_same]; omega
          simp only [conf]
          rw [if_pos ⟨h0, hr, trivial, hlt, hle⟩, hpe]
        · rw [upd_ne _ _ hd]
          exact net_same fun _ _ h => absurd h hd
      · rw [upd_ne _ _ hx]
        refine net_same fun hx0 hxN hd => ?_
        rw [upd_ne _ _ hx]
        by_cases hdr : d = rank
        · subst hdr
          rw [upd_same]
          have := hnd x hx0 hxN hd.symm
          omega
        · rw [upd_ne _ _ hdr]
  | recv rank a b m rest hr hp ha hk hrole hm =>
    obtain ⟨hf, rfl, rfl⟩ := conf_proc hr hp
    obtain ⟨h0, hxN, hsr, htg, hlt⟩ := partner_spec ha hrole
    obtain ⟨_, _, _, hs1, hs2, rfl, rfl⟩ := conf_net_ne hm
    have hfin : p rank + 1 < fin N rank := by
      have := (target_spec hxN h0).2.2.2.2
      rwa [htg, hsr] at this
    have hne := target_ne hxN h0
    rw [htg] at hne
    have huniq : ∀ s, s ≠ 0 → s < N → target N s = rank → p rank = sr N s → s = rank + lvl N (p rank) / 2 := by
      intro s h0 hs ht he
      have := (target_spec hs h0).1
      rw [ht, ← he] at this
      exact this.symm
    refine ⟨rank, hr, hf, conf_ext (procs_upd ?_) fun x d => ?_, hpos.step hr hf fun s h0 hs ht he => ?_⟩
    · rw [procAt_run hfin, val_receiver hrole, hsr]
      rfl
    · show upd (conf N comb buf p).net (rank + lvl N (p rank) / 2) (upd ((conf N comb buf p).net (rank + lvl N (p rank) / 2)) rank []) x d = _
      by_cases hx : x = rank + lvl N (p rank) / 2
      · rw [hx, upd_same]
        by_cases hd : d = rank
        · subst hd
          rw [upd_same]
          simp only [conf]
          rw [if_neg]
          rintro ⟨_, _, _, _, h⟩
          rw [upd_same, hsr] at h
          omega
        · rw [upd_ne _ _ hd]
          exact net_same fun _ _ h => absurd (h.trans htg) hd
      · rw [upd_ne _ _ hx]
        refine net_same fun hx0 hxN' hd => ?_
        have hxr : x = rank → sr N x ≠ p rank := by
          rintro rfl he
          have := role_sr hxN' hx0
          rw [he, hrole] at this
          cases this
        have h1 : sr N x < upd p rank (p rank + 1) x ↔ sr N x < p x := by
          by_cases h : x = rank
          · have := hxr h; subst h; rw [upd_same]; omega
          · rw [upd_ne _ _ h]
        rw [h1]
        by_cases hdr : d = rank
        · subst hdr
          rw [upd_same]
          have : sr N x ≠ p d := fun he => hx (huniq x hx0 hxN' hd.symm he.symm)
          omega
        · rw [upd_ne _ _ hdr]
    · rw [huniq s h0 hs ht he]
      exact hs1

/-- While a rank has not returned, some rank can do a step; a rank that waits for a partner can be passed a message directly. -/
theorem progress {p : Nat → Nat} (hpos : Pos N p) (hf : ∃ rank, rank < N ∧ p rank < fin N rank) :
    (∃ s', Step N comb (conf N comb buf p) s') ∧ ((∀ x d, (conf N comb buf p).net x d = []) → ∃ s', SyncStep N comb (conf N comb buf p) s') := by
  classical
  -- a rank in the earliest round
  obtain ⟨rank, ⟨hr, hf⟩, hmin⟩ : ∃ rank, (rank < N ∧ p rank < fin N rank) ∧ ∀ r, r < N ∧ p r < fin N r → p rank ≤ p r := by
    have hex : ∃ q, ∃ rank, (rank < N ∧ p rank < fin N rank) ∧ p rank = q := by
      obtain ⟨r, h⟩ := hf
      exact ⟨_, r, h, rfl⟩
    obtain ⟨rank, h1, h2⟩ := Nat.find_spec hex
    exact ⟨rank, h1, fun r hr => h2 ▸ Nat.find_min' hex ⟨r, hr, rfl⟩⟩
  have hproc : ∀ r, p r < fin N r → (conf N comb buf p).procs r = .run (lvl N (p r)) (val N comb buf (p r) r) := fun r h => procAt_run h
  have hk : ¬ lvl N (p rank) ≤ rank := by have := active_of_lt hr hf; omega
  by_cases ha : 1 < lvl N (p rank)
  · -- the exchange of two ranks in the same round
    have hboth : ∀ s, s ≠ 0 → s < N → p s = sr N s → p (target N s) = sr N s →
        ∃ s', SyncStep N comb (conf N comb buf p) s' := by
      intro s h0 hs he ht
      obtain ⟨t1, t2, t3, t4, t5⟩ := target_spec hs h0
      have hsf : p s < fin N s := by unfold fin; rw [if_neg h0]; omega
      have htf : p (target N s) < fin N (target N s) := by omega
      have hl := lt_lvl_sr hs
      refine ⟨_, .exchange _ s (target N s) _ _ _ _ hs t4 (target_ne hs h0).symm (hproc s hsf) (by rw [he]; omega)
        (by rw [he]; omega) (by rw [he]; exact role_sr hs h0) (by rw [he]; rfl) (hproc _ htf) (by rw [ht]; omega) ?_
        (by rw [ht]; exact t3) (by rw [ht]; exact t1.symm)⟩
      rw [ht]
      have := lvl_anti N (Nat.le_succ (sr N s))
      simp only [Nat.succ_eq_add_one] at this
      omega
    cases hrole : role rank (lvl N (p rank)) with
    | sender =>
      obtain ⟨h0, hpe⟩ := sender_round hr hf ha hrole
      refine ⟨⟨_, .send _ rank _ _ hr (hproc rank hf) ha hk hrole⟩, fun _ => hboth rank h0 hr hpe ?_⟩
      obtain ⟨t1, t2, t3, t4, t5⟩ := target_spec hr h0
      have h1 : p (target N rank) ≤ sr N rank := by
        by_contra hc
        have := hpos.sent rank h0 hr (by omega)
        omega
      have h2 := hmin (target N rank) ⟨t4, by omega⟩
      omega
    | receiver =>
      obtain ⟨h0, hxN, hsr, htg, hlt⟩ := partner_spec ha hrole
      by_cases hsent : sr N (rank + lvl N (p rank) / 2) < p (rank + lvl N (p rank) / 2)
      · have hm : (conf N comb buf p).net (rank + lvl N (p rank) / 2) rank = [val N comb buf (p rank) (rank + lvl N (p rank) / 2)] := by
          simp only [conf]
          rw [if_pos ⟨h0, hxN, htg.symm, hsent, by omega⟩, hsr]
        refine ⟨⟨_, .recv _ rank _ _ _ _ hr (hproc rank hf) ha hk hrole hm⟩, fun hempty => ?_⟩
        rw [hempty] at hm
        cases hm
      · have hpf : p (rank + lvl N (p rank) / 2) < fin N (rank + lvl N (p rank) / 2) := by unfold fin; rw [if_neg h0]; omega
        have hmin' := hmin _ ⟨hxN, hpf⟩
        have hpe : p (rank + lvl N (p rank) / 2) = sr N (rank + lvl N (p rank) / 2) := by omega
        have hl := lt_lvl_sr hxN
        refine ⟨⟨_, .send _ _ _ _ hxN (hproc _ hpf) (by rw [hpe, hsr]; exact ha) (by rw [hpe]; omega) ?_⟩,
          fun _ => hboth _ h0 hxN hpe (by rw [htg, hsr])⟩
        rw [hpe]
        exact role_sr hxN h0
    | noop => exact ⟨⟨_, .loc (.noop _ rank _ _ hr (hproc rank hf) ha hk hrole)⟩, fun _ => ⟨_, .loc (.noop _ rank _ _ hr (hproc rank hf) ha hk hrole)⟩⟩
  · exact ⟨⟨_, .loc (.exit _ rank _ _ hr (hproc rank hf) ha)⟩, fun _ => ⟨_, .loc (.exit _ rank _ _ hr (hproc rank hf) ha)⟩⟩

theorem start_conf (hN : N ≠ 1) (empty : α) : start N comb empty buf = conf N comb buf fun _ => 0 := by
  refine conf_ext (fun r => ?_) fun x d => ?_
  · simp only [start]
    rw [if_neg hN, procAt_run (by unfold fin; omega)]
    rfl
  · simp only [start, conf]
    exact (if_neg fun h => by omega).symm

theorem Pos.init : Pos N fun _ => 0 :=
  ⟨fun _ => Nat.zero_le _, fun _ _ => rfl, fun _ _ _ h => absurd h (Nat.not_lt_zero _)⟩

/-! ## The leaves -/

theorem expr_leaves (hN : 0 < N) : ∀ j, ((List.range (lvl N j)).flatMap fun r => (expr N j r).leaves).Perm (List.range N)
  | 0 => by
    have : ((List.range (lvl N 0)).flatMap fun r => (expr N 0 r).leaves) = List.range N := by
      simp [lvl, expr, Expr.leaves, List.flatMap_singleton']
    rw [this]
  | j + 1 => by
    refine List.Perm.trans ?_ (expr_leaves hN j)
    generalize ha : lvl N j = a
    have hpos : 0 < a := ha ▸ lvl_pos hN j
    have hl : lvl N (j + 1) = (a + 1) / 2 := by rw [lvl_succ, ha]
    have hsplit : List.range a = List.range ((a + 1) / 2) ++ (List.range (a / 2)).map fun i => (a + 1) / 2 + i := by
      rw [← List.range_add]; congr 1; omega
    rw [hl, hsplit, List.flatMap_append, List.flatMap_map]
    obtain ⟨h, he | ho⟩ : ∃ h, a = 2 * h ∨ a = 2 * h + 1 := ⟨a / 2, by omega⟩
    · have e1 : (a + 1) / 2 = h := by omega
      have e2 : a / 2 = h := by omega
      rw [e1, e2]
      have : (List.range h).flatMap (fun r => (expr N (j + 1) r).leaves) =
          (List.range h).flatMap fun r => (expr N j r).leaves ++ (expr N j (h + r)).leaves := by
        refine List.flatMap_congr fun r hr => ?_
        have hrh := List.mem_range.1 hr
        rw [expr, if_pos, ha, e2, Expr.leaves, Nat.add_comm r h]
        rw [ha, role, if_neg (by omega), if_pos (by omega)]
      rw [this]
      exact List.flatMap_append_perm _ _ _ |>.symm
    · have e1 : (a + 1) / 2 = h + 1 := by omega
      have e2 : a / 2 = h := by omega
      rw [e1, e2, List.range_succ_eq_map, List.flatMap_cons, List.flatMap_cons, List.flatMap_map, List.flatMap_map, List.append_assoc]
      have z : expr N (j + 1) 0 = expr N j 0 := by
        rw [expr, if_neg]
        rw [ha, role, if_pos ⟨rfl, by omega⟩]
        decide
      rw [z]
      refine List.Perm.append_left _ ?_
      have : (List.range h).flatMap (fun r => (expr N (j + 1) (r + 1)).leaves) =
          (List.range h).flatMap fun r => (expr N j (r + 1)).leaves ++ (expr N j (h + 1 + r)).leaves := by
        refine List.flatMap_congr fun r hr => ?_
        have hrh := List.mem_range.1 hr
        rw [expr, if_pos, ha, e2, Expr.leaves, show r + 1 + h = h + 1 + r by omega]
        rw [ha, role, if_neg (by omega), if_pos (by omega)]
      rw [show (fun a => (expr N (j + 1) (Nat.succ a)).leaves) = fun r => (expr N (j + 1) (r + 1)).leaves from rfl, this]
      exact List.flatMap_append_perm _ _ _ |>.symm

end Verif.Tree

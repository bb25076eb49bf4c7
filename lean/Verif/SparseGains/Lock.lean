import Verif.Util

/-!
# Model of the locks of the sparse gain cache

Source: `kaminpar-shm/refinement/gains/sparse_gain_cache.h` (SC).  The most significant bit of the weighted degree
of a node is its lock.  Threads execute single accesses to this word in any order; every access takes effect
immediately (the weaker ordering of the relaxed store in `unlock` is not modelled).
-/

namespace Verif.SparseGains

/-- What a thread does next: it is not in `lock`, it has read `s` in `lock`, it holds the lock, it has read `r` in
`unlock`. -/
inductive Pc
  | idle
  | spin (s : Nat)
  | crit
  | rel (r : Nat)
  deriving DecidableEq, Repr

/-- Does the thread hold the lock? -/
def Pc.holds : Pc → Bool
  | .crit => true
  | .rel _ => true
  | _ => false

/-- The word of a node and the threads. -/
structure LockSt where
  x : Nat
  pc : Nat → Pc

/-- One access: the loads SC 347 and 350, the compare-exchange SC 352-359 (`lock`), the load and the store SC 363-365
(`unlock`).  `kWeightedDegreeLock = 2^(W-1)`, SC 58-60. -/
def LockSt.step (W : Nat) (s : LockSt) (t : Nat) : LockSt :=
  match s.pc t with
  | .idle => { s with pc := upd s.pc t (.spin s.x) }
  | .spin v =>
    if v.testBit (W - 1) then { s with pc := upd s.pc t (.spin s.x) }
    else if s.x = v then { x := v ||| 2 ^ (W - 1), pc := upd s.pc t .crit }
    else { s with pc := upd s.pc t (.spin s.x) }
  | .crit => { s with pc := upd s.pc t (.rel s.x) }
  | .rel r => { x := r % 2 ^ (W - 1), pc := upd s.pc t .idle }

/-- What is true at all times: `d` is the weighted degree. -/
structure LockInv (W d : Nat) (s : LockSt) : Prop where
  word : s.x = d ∧ (∀ t, (s.pc t).holds = false) ∨
    s.x = d + 2 ^ (W - 1) ∧ ∃ t, (s.pc t).holds = true ∧ ∀ t', (s.pc t').holds = true → t' = t
  seen : ∀ t v, s.pc t = .spin v → v = d ∨ v = d + 2 ^ (W - 1)
  rel : ∀ t r, s.pc t = .rel r → r = d + 2 ^ (W - 1)

theorem testBit_add {d i : Nat} (h : d < 2 ^ i) : (d + 2 ^ i).testBit i = true := by
  rw [Nat.add_comm, Nat.testBit_two_pow_add_eq, Nat.testBit_lt_two_pow h]; rfl

theorem lock_step {W d : Nat} (hd : d < 2 ^ (W - 1)) {s : LockSt} (h : LockInv W d s) (t : Nat) : LockInv W d (s.step W t) := by
  have hx : s.x = d ∨ s.x = d + 2 ^ (W - 1) := by
    rcases h.word with ⟨h1, _⟩ | ⟨h1, _⟩
    · exact Or.inl h1
    · exact Or.inr h1
  have hp : 0 < 2 ^ (W - 1) := Nat.two_pow_pos _
  -- a thread that does not hold the lock reads the word
  have hread : (s.pc t).holds = false → LockInv W d { s with pc := upd s.pc t (.spin s.x) } := by
    intro hf
    have hh : ∀ t', (upd s.pc t (.spin s.x) t').holds = (s.pc t').holds := by
      intro t'
      by_cases e : t' = t
      · subst e; rw [upd_same, hf]; rfl
      · rw [upd_ne _ _ e]
    refine ⟨?_, ?_, ?_⟩
    · simp only [hh]; exact h.word
    · intro t' v hv
      by_cases e : t' = t
      · subst e; simp only [upd_same] at hv; cases hv; exact hx
      · simp only [upd_ne _ _ e] at hv; exact h.seen t' v hv
    · intro t' v hv
      by_cases e : t' = t
      · subst e; simp only [upd_same] at hv; cases hv
      · simp only [upd_ne _ _ e] at hv; exact h.rel t' v hv
  unfold LockSt.step
  cases hpc : s.pc t with
  | idle => exact hread (by rw [hpc]; rfl)
  | spin v =>
    have hf : (s.pc t).holds = false := by rw [hpc]; rfl
    simp only
    by_cases hb : v.testBit (W - 1) = true
    · rw [if_pos hb]; exact hread hf
    · rw [if_neg hb]
      by_cases hv : s.x = v
      · rw [if_pos hv]
        have hvd : v = d := by
          rcases h.seen t v hpc with h1 | h1
          · exact h1
          · rw [h1] at hb; exact absurd (testBit_add hd) hb
        have hno : ∀ t, (s.pc t).holds = false := by
          rcases h.word with ⟨_, h1⟩ | ⟨h1, _⟩
          · exact h1
          · omega
        refine ⟨Or.inr ⟨?_, t, ?_, ?_⟩, ?_, ?_⟩
        · show v ||| 2 ^ (W - 1) = _
          have := Nat.two_pow_add_eq_or_of_lt hd 1
          rw [Nat.mul_one] at this
          rw [hvd, Nat.or_comm, ← this]; omega
        · show (upd s.pc t Pc.crit t).holds = true
          rw [upd_same]; rfl
        · intro t' ht'
          apply Classical.byContradiction
          intro e
          simp only [upd_ne _ _ e, hno t'] at ht'
          cases ht'
        · intro t' v' hv'
          by_cases e : t' = t
          · subst e; simp only [upd_same] at hv'; cases hv'
          · simp only [upd_ne _ _ e] at hv'; exact h.seen t' v' hv'
        · intro t' v' hv'
          by_cases e : t' = t
          · subst e; simp only [upd_same] at hv'; cases hv'
          · simp only [upd_ne _ _ e] at hv'; exact h.rel t' v' hv'
      · rw [if_neg hv]; exact hread hf
  | crit =>
    have ht : (s.pc t).holds = true := by rw [hpc]; rfl
    obtain ⟨h1, t0, h2, h3⟩ : s.x = d + 2 ^ (W - 1) ∧ ∃ t, (s.pc t).holds = true ∧ ∀ t', (s.pc t').holds = true → t' = t := by
      rcases h.word with ⟨_, h1⟩ | h1
      · rw [h1 t] at ht; cases ht
      · exact h1
    have hh : ∀ t', (upd s.pc t (.rel s.x) t').holds = (s.pc t').holds := by
      intro t'
      by_cases e : t' = t
      · subst e; rw [upd_same, ht]; rfl
      · rw [upd_ne _ _ e]
    refine ⟨Or.inr ⟨h1, t0, ?_, ?_⟩, ?_, ?_⟩
    · simp only [hh]; exact h2
    · simp only [hh]; exact h3
    · intro t' v hv
      by_cases e : t' = t
      · subst e; simp only [upd_same] at hv; cases hv
      · simp only [upd_ne _ _ e] at hv; exact h.seen t' v hv
    · intro t' v hv
      by_cases e : t' = t
      · subst e; simp only [upd_same] at hv; cases hv; exact h1
      · simp only [upd_ne _ _ e] at hv; exact h.rel t' v hv
  | rel r =>
    have ht : (s.pc t).holds = true := by rw [hpc]; rfl
    have hr := h.rel t r hpc
    have huniq : ∀ t', t' ≠ t → (s.pc t').holds = false := by
      intro t' hne
      rcases h.word with ⟨_, h1⟩ | ⟨_, t0, _, h3⟩
      · exact h1 t'
      · cases hc : (s.pc t').holds with
        | false => rfl
        | true => exact absurd ((h3 t' hc).trans (h3 t ht).symm) hne
    refine ⟨Or.inl ⟨?_, ?_⟩, ?_, ?_⟩
    · show r % 2 ^ (W - 1) = d
      rw [hr, Nat.add_mod_right, Nat.mod_eq_of_lt hd]
    · intro t'
      by_cases e : t' = t
      · subst e; simp only [upd_same]; rfl
      · simp only [upd_ne _ _ e]; exact huniq t' e
    · intro t' v hv
      by_cases e : t' = t
      · subst e; simp only [upd_same] at hv; cases hv
      · simp only [upd_ne _ _ e] at hv; exact h.seen t' v hv
    · intro t' v hv
      by_cases e : t' = t
      · subst e; simp only [upd_same] at hv; cases hv
      · simp only [upd_ne _ _ e] at hv; exact h.rel t' v hv

theorem lock_run {W d : Nat} (hd : d < 2 ^ (W - 1)) : ∀ (sched : List Nat) (s : LockSt), LockInv W d s →
    LockInv W d (sched.foldl (LockSt.step W) s)
  | [], _, h => h
  | t :: sched, _, h => lock_run hd sched _ (lock_step hd h t)

end Verif.SparseGains

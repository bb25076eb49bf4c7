import Verif.Rank.Lemmas

/-!
# C15: `rank` counts the set bits before a position
-/

namespace Verif.Rank

/-- Operations on the bit vector. -/
inductive Op
  | set (pos : Nat) (value : Bool)
  | update
  deriving DecidableEq, Repr

/-- Specification: the bits and whether the counters are up to date. -/
structure Spec where
  bit : Nat → Bool
  fresh : Bool

/-- Effect of an operation on a vector of `n` bits; `none`: not allowed. -/
def Spec.step (n : Nat) (s : Spec) : Op → Option Spec
  | .set pos v => if pos < n then some ⟨fun p => if p = pos then v else s.bit p, false⟩ else none
  | .update => some ⟨s.bit, true⟩

def Spec.run (n : Nat) : Spec → List Op → Option Spec
  | s, [] => some s
  | s, op :: ops => (s.step n op).bind fun s => s.run n ops

/-- The same on the model. -/
def BV.op (b : BV) : Op → Option BV
  | .set pos v => b.set? pos v
  | .update => b.update?

def BV.run : BV → List Op → Option BV
  | b, [] => some b
  | b, op :: ops => (b.op op).bind fun b => b.run ops

/-- The vector agrees with the specification. -/
structure Agrees (n : Nat) (b : BV) (s : Spec) : Prop where
  wf : b.WF
  sized : b.Sized
  len : b.length = n
  bit : ∀ p, p < n → b.isSet p = s.bit p
  rank : s.fresh = true → ∀ junk p, p < n → b.rank? junk p = some ((List.range p).countP s.bit)

theorem Agrees.op {n : Nat} {b : BV} {s s' : Spec} (h : Agrees n b s) {o : Op}
    (hs : s.step n o = some s') : ∃ b', b.op o = some b' ∧ Agrees n b' s' := by
  cases o with
  | set pos v =>
    simp only [Spec.step] at hs
    split at hs
    · rename_i hp
      cases hs
      obtain ⟨b', h1, h2, h3, h4, h5⟩ := set_ok h.wf h.sized (by rw [h.len]; exact hp) v
      refine ⟨b', h1, h2, h3, h4.trans h.len, ?_, by simp⟩
      intro p hp
      rw [h5]
      simp only
      rw [h.bit p hp]
    · cases hs
  | update =>
    cases hs
    obtain ⟨b', h1, h2, h3, h4, h5, h6⟩ := update_ok h.wf h.sized
    refine ⟨b', h1, ?_, ?_, h2.trans h.len, ?_, ?_⟩
    · intro i; rw [h5]; exact updated_lt h.wf _ _
    · exact ⟨by rw [h3, h2]; exact h.sized.1, by rw [h4, h2]; exact h.sized.2⟩
    · intro p hp; rw [update_isSet h.wf h5]; exact h.bit p hp
    · intro _ junk p hp
      rw [rank_ok junk h.wf h.sized h3 h4 h5 h6 (by rw [h.len]; exact hp)]
      exact congrArg some (cnt_congr fun i hi => h.bit i (by omega))

theorem Agrees.run {n : Nat} : ∀ {ops : List Op} {b : BV} {s s' : Spec}, Agrees n b s →
    s.run n ops = some s' → ∃ b', b.run ops = some b' ∧ Agrees n b' s'
  | [], b, s, s', h, hs => by cases hs; exact ⟨b, rfl, h⟩
  | o :: ops, b, s, s', h, hs => by
    obtain ⟨s1, h1, h2⟩ := Option.bind_eq_some_iff.1 hs
    obtain ⟨b1, h3, h4⟩ := h.op h1
    obtain ⟨b2, h5, h6⟩ := h4.run h2
    exact ⟨b2, Option.bind_eq_some_iff.2 ⟨b1, h3, h5⟩, h6⟩

/-- The new vector, with all bits `set`, agrees with the specification. -/
theorem agrees_new (n : Nat) (set : Bool) : Agrees n (BV.new n set) ⟨fun _ => set, false⟩ := by
  refine ⟨?_, ⟨rfl, rfl⟩, rfl, ?_, by simp⟩
  · intro i
    show (if set then 2 ^ 64 - 1 else 0) < 2 ^ 64
    split <;> omega
  · intro p _
    rw [isSet_eq]
    show (if set then 2 ^ 64 - 1 else 0 : Nat).testBit (bitOf p) = set
    have hb : bitOf p < 64 := by rw [bitOf_eq]; omega
    cases set
    · exact Nat.zero_testBit _
    · simp only [if_true]
      rw [Nat.testBit_two_pow_sub_one]
      simp [hb]

/-- **C15.**  Create a vector of `n` bits, all 0 or all 1, and apply any sequence of writes within the
length and of `update` calls.  No access leaves the memory, every bit reads as written last, and, if
nothing was written since the last `update`, `rank(p)` is the number of set bits among the first `p`,
for every `p < n` — whatever the undefined shifts by 64 produce. -/
theorem C15_rank (n : Nat) (set : Bool) (ops : List Op) (s : Spec)
    (hs : Spec.run n ⟨fun _ => set, false⟩ ops = some s) :
    ∃ b, (BV.new n set).run ops = some b ∧ (∀ p, p < n → b.isSet p = s.bit p) ∧
      (s.fresh = true → ∀ junk p, p < n → b.rank? junk p = some ((List.range p).countP s.bit)) := by
  obtain ⟨b, h1, h2⟩ := (agrees_new n set).run hs
  exact ⟨b, h1, h2.bit, h2.rank⟩

/-- Non-vacuity: 1200 bits, three of them set, the counters updated in between. -/
example : ∃ s, Spec.run 1200 ⟨fun _ => false, false⟩
    [.set 3 true, .set 700 true, .update, .set 1199 true, .set 3 false, .set 5 true, .update] = some s ∧
    s.fresh = true ∧ s.bit 700 = true ∧ s.bit 3 = false :=
  ⟨_, rfl, rfl, rfl, rfl⟩

/-- The limit `p < n` is needed: `rank(n)`, the total number of set bits, reads behind the end of the
arrays when the length is a multiple of the 498 data bits of a block. -/
theorem C15_rank_of_length_out_of_bounds (junk : Nat) :
    ((BV.new 498 true).run [.update]).bind (fun b => b.rank? junk 498) = none := by
  obtain ⟨b, h1, h2⟩ := (agrees_new 498 true).run (ops := [.update]) rfl
  rw [h1]
  show b.rank? junk 498 = none
  unfold BV.rank?
  rw [if_pos]
  left
  rw [h2.sized.1, h2.len]
  decide

end Verif.Rank

import Verif.Net.Collect
import Verif.Net.Doubling

/-!
# C51: the all-to-all exchanges deliver every message under every schedule; C52: the doubling allreduce adds up all buffers
-/

namespace Verif.Net

section
variable {μ α : Type}

/-- **C51, direct exchange.**  All ranks do the same number of exchanges, one after the other, with any messages and with any decisions of
MPI which messages it copies.  There is a number of steps such that every execution, whatever the order of the steps of the ranks, can go
on until it has made this number of steps, makes no more, and then all ranks are done, no message is left, and in each
exchange the receiver of each rank was called once for each rank, in the order of the ranks, with the message that this rank has for it in this exchange. -/
theorem C51_direct (N : Nat) (rounds : List ((Nat → Nat → Bool) × (Nat → Nat → μ))) :
    ∃ T, ∀ n s, Reach N ⟨fun r => alltoalls N r (rounds.map fun x => (x.1 r, x.2 r)) [], fun _ _ => []⟩ n s → n ≤ T ∧
      ((n < T ∧ ∃ s', Step N s s') ∨ (n = T ∧ (∀ x y, s.net x y = []) ∧
        ∀ r, r < N → s.procs r = .ret (rounds.map fun x => (List.range N).map fun pe => (pe, x.2 pe r)))) := by
  obtain ⟨t, h1, h2, h3⟩ := run_alltoalls (N := N) rounds (fun _ => []) ⟨fun r => alltoalls N r (rounds.map fun x => (x.1 r, x.2 r)) [], idle⟩
    (fun _ _ => rfl) rfl
  obtain ⟨T, hT⟩ := always h1 (fun r hr => ⟨_, h2 r hr⟩)
  refine ⟨T, fun n s hs => ⟨(hT n s hs).1, ?_⟩⟩
  rcases (hT n s hs).2 with h | ⟨h, rfl⟩
  · exact .inl h
  · exact .inr ⟨h, fun x y => by rw [h3]; rfl, fun r hr => by rw [h2 r hr]; simp⟩

/-- **C51, `MPI_Alltoallv`.**  The variant that uses `MPI_Alltoallv` calls the receiver once for each rank, with the messages that this
rank has, in their order; all accesses are in bounds and all counts fit together. -/
theorem C51_alltoallv (N : Nat) (z : α) (send : Nat → List (List α)) (hs : ∀ src, src < N → (send src).length = N) (me : Nat) (hme : me < N) :
    alltoallv? N z send me = some ((List.range N).map fun src => (src, (send src).getD me [])) :=
  alltoallv_ok z send hs hme

/-- **C51, chosen implementation.**  `sparse_alltoall` calls the receiver exactly once for each rank, with the messages that this rank
has, whatever implementation it chooses. -/
theorem C51_calls (N : Nat) (hN : 0 < N) (z : α) (send : Nat → List (List α)) (hs : ∀ src, src < N → (send src).length = N) (me : Nat)
    (hme : me < N) : ∃ calls, calls? N z send me = some calls ∧ calls.Perm ((List.range N).map fun src => (src, (send src).getD me [])) :=
  calls_ok hN z send hs hme

/-- **C51, transposed.**  `sparse_alltoall_get` returns the buffers for a rank in the order of the ranks that sent them. -/
theorem C51_get (N : Nat) (hN : 0 < N) (z : α) (send : Nat → List (List α)) (hs : ∀ src, src < N → (send src).length = N) (me : Nat)
    (hme : me < N) : get? N z send me = some ((List.range N).map fun src => (send src).getD me []) :=
  get_ok hN z send hs hme

/-- **C51, replacement.**  Wherever `MPI_Alltoallv` is defined on all ranks, `sparse_alltoallv` is, too, and leaves the same receive
buffers: with gaps between the parts, in any order, and with parts of the receive buffer that stay as they are. -/
theorem C51_replacement (N : Nat) (hN : 0 < N) (z : α) (call : Nat → Grid.Call α) (out : Nat → List α)
    (h : ∀ me, me < N → Grid.alltoallv? (fun _ => List.range N) (fun pe => some (call pe)) me = some (out me)) (me : Nat) (hme : me < N) :
    sparseAlltoallv? N z call me = some (out me) :=
  sparseAlltoallv_ok hN z call out h hme

end

/-- **C52.**  On `2^p` ranks, for buffers with entries from any commutative monoid (integers of any width), and any decisions of MPI which
messages it copies: every execution, whatever the order of the steps of the ranks, can go on until it has made a certain number of
steps, makes no more, and then all ranks are done, no message is left, and on every rank each of the first `size` entries is the sum of
the entries of all ranks, and the other entries are unchanged. -/
theorem C52_doubling {α : Type} [AddCommMonoid α] [DecidableEq α] (p size : Nat) (eager : Nat → Nat → Bool) (buf : Nat → List α)
    (hbuf : ∀ r, r < 2 ^ p → size ≤ (buf r).length) :
    ∃ T, ∀ n s, Reach (2 ^ p) ⟨fun r => doubling (2 ^ p) size r (eager r) (p + 1) 0 (buf r) .ret, fun _ _ => []⟩ n s → n ≤ T ∧
      ((n < T ∧ ∃ s', Step (2 ^ p) s s') ∨ (n = T ∧ (∀ x y, s.net x y = []) ∧
        ∀ r, r < 2 ^ p → ∃ res, s.procs r = .ret res ∧ res.length = (buf r).length ∧
          ∀ i, res.getD i 0 = if i < size then ((List.range (2 ^ p)).map fun pe => (buf pe).getD i 0).sum else (buf r).getD i 0)) := by
  obtain ⟨t, res, h1, h2, h3⟩ := run_doubling (p := p) (size := size) eager buf (fun _ => .ret) (p + 1) 0 (Nat.zero_le p) (by omega) buf
    ⟨fun r => doubling (2 ^ p) size r (eager r) (p + 1) 0 (buf r) .ret, idle⟩ (fun r hr => ⟨rfl, hbuf r hr, fun i => by simp [blockSum]⟩)
    (fun _ _ => rfl) rfl
  obtain ⟨T, hT⟩ := always h1 (fun r hr => ⟨_, (h3 r hr).1⟩)
  refine ⟨T, fun n s hs => ⟨(hT n s hs).1, ?_⟩⟩
  rcases (hT n s hs).2 with h | ⟨h, rfl⟩
  · exact .inl h
  · refine .inr ⟨h, fun x y => by rw [h2]; rfl, fun r hr => ⟨res r, (h3 r hr).1, (h3 r hr).2.1, fun i => ?_⟩⟩
    rw [(h3 r hr).2.2 i, blockSum, Nat.div_eq_of_lt hr]
    simp

/-- **C52, other numbers of ranks.**  The assertion that the number of ranks is a power of two is needed: on three ranks the first
message of the last rank has no addressee, and no execution makes all ranks finish. -/
theorem C52_not_any_size (buf : Nat → List Int) (eager : Nat → Nat → Bool) (n : Nat) (s : St (List (Nat × Int)) (List Int))
    (h : Reach 3 ⟨fun r => doubling 3 1 r (eager r) 4 0 (buf r) .ret, fun _ _ => []⟩ n s) : ¬∃ res, s.procs 2 = .ret res := by
  have key : ∃ m k, s.procs 2 = .send 3 (eager 2 0) m k := by
    induction h with
    | refl => exact ⟨_, _, rfl⟩
    | tail _ hs ih =>
      obtain ⟨m, k, ih⟩ := ih
      obtain ⟨r, hr, ha⟩ := hs
      rw [act_eq, Option.map_eq_some_iff] at ha
      obtain ⟨⟨k', net⟩, h1, rfl⟩ := ha
      by_cases h2 : r = 2
      · subst h2
        rw [ih] at h1
        simp [lstep] at h1
      · exact ⟨m, k, by rw [← ih]; exact upd_ne _ _ (fun h => h2 h.symm)⟩
  obtain ⟨m, k, key⟩ := key
  intro ⟨res, h⟩
  rw [key] at h
  cases h

/-! ## Concrete cases -/

namespace Ex

/-- Three ranks, two exchanges: all messages differ. -/
def rounds : List ((Nat → Nat → Bool) × (Nat → Nat → Nat)) :=
  [(fun x y => x < y, fun x y => 10 * x + y), (fun _ _ => false, fun x y => 100 + 10 * x + y)]

/-- Runs the ranks in the order of a list, each as long as it can make a step. -/
def drive {μ β : Type} (N : Nat) : List Nat → St μ β → St μ β
  | [], s => s
  | r :: l, s => drive N l ((act N r s).getD s)

def result {μ β : Type} : Prog μ β → Option β
  | .ret x => some x
  | _ => none

/-- One execution, in which rank 2 is always the first: all ranks finish with the messages of both exchanges. -/
example : (List.range 3).map (fun r => result ((drive 3 ((List.replicate 20 [2, 1, 0, 0, 2, 1]).flatten)
      ⟨fun r => alltoalls 3 r (rounds.map fun x => (x.1 r, x.2 r)) [], fun _ _ => []⟩).procs r)) =
    [some [[(0, 0), (1, 10), (2, 20)], [(0, 100), (1, 110), (2, 120)]],
     some [[(0, 1), (1, 11), (2, 21)], [(0, 101), (1, 111), (2, 121)]],
     some [[(0, 2), (1, 12), (2, 22)], [(0, 102), (1, 112), (2, 122)]]] := by decide +kernel

/-- Rank 0 cannot finish alone. -/
example : result ((drive 3 (List.replicate 20 0) ⟨fun r => alltoalls 3 r (rounds.map fun x => (x.1 r, x.2 r)) [], fun _ _ => []⟩).procs 0) = none := by
  decide +kernel

/-- The send buffers of three ranks, some of them empty. -/
def send (r : Nat) : List (List Nat) := [[r, r + 10], [], List.replicate r 7]

example : alltoallv? 3 0 send 2 = some [(0, []), (1, [7]), (2, [7, 7])] := by decide +kernel

example : get? 3 0 send 0 = some [[0, 10], [1, 11], [2, 12]] := by
  rw [C51_get 3 (by decide) 0 send (by simp [send]) 0 (by decide)]
  rfl

/-- Parts in the reverse order, with a gap that keeps its content: `MPI_Alltoallv` is defined on both ranks. -/
def call (r : Nat) : Grid.Call Nat := ⟨[r, 9, r + 5], [1, 1], [2, 0], [77, 77, 77], [1, 1], [2, 0]⟩

example : ∀ me, me < 2 → Grid.alltoallv? (fun _ => List.range 2) (fun pe => some (call pe)) me = some (if me = 0 then [6, 77, 5] else [1, 77, 0]) := by
  decide +kernel

/-- Four ranks, the last entry is not part of the reduction. -/
def buf (r : Nat) : List Int := [r, 0, -1, r]

example : (List.range 4).map (fun r => result ((drive 4 ((List.replicate 10 [3, 1, 0, 2]).flatten)
      ⟨fun r => doubling 4 3 r (fun it => it = r) 3 0 (buf r) .ret, fun _ _ => []⟩).procs r)) =
    [some [6, 0, -4, 0], some [6, 0, -4, 1], some [6, 0, -4, 2], some [6, 0, -4, 3]] := by decide +kernel

example : ∀ r, r < 2 ^ 2 → 3 ≤ (buf r).length := by decide

end Ex

end Verif.Net

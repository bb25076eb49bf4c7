import Mathlib.Data.Nat.Sqrt
import Mathlib.Data.List.Sort

/-!
# Model of the grid communication

Sources: `kaminpar-mpi/grid_topology.h` (GT), `kaminpar-mpi/grid_alltoall.h` (GA).

Ranks and counts are natural numbers: the limits of `int` are not modelled.  All ranks take part in every collective operation.  An
access out of bounds and a collective operation whose counts do not fit together are `none`.
-/

namespace Verif.Grid

/-! ## Topology -/

/-- `_sqrt`, GT 18.  The conversion of the correctly rounded root of an `int` is the integer root. -/
def sq (N : Nat) : Nat := Nat.sqrt N

/-- GT 84-86. -/
def numFullCols (N : Nat) : Nat := N / sq N

/-- GT 72-74: the quotient is rounded up. -/
def numCols (N : Nat) : Nat := (N + sq N - 1) / sq N

/-- GT 76-78. -/
def numRows (N : Nat) : Nat := sq N

/-- GT 99-101. -/
def partialCol (N : Nat) : Nat := N - sq N * numFullCols N

/-- `num_pes_in_full_rectangle`, GT 103-105. -/
def fullRect (N : Nat) : Nat := if partialCol N = 0 then N else numCols N * partialCol N

/-- GT 20-26. -/
def row (N pe : Nat) : Nat :=
  if pe < fullRect N then pe / numCols N else (pe - fullRect N) / numFullCols N + partialCol N

/-- GT 28-34. -/
def col (N pe : Nat) : Nat :=
  if pe < fullRect N then pe % numCols N else (pe - fullRect N) % numFullCols N

/-- GT 36-42. -/
def virtualCol (N pe : Nat) : Nat :=
  if partialCol N = 0 ∨ col N pe < numFullCols N then col N pe else row N pe

/-- GT 44-50. -/
def rowSize (N r : Nat) : Nat := if r < partialCol N then numCols N else numFullCols N

/-- GT 64-66. -/
def virtualColSize (N c : Nat) : Nat := sq N + if c < partialCol N then 1 else 0

/-- GT 80-82. -/
def numColsInRow (N r : Nat) : Nat := numFullCols N + if r < partialCol N then 1 else 0

/-- GT 88-96. -/
def virtualElement (N r vc : Nat) : Nat :=
  if r < partialCol N then r * numCols N + vc
  else if r < numRows N then r * numFullCols N + vc + partialCol N
  else numCols N - 1 + numCols N * vc

/-! ## MPI -/

/-- The members of the new communicator of the ranks with a color, from `MPI_Comm_split`: ordered by their keys, and by their
ranks if the keys are equal (insertion sort is stable). -/
def split (N : Nat) (color key : Nat → Nat) (c : Nat) : List Nat :=
  ((List.range N).filter fun pe => color pe = c).insertionSort fun a b => key a ≤ key b

/-- The row communicator of a rank, GT 116. -/
def rowComm (N me : Nat) : List Nat := split N (row N) (fun rank => rank) (row N me)

/-- The column communicator of a rank, GT 117-122. -/
def colComm (N me : Nat) : List Nat :=
  split N (virtualCol N) (fun rank => if virtualCol N rank = col N rank then rank else N + rank) (virtualCol N me)

/-- `l[d .. d + n)`. -/
def slice? {α : Type} (l : List α) (d n : Nat) : Option (List α) :=
  if d + n ≤ l.length then some ((l.drop d).take n) else none

/-- `l` with `x` written to the positions from `d`. -/
def write? {α : Type} (l : List α) (d : Nat) (x : List α) : Option (List α) :=
  if d + x.length ≤ l.length then some (l.take d ++ x ++ l.drop (d + x.length)) else none

/-- `l[i] += x`. -/
def add? (l : List Nat) (i x : Nat) : Option (List Nat) := l[i]?.bind fun y => write? l i [y + x]

/-- The arguments of a rank in a call of `MPI_Alltoallv`. -/
structure Call (α : Type) where
  sbuf : List α
  scnt : List Nat
  sdis : List Nat
  rbuf : List α
  rcnt : List Nat
  rdis : List Nat

/-- `MPI_Alltoallv` on the communicators `comm`: the receive buffer of rank `me` afterwards.  The number of elements
that a rank sends must be the number that the receiver expects. -/
def alltoallv? {α : Type} (comm : Nat → List Nat) (call : Nat → Option (Call α)) (me : Nat) : Option (List α) := do
  let c ← call me
  (List.range (comm me).length).foldlM (fun buf i => do
    let src ← (comm me)[i]?
    let c' ← call src
    let n ← c'.scnt[(comm me).idxOf me]?
    let d ← c'.sdis[(comm me).idxOf me]?
    let rn ← c.rcnt[i]?
    let rd ← c.rdis[i]?
    if n = rn then do
      let x ← slice? c'.sbuf d n
      write? buf rd x
    else none) c.rbuf

/-- A vector with one more entry than `l`: 0 followed by the prefix sums (`std::partial_sum`, `parallel::prefix_sum` — see C47). -/
def displs (l : List Nat) : List Nat := l.scanl (· + ·) 0

/-! ## The exchange -/

section
variable {α : Type} (N : Nat) (z : α) (data : Nat → List α) (counts : Nat → List Nat)

/-- Step 1, GA 61-113: exchange the numbers of elements within the column. -/
def call1? (me : Nat) : Option (Call Nat) := do
  let rcs := (rowComm N me).length
  let ccs := (colComm N me).length
  let scnt ← (List.range (numRows N)).foldlM (fun l r => write? l r [numColsInRow N r]) (List.replicate ccs 0)
  let rcnt := if col N me = virtualCol N me then List.replicate ccs (rowSize N (row N me)) else List.replicate ccs 0
  some ⟨counts me, scnt, displs scnt, List.replicate (rcs * ccs) 0, rcnt, displs rcnt⟩

/-- `row_counts` after GA 113. -/
def rowCounts? (me : Nat) : Option (List Nat) := alltoallv? (colComm N) (call1? N counts) me

/-- Step 2, GA 136-176: exchange the elements within the column. -/
def call2? (me : Nat) : Option (Call α) := do
  let rowCounts ← rowCounts? N counts me
  let rcs := (rowComm N me).length
  let ccs := (colComm N me).length
  let scnt ← (List.range N).foldlM (fun l pe => do
    let x ← (counts me)[pe]?
    add? l (row N pe) x) (List.replicate ccs 0)
  let rcnt ← (List.range ccs).mapM fun r => (slice? rowCounts (r * rcs) rcs).map List.sum
  let rdis := displs rcnt
  some ⟨data me, scnt, displs scnt, List.replicate (rdis.getLastD 0) z, rcnt, rdis⟩

/-- `row_recv_buf` after GA 176. -/
def rowRecvBuf? (me : Nat) : Option (List α) := alltoallv? (colComm N) (call2? N z data counts) me

/-- The loop GA 210-220: `col_counts` and `col_subcounts`. -/
def colCounts? (rcs ccs : Nat) (rowCounts : List Nat) : Option (List Nat × List Nat) :=
  ((List.range rcs).flatMap fun c => (List.range ccs).map fun r => (c, r)).foldlM (fun s x => do
    let n ← rowCounts[x.1 + x.2 * rcs]?
    let cc ← add? s.1 x.1 n
    let sub ← write? s.2 (x.2 + x.1 * ccs) [n]
    some (cc, sub)) (List.replicate rcs 0, List.replicate (rcs * ccs) 0)

/-- Step 3, GA 203-269: exchange the numbers of elements within the row. -/
def call3? (me : Nat) : Option (Call Nat) := do
  let rowCounts ← rowCounts? N counts me
  let rcs := (rowComm N me).length
  let ccs := (colComm N me).length
  let cs ← colCounts? rcs ccs rowCounts
  let scnt := if col N me = virtualCol N me then List.replicate rcs ccs else List.replicate rcs 0
  let rcnt ← (List.range (numFullCols N)).foldlM (fun l c => write? l c [virtualColSize N c]) (List.replicate rcs 0)
  some ⟨cs.2, scnt, displs scnt, List.replicate N 0, rcnt, displs rcnt⟩

/-- `subcounts` after GA 269. -/
def subcounts? (me : Nat) : Option (List Nat) := alltoallv? (rowComm N) (call3? N counts) me

/-- The loop GA 274-284: `col_recv_counts`. -/
def colRecvCounts? (rcs : Nat) (subcounts : List Nat) : Option (List Nat) :=
  ((List.range (numFullCols N)).foldlM (fun (s : Nat × List Nat) r => do
    let x ← slice? subcounts s.1 (virtualColSize N r)
    let l ← write? s.2 r [x.sum]
    some (s.1 + virtualColSize N r, l)) (0, List.replicate rcs 0)).map Prod.snd

/-- The loop GA 292-317: the elements ordered by the column of their destination. -/
def transpose? (rcs ccs : Nat) (rowCounts rowDispls colDispls : List Nat) (buf : List α) : Option (List α) :=
  (List.range rcs).foldlM (fun out c => do
    let i ← colDispls[c]?
    let s ← (List.range ccs).foldlM (fun (s : Nat × List α) r => do
      let d ← rowDispls[r * rcs + c]?
      let n ← rowCounts[r * rcs + c]?
      let x ← slice? buf d n
      let out ← write? s.2 s.1 x
      some (s.1 + n, out)) (i, out)
    some s.2) (List.replicate buf.length z)

/-- Step 4, GA 286-340: exchange the elements within the row. -/
def call4? (me : Nat) : Option (Call α) := do
  let rowCounts ← rowCounts? N counts me
  let buf ← rowRecvBuf? N z data counts me
  let sub ← subcounts? N counts me
  let rcs := (rowComm N me).length
  let ccs := (colComm N me).length
  let cs ← colCounts? rcs ccs rowCounts
  let rcnt ← colRecvCounts? N rcs sub
  let rdis := displs rcnt
  let colData ← transpose? z rcs ccs rowCounts (displs rowCounts) (displs cs.1) buf
  some ⟨colData, cs.1, displs cs.1, List.replicate (rdis.getLastD 0) z, rcnt, rdis⟩

/-- `col_recv_buf` after GA 340. -/
def colRecvBuf? (me : Nat) : Option (List α) := alltoallv? (rowComm N) (call4? N z data counts) me

/-- `sparse_alltoall_grid(data, counts, receiver, comm)` on rank `me`, GA 350-370: the calls of the receiver. -/
def exchange? (me : Nat) : Option (List (Nat × List α)) := do
  let sub ← subcounts? N counts me
  let buf ← colRecvBuf? N z data counts me
  let s ← ((List.range (numFullCols N)).flatMap fun c => (List.range (virtualColSize N c)).map fun r => (c, r)).foldlM
    (fun (s : Nat × Nat × List (Nat × List α)) x => do
      let n ← sub[s.1]?
      let b ← slice? buf s.2.1 n
      some (s.1 + 1, s.2.1 + n, s.2.2 ++ [(virtualElement N x.2 x.1, b)])) (0, 0, [])
  some s.2.2

/-- The copies of the send buffers to one buffer, GA 387-393; `send` are the send buffers of a rank. -/
def dense? (send : List (List α)) : Option (List α) :=
  let counts := send.map List.length
  (List.range N).foldlM (fun l pe => do
    let x ← send[pe]?
    let d ← (displs counts)[pe]?
    write? l d x) (List.replicate ((displs counts).getLastD 0) z)

/-- `sparse_alltoall_grid(send_buffers, receiver, comm)` on rank `me`, GA 375-400: `send` are the send buffers of all ranks. -/
def sparseAlltoallGrid? (send : Nat → List (List α)) (me : Nat) : Option (List (Nat × List α)) := do
  let bufs ← (List.range N).mapM fun pe => dense? N z (send pe)
  exchange? N z (fun pe => bufs.getD pe []) (fun pe => (send pe).map List.length) me

end

end Verif.Grid

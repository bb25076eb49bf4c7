import Verif.Grid.Topo
import Verif.Grid.Buffers

/-! # The four steps of the exchange -/

namespace Verif.Grid
variable {α : Type}

theorem foldlM_flatMap' {X Y S : Type} (f : S → Y → Option S) (g : X → List Y) : ∀ (xs : List X) (s : S),
    (xs.flatMap g).foldlM f s = xs.foldlM (fun s x => (g x).foldlM f s) s
  | [], _ => rfl
  | x :: xs, s => by
    rw [List.flatMap_cons, List.foldlM_append, List.foldlM_cons]
    congr 1
    funext s'
    exact foldlM_flatMap' f g xs s'

theorem range_prefix {n : Nat} {pre post : List Nat} {x : Nat} (h : List.range n = pre ++ x :: post) : pre = List.range x ∧ x < n := by
  have h1 : (List.range n).take pre.length = pre := by rw [h]; simp
  have h2 : (List.range n)[pre.length]? = some x := by rw [h]; simp
  obtain ⟨h3, h4⟩ := List.getElem?_eq_some_iff.1 h2
  rw [List.getElem_range] at h4
  rw [List.length_range] at h3
  refine ⟨?_, by omega⟩
  rw [← h1, h4, List.take_range]
  congr 1
  omega

/-- A loop that sets the first entries of a vector. -/
theorem set_loop (f : Nat → Nat) (n m : Nat) (h : n ≤ m) :
    (List.range n).foldlM (fun l i => write? l i [f i]) (List.replicate m 0) = some ((List.range n).map f ++ List.replicate (m - n) 0) := by
  have := fold_write (β := Nat) (fun l i => write? l i [f i]) (fun i => i) (fun i => [f i]) (List.range n) [] (List.replicate m 0) ?_ ?_
  · rw [List.nil_append, List.nil_append] at this
    rw [this, ← List.map_eq_flatMap]
    simp
  · intro pre i post he l hl
    obtain ⟨rfl, _⟩ := range_prefix he
    simp
  · simpa using h

theorem add_at (a : List Nat) (y : Nat) (b : List Nat) (x : Nat) : add? (a ++ y :: b) a.length x = some (a ++ (y + x) :: b) := by
  unfold add?
  have : (a ++ y :: b)[a.length]? = some y := by simp
  rw [this, Option.bind_some]
  have := write_append a [y] b [y + x] rfl
  simpa using this

/-- `l[i] += x` for all `x`. -/
theorem add_loop {X : Type} (a : List Nat) (b : List Nat) (f : X → Nat) (idx : X → Nat) (get : X → Option Nat) : ∀ (xs : List X) (y : Nat),
    (∀ x ∈ xs, idx x = a.length ∧ get x = some (f x)) →
    xs.foldlM (fun l x => (get x).bind fun v => add? l (idx x) v) (a ++ y :: b) = some (a ++ (y + (xs.map f).sum) :: b)
  | [], y, _ => by simp
  | x :: xs, y, h => by
    obtain ⟨h1, h2⟩ := h x List.mem_cons_self
    rw [List.foldlM_cons, h2, Option.bind_some, h1, add_at]
    simp only [Option.bind_eq_bind, Option.bind_some]
    rw [add_loop a b f idx get xs (y + f x) fun x hx => h x (List.mem_cons_of_mem _ hx)]
    simp [Nat.add_assoc]

/-! ## The loops of steps 2 to 4 -/

/-- The rows of a matrix, one after the other. -/
theorem get_matrix {X : Type} {β : Type} (w : Nat) (g : X → Nat → β) : ∀ (M : List X) (i c : Nat) (x : X), M[i]? = some x → c < w →
    (M.flatMap fun x => (List.range w).map (g x))[i * w + c]? = some (g x c)
  | y :: M, 0, c, x, h, hc => by
    obtain rfl : y = x := by simpa using h
    rw [List.flatMap_cons, Nat.zero_mul, Nat.zero_add, List.getElem?_append_left (by simpa using hc), List.getElem?_map, List.getElem?_range hc]
    rfl
  | y :: M, i + 1, c, x, h, hc => by
    rw [List.flatMap_cons, List.getElem?_append_right (by rw [List.length_map, List.length_range, Nat.add_mul]; omega),
      List.length_map, List.length_range]
    have : (i + 1) * w + c - w = i * w + c := by rw [Nat.add_mul]; omega
    rw [this]
    exact get_matrix w g M i c x (by simpa using h) hc

theorem slice_matrix {X : Type} {β : Type} (w : Nat) (g : X → Nat → β) (M : List X) (i : Nat) (x : X) (h : M[i]? = some x) :
    slice? (M.flatMap fun x => (List.range w).map (g x)) (i * w) w = some ((List.range w).map (g x)) := by
  have h1 : (M.map fun x => (List.range w).map (g x))[i]? = some ((List.range w).map (g x)) := by rw [List.getElem?_map, h]; rfl
  have h2 := slice_part h1 []
  have hi := (List.getElem?_eq_some_iff.1 h).1
  have : (((M.map fun x => (List.range w).map (g x)).map List.length).take i).sum = i * w := by
    rw [List.map_map]
    have : (List.length ∘ fun x => (List.range w).map (g x)) = fun _ => w := by funext x; simp
    rw [this, List.map_const', List.take_replicate, List.sum_replicate_nat, Nat.min_eq_left (Nat.le_of_lt hi)]
  rw [this, List.append_nil, List.length_map, List.length_range] at h2
  rw [List.flatMap_def]
  exact h2

/-- The inner loop of `colCounts?`. -/
theorem colCounts_inner {X : Type} (rcs ccs : Nat) (rowCounts : List Nat) (t : X → Nat → Nat) (c : Nat) : ∀ (M : List X) (i : Nat) (A B D E : List Nat) (s : Nat),
    (∀ j x, M[j]? = some x → rowCounts[c + (i + j) * rcs]? = some (t x c)) → A.length = c → D.length = i + c * ccs → M.length ≤ E.length →
    ((List.range' i M.length).map fun r => (c, r)).foldlM (fun (s : List Nat × List Nat) x => (rowCounts[x.1 + x.2 * rcs]?).bind fun n =>
      (add? s.1 x.1 n).bind fun cc => (write? s.2 (x.2 + x.1 * ccs) [n]).bind fun sub => some (cc, sub)) (A ++ s :: B, D ++ E) =
      some (A ++ (s + (M.map (t · c)).sum) :: B, D ++ M.map (t · c) ++ E.drop M.length)
  | [], i, A, B, D, E, s, _, _, _, _ => by simp
  | x :: M, i, A, B, D, E, s, h, hA, hD, hE => by
    obtain ⟨e, E, rfl⟩ : ∃ e E', E = e :: E' := by
      cases E with
      | nil => simp at hE
      | cons e E => exact ⟨e, E, rfl⟩
    rw [List.length_cons, List.range'_succ, List.map_cons, List.foldlM_cons]
    have h0 := h 0 x (by simp)
    rw [Nat.add_zero] at h0
    rw [h0, Option.bind_some]
    have h1 : add? (A ++ s :: B) c (t x c) = some (A ++ (s + t x c) :: B) := by rw [← hA]; exact add_at _ _ _ _
    have h2 : write? (D ++ e :: E) (i + c * ccs) [t x c] = some (D ++ t x c :: E) := by
      rw [← hD]
      have := write_append D [e] E [t x c] rfl
      simpa using this
    simp only [Option.bind_eq_bind]
    rw [h1, Option.bind_some, h2, Option.bind_some, Option.bind_some]
    have h3 : D ++ t x c :: E = (D ++ [t x c]) ++ E := by simp
    rw [h3, colCounts_inner rcs ccs rowCounts t c M (i + 1) A B (D ++ [t x c]) E (s + t x c) ?_ hA ?_ ?_]
    · simp [Nat.add_assoc]
    · intro j y hy
      have := h (j + 1) y (by simpa using hy)
      rw [show i + 1 + j = i + (j + 1) by omega]
      exact this
    · rw [List.length_append, hD]; simp; omega
    · simpa using hE

theorem colCounts_ok {X : Type} (rcs : Nat) (M : List X) (t : X → Nat → Nat) :
    colCounts? rcs M.length (M.flatMap fun x => (List.range rcs).map (t x)) =
      some ((List.range rcs).map fun c => (M.map (t · c)).sum, (List.range rcs).flatMap fun c => M.map (t · c)) := by
  unfold colCounts?
  rw [foldlM_flatMap']
  have key : ∀ n, n ≤ rcs → (List.range n).foldlM (fun s c => ((List.range M.length).map fun r => (c, r)).foldlM (fun (s : List Nat × List Nat) x => do
      let n ← (M.flatMap fun x => (List.range rcs).map (t x))[x.1 + x.2 * rcs]?
      let cc ← add? s.1 x.1 n
      let sub ← write? s.2 (x.2 + x.1 * M.length) [n]
      some (cc, sub)) s) (List.replicate rcs 0, List.replicate (rcs * M.length) 0) =
      some ((List.range n).map (fun c => (M.map (t · c)).sum) ++ List.replicate (rcs - n) 0,
        ((List.range n).flatMap fun c => M.map (t · c)) ++ List.replicate ((rcs - n) * M.length) 0) := by
    intro n
    induction n with
    | zero => intro _; simp
    | succ n ih =>
      intro hn
      rw [List.range_succ, List.foldlM_append, ih (by omega)]
      simp only [Option.bind_eq_bind, Option.bind_some, List.foldlM_cons, List.foldlM_nil]
      have e1 : List.replicate (rcs - n) 0 = 0 :: List.replicate (rcs - (n + 1)) 0 := by
        rw [show rcs - n = (rcs - (n + 1)) + 1 by omega]; rfl
      have := colCounts_inner rcs M.length (M.flatMap fun x => (List.range rcs).map (t x)) t n M 0
        ((List.range n).map fun c => (M.map (t · c)).sum) (List.replicate (rcs - (n + 1)) 0)
        ((List.range n).flatMap fun c => M.map (t · c)) (List.replicate ((rcs - n) * M.length) 0) 0 ?_ (by simp) ?_ ?_
      · rw [e1, List.range_eq_range' (n := M.length), this]
        have e2 : (rcs - n) * M.length - M.length = (rcs - (n + 1)) * M.length := by
          rw [show rcs - n = (rcs - (n + 1)) + 1 by omega, Nat.add_mul]; omega
        simp [← List.range_eq_range', List.append_assoc, e2]
      · intro j x hx
        rw [Nat.zero_add, Nat.add_comm]
        exact get_matrix rcs t M j n x hx (by omega)
      · rw [List.length_flatMap]
        simp
      · rw [List.length_replicate]
        exact Nat.le_mul_of_pos_left _ (by omega)
  have := key rcs (le_refl _)
  simp only [Nat.sub_self, List.replicate_zero, List.append_nil, Nat.zero_mul] at this
  exact this

/-- The loop over the rows in `transpose?`. -/
theorem transpose_inner {X : Type} (rcs : Nat) (M : List X) (P : X → Nat → List α) (c : Nat) (hc : c < rcs) : ∀ (M' : List X) (i : Nat) (D E : List α),
    (∀ j, M'[j]? = M[i + j]?) → (M'.flatMap (P · c)).length ≤ E.length →
    (List.range' i M'.length).foldlM (fun (s : Nat × List α) r =>
      ((displs (M.flatMap fun x => (List.range rcs).map fun c => (P x c).length))[r * rcs + c]?).bind fun d =>
      ((M.flatMap fun x => (List.range rcs).map fun c => (P x c).length)[r * rcs + c]?).bind fun n =>
      (slice? (M.flatMap fun x => (List.range rcs).flatMap (P x)) d n).bind fun x => (write? s.2 s.1 x).bind fun out => some (s.1 + n, out)) (D.length, D ++ E) =
      some ((D ++ M'.flatMap (P · c)).length, D ++ M'.flatMap (P · c) ++ E.drop (M'.flatMap (P · c)).length)
  | [], i, D, E, _, _ => by simp
  | x :: M', i, D, E, h, hE => by
    have hx : M[i]? = some x := by rw [← Nat.add_zero i, ← h 0]; rfl
    rw [List.flatMap_cons, List.length_append] at hE
    rw [List.length_cons, List.range'_succ, List.foldlM_cons]
    have e2 := get_matrix rcs (fun x c => (P x c).length) M i c x hx hc
    have hlt := (List.getElem?_eq_some_iff.1 e2).1
    rw [displs_get (Nat.le_of_lt hlt), Option.bind_some, e2, Option.bind_some]
    have e3 : (M.flatMap fun x => (List.range rcs).map fun c => (P x c).length) = (M.flatMap fun x => (List.range rcs).map (P x)).map List.length := by
      rw [List.map_flatMap]
      congr 1
      funext x
      rw [List.map_map]
      rfl
    have e4 : (M.flatMap fun x => (List.range rcs).flatMap (P x)) = (M.flatMap fun x => (List.range rcs).map (P x)).flatten := by
      clear hx h e2 hlt e3
      induction M with
      | nil => rfl
      | cons y M ih => rw [List.flatMap_cons, List.flatMap_cons, List.flatten_append, ih, List.flatMap_def]
    have e5 := slice_part (get_matrix rcs P M i c x hx hc) []
    rw [List.append_nil] at e5
    rw [e3, e4, e5, Option.bind_some]
    have e6 : write? (D ++ E) D.length (P x c) = some (D ++ P x c ++ E.drop (P x c).length) := by
      have := write_append D (E.take (P x c).length) (E.drop (P x c).length) (P x c) (by rw [List.length_take]; omega)
      rw [List.append_assoc, List.take_append_drop] at this
      exact this
    simp only [Option.bind_eq_bind]
    rw [e6, Option.bind_some, Option.bind_some, ← e3, ← e4, show D.length + (P x c).length = (D ++ P x c).length by simp,
      transpose_inner rcs M P c hc M' (i + 1) (D ++ P x c) (E.drop (P x c).length)]
    · simp [List.append_assoc]
    · intro j
      rw [show i + 1 + j = i + (j + 1) by omega, ← h (j + 1)]
      rfl
    · rw [List.length_drop]; omega

theorem length_swap {X : Type} (rcs : Nat) (M : List X) (P : X → Nat → List α) :
    (M.flatMap fun x => (List.range rcs).flatMap (P x)).length = ((List.range rcs).flatMap fun c => M.flatMap (P · c)).length := by
  induction M with
  | nil => simp
  | cons x M ih =>
    rw [List.flatMap_cons, List.length_append, ih]
    have : ∀ l : List Nat, (l.flatMap (P x)).length + (l.flatMap fun c => M.flatMap (P · c)).length =
        (l.flatMap fun c => (x :: M).flatMap (P · c)).length := by
      intro l
      induction l with
      | nil => rfl
      | cons c l ih =>
        simp only [List.flatMap_cons, List.length_append] at ih ⊢
        omega
    exact this _

theorem transpose_ok {X : Type} (z : α) (rcs : Nat) (M : List X) (P : X → Nat → List α) :
    transpose? z rcs M.length (M.flatMap fun x => (List.range rcs).map fun c => (P x c).length)
      (displs (M.flatMap fun x => (List.range rcs).map fun c => (P x c).length))
      (displs ((List.range rcs).map fun c => (M.map fun x => (P x c).length).sum)) (M.flatMap fun x => (List.range rcs).flatMap (P x)) =
      some ((List.range rcs).flatMap fun c => M.flatMap (P · c)) := by
  unfold transpose?
  have key : ∀ n, n ≤ rcs → (List.range n).foldlM (fun out c => do
      let i ← (displs ((List.range rcs).map fun c => (M.map fun x => (P x c).length).sum))[c]?
      let s ← (List.range M.length).foldlM (fun (s : Nat × List α) r => do
        let d ← (displs (M.flatMap fun x => (List.range rcs).map fun c => (P x c).length))[r * rcs + c]?
        let n ← (M.flatMap fun x => (List.range rcs).map fun c => (P x c).length)[r * rcs + c]?
        let x ← slice? (M.flatMap fun x => (List.range rcs).flatMap (P x)) d n
        let out ← write? s.2 s.1 x
        some (s.1 + n, out)) (i, out)
      some s.2) (List.replicate (M.flatMap fun x => (List.range rcs).flatMap (P x)).length z) =
      some (((List.range n).flatMap fun c => M.flatMap (P · c)) ++
        (List.replicate (M.flatMap fun x => (List.range rcs).flatMap (P x)).length z).drop ((List.range n).flatMap fun c => M.flatMap (P · c)).length) := by
    intro n
    induction n with
    | zero => intro _; simp
    | succ n ih =>
      intro hn
      rw [List.range_succ, List.foldlM_append, ih (by omega)]
      simp only [Option.bind_eq_bind, Option.bind_some, List.foldlM_cons, List.foldlM_nil]
      rw [displs_get (by simp; omega), Option.bind_some]
      have e1 : (((List.range rcs).map fun c => (M.map fun x => (P x c).length).sum).take n).sum =
          ((List.range n).flatMap fun c => M.flatMap (P · c)).length := by
        rw [← List.map_take, List.take_range, Nat.min_eq_left (by omega), List.length_flatMap]
        congr 2
        funext c
        rw [List.length_flatMap]
      have := transpose_inner rcs M P n (by omega) M 0 ((List.range n).flatMap fun c => M.flatMap (P · c))
        ((List.replicate (M.flatMap fun x => (List.range rcs).flatMap (P x)).length z).drop ((List.range n).flatMap fun c => M.flatMap (P · c)).length)
        (fun j => by rw [Nat.zero_add]) ?_
      · rw [e1, List.range_eq_range' (n := M.length), this]
        simp only [Option.bind_some, List.flatMap_append, List.flatMap_cons, List.flatMap_nil, List.append_nil, List.drop_drop, List.length_append]
        rfl
      · rw [List.length_drop, List.length_replicate, length_swap]
        obtain ⟨d, rfl⟩ : ∃ d, rcs = n + (d + 1) := ⟨rcs - n - 1, by omega⟩
        rw [List.range_add, List.flatMap_append, List.length_append, List.range_succ_eq_map]
        simp only [List.map_cons, List.flatMap_cons, List.length_append, Nat.add_zero]
        omega
  have := key rcs (le_refl _)
  rw [length_swap] at this
  simp only [List.drop_replicate, Nat.sub_self, List.replicate_zero, List.append_nil] at this
  rw [length_swap]
  exact this

end Verif.Grid

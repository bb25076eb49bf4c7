import Verif.Files.Csr

/-!
# Writing produces files that follow the format
-/

namespace Verif.Files
open Verif.CsrGraph (Arr weightAt Weights)

theorem digitChar_ok {d : Nat} (h : d < 10) : IsDigit d (Nat.digitChar d) := by
  match d, h with
  | 0, _ => exact .d0
  | 1, _ => exact .d1
  | 2, _ => exact .d2
  | 3, _ => exact .d3
  | 4, _ => exact .d4
  | 5, _ => exact .d5
  | 6, _ => exact .d6
  | 7, _ => exact .d7
  | 8, _ => exact .d8
  | 9, _ => exact .d9

/-- The decimal digits of a number. -/
theorem digits_ok : ∀ x, IsNumeral x (digits x) := by
  intro x
  induction x using Nat.strongRecOn with
  | _ x ih =>
    unfold digits
    rcases Nat.lt_or_ge x 10 with h | h
    · rw [Nat.toDigits_of_lt_base h]
      exact .one (digitChar_ok h)
    · rw [Nat.toDigits_of_base_le (by decide) h]
      have := IsNumeral.more (ih (x / 10) (by omega)) (digitChar_ok (Nat.mod_lt x (by decide : 0 < 10)))
      rwa [Nat.div_add_mod] at this

theorem blank_nil : IsBlank [] := fun _ h => by cases h
theorem blank_space : IsBlank [' '] := fun _ h => by simpa using h

/-- A list of numbers, each followed by a space. -/
def spaced (xs : List Nat) : List Char := xs.flatMap fun x => digits x ++ [' ']

theorem spaced_ok : ∀ xs, IsFields xs (spaced xs)
  | [] => .nil
  | x :: xs => .cons (digits_ok x) blank_space (fun _ => by simp) (spaced_ok xs)

theorem line_of_fields {xs : List Nat} {s : List Char} (h : IsFields xs s) : IsLine xs s :=
  ⟨[], [], s, rfl, .nil, blank_nil, h⟩

/-- What a graph file of the graph `g` must describe. -/
def desc (g : Graph) : Desc :=
  (List.range g.n).map fun u => ((g.w u).toNat, (g.adj u).map fun y => (y.1, y.2.toNat))

theorem signedDigits_of_nonneg {x : Int} (h : 0 ≤ x) : signedDigits x = digits x.toNat := by
  match x, h with
  | .ofNat x, _ => rfl

theorem writeEdges_eq {w : Widths} {ewd : Bool} : ∀ {nb : List (Nat × Int)},
    (∀ y ∈ nb, y.1 + 1 < 2 ^ w.node) → (ewd = true → ∀ y ∈ nb, 0 ≤ y.2) →
    writeEdges w ewd nb = spaced ((nb.map fun y => (y.1, y.2.toNat)).flatMap fun y => (y.1 + 1) :: if ewd then [y.2] else [])
  | [], _, _ => rfl
  | y :: nb, h1, h2 => by
    have ih := writeEdges_eq (w := w) (ewd := ewd) (nb := nb) (fun y hy => h1 y (List.mem_cons_of_mem _ hy))
      fun he y hy => h2 he y (List.mem_cons_of_mem _ hy)
    have hu : toUnsigned w.node (y.1 + 1) = y.1 + 1 := Nat.mod_eq_of_lt (h1 y List.mem_cons_self)
    unfold writeEdges at ih ⊢
    unfold spaced at ih ⊢
    rw [List.flatMap_cons, ih, hu]
    cases ewd with
    | false => simp
    | true => simp [signedDigits_of_nonneg (h2 rfl y List.mem_cons_self)]

theorem writeNode_eq {w : Widths} {nwd ewd : Bool} {weight : Int} {nb : List (Nat × Int)}
    (h1 : ∀ y ∈ nb, y.1 + 1 < 2 ^ w.node) (h2 : ewd = true → ∀ y ∈ nb, 0 ≤ y.2) (h3 : nwd = true → 0 ≤ weight) :
    writeNode w nwd ewd weight nb =
      spaced (nodeFields nwd ewd (weight.toNat, nb.map fun y => (y.1, y.2.toNat))) ++ ['\n'] := by
  unfold writeNode nodeFields
  rw [writeEdges_eq h1 h2]
  cases nwd with
  | false => simp
  | true => simp [signedDigits_of_nonneg (h3 rfl), spaced]

theorem writeHeader_ok (n m : Nat) (nwd ewd : Bool) :
    ∃ xs head, writeHeader n m nwd ewd = head ++ ['\n'] ∧ IsHeader n (m / 2) nwd ewd xs ∧ IsLine xs head := by
  have two : IsFields [n, m / 2] (digits n ++ [' '] ++ (digits (m / 2) ++ [] ++ [])) :=
    .cons (digits_ok n) blank_space (by simp) (.cons (digits_ok _) blank_nil (fun h => absurd rfl h) .nil)
  have three : ∀ fmt s, IsNumeral fmt s →
      IsFields [n, m / 2, fmt] (digits n ++ [' '] ++ (digits (m / 2) ++ [' '] ++ (s ++ [] ++ []))) := fun fmt s hs =>
    .cons (digits_ok n) blank_space (by simp) (.cons (digits_ok _) blank_space (by simp)
      (.cons hs blank_nil (fun h => absurd rfl h) .nil))
  cases nwd with
  | false =>
    cases ewd with
    | false => exact ⟨_, _, by simp [writeHeader], Or.inr ⟨rfl, rfl, rfl⟩, line_of_fields two⟩
    | true => exact ⟨_, _, by simp [writeHeader], Or.inl rfl, line_of_fields (three 1 ['1'] (.one .d1))⟩
  | true =>
    cases ewd with
    | false =>
      exact ⟨_, _, by simp [writeHeader], Or.inl rfl, line_of_fields (three 10 ['1', '0'] (.more (.one .d1) .d0))⟩
    | true =>
      exact ⟨_, _, by simp [writeHeader], Or.inl rfl, line_of_fields (three 11 ['1', '1'] (.more (.one .d1) .d1))⟩

/-- A written file follows the format. -/
theorem write_isMetis {w : Widths} {g : Graph} {m : Nat} {nwd ewd : Bool} (hwf : g.WF) (hn : g.n < 2 ^ w.node)
    (hnw : nwd = true → ∀ u, u < g.n → 0 ≤ g.w u)
    (hew : ewd = true → ∀ u, u < g.n → ∀ y ∈ g.adj u, 0 ≤ y.2) :
    IsMetis (desc g) (m / 2) nwd ewd (writeMetis w g m nwd ewd) := by
  obtain ⟨xs, head, h1, h2, h3⟩ := writeHeader_ok g.n m nwd ewd
  have hbody : ∀ l : List Nat, (∀ u ∈ l, u < g.n) →
      IsBody nwd ewd (l.map fun u => ((g.w u).toNat, (g.adj u).map fun y => (y.1, y.2.toNat)))
        (l.flatMap fun u => writeNode w nwd ewd (g.w u) (g.adj u)) := by
    intro l
    induction l with
    | nil => intro _; exact .nil
    | cons u l ih =>
      intro hl
      have hu := hl u List.mem_cons_self
      rw [List.flatMap_cons, writeNode_eq (fun y hy => by have := hwf u hu y hy; omega) (fun he => hew he u hu)
        (fun he => hnw he u hu), List.append_assoc]
      exact .cons (line_of_fields (spaced_ok _)) (ih fun u hu => hl u (List.mem_cons_of_mem _ hu))
  refine ⟨xs, head, _, [], ?_, ?_, h3, Or.inl ⟨hbody (List.range g.n) fun u hu => List.mem_range.1 hu, .nil⟩⟩
  · rw [writeMetis, h1]; simp
  · simpa [desc] using h2

end Verif.Files

import Verif.Net.Model

/-!
# The result of communicating ranks does not depend on the schedule
-/

namespace Verif.Net

variable {μ β : Type}

/-- What a rank does, without the other ranks. -/
def lstep (N rank : Nat) (p : Prog μ β) (net : Nat → Nat → List (μ × Bool)) : Option (Prog μ β × (Nat → Nat → List (μ × Bool))) :=
  match p with
  | .ret _ => none
  | .fail => none
  | .send dst eager m k => if dst < N then some (k, setNet net rank dst (net rank dst ++ [(m, eager)])) else none
  | .recv src k =>
    match net src rank with
    | [] => none
    | (m, _) :: rest => some (k m, setNet net src rank rest)
  | .wait dst k => if (net rank dst).all Prod.snd then some (k, net) else none

theorem act_eq (N rank : Nat) (s : St μ β) :
    act N rank s = (lstep N rank (s.procs rank) s.net).map fun x => ⟨upd s.procs rank x.1, x.2⟩ := by
  unfold act lstep
  cases s.procs rank with
  | ret => rfl
  | fail => rfl
  | send dst e m k => simp only; split <;> rfl
  | recv src k => simp only; cases s.net src rank <;> rfl
  | wait dst k => simp only; split <;> rfl

theorem lstep_comm {N r r' : Nat} (hr : r ≠ r') {p p' k k' : Prog μ β} {net n1 n2 : Nat → Nat → List (μ × Bool)}
    (h1 : lstep N r p net = some (k, n1)) (h2 : lstep N r' p' net = some (k', n2)) :
    ∃ n3, lstep N r' p' n1 = some (k', n3) ∧ lstep N r p n2 = some (k, n3) := by
  have hr' : r' ≠ r := fun h => hr h.symm
  cases p with
  | ret => simp [lstep] at h1
  | fail => simp [lstep] at h1
  | send dst e m c =>
    simp only [lstep] at h1
    split at h1
    case isFalse => simp at h1
    case isTrue hd =>
    simp only [Option.some.injEq, Prod.mk.injEq] at h1
    obtain ⟨rfl, rfl⟩ := h1
    cases p' with
    | ret => simp [lstep] at h2
    | fail => simp [lstep] at h2
    | send dst' e' m' c' =>
      simp only [lstep] at h2
      split at h2
      case isFalse => simp at h2
      case isTrue hd' =>
      simp only [Option.some.injEq, Prod.mk.injEq] at h2
      obtain ⟨rfl, rfl⟩ := h2
      simp only [lstep, hd, hd', if_true, setNet, hr, hr', false_and, if_false, Option.some.injEq, Prod.mk.injEq, true_and]
      refine ⟨_, rfl, ?_⟩
      funext x y
      simp only [setNet]
      grind
    | recv src c' =>
      simp only [lstep] at h2
      cases hq : net src r' with
      | nil => simp [hq] at h2
      | cons a rest =>
        simp only [hq, Option.some.injEq, Prod.mk.injEq] at h2
        obtain ⟨rfl, rfl⟩ := h2
        by_cases hs : src = r ∧ r' = dst
        · obtain ⟨rfl, rfl⟩ := hs
          simp only [lstep, setNet, and_self, if_true, hq, hd, List.cons_append, Option.some.injEq, Prod.mk.injEq, true_and]
          refine ⟨_, rfl, ?_⟩
          funext x y
          simp only [setNet]
          grind
        · have hs' : ¬(r = src ∧ dst = r') := fun h => hs ⟨h.1.symm, h.2.symm⟩
          simp only [lstep, setNet, hs, hs', if_false, hd, if_true, hq, Option.some.injEq, Prod.mk.injEq, true_and]
          refine ⟨_, rfl, ?_⟩
          funext x y
          simp only [setNet]
          grind
    | wait dst' c' =>
      simp only [lstep] at h2
      split at h2
      case isFalse => simp at h2
      case isTrue hw =>
      simp only [Option.some.injEq, Prod.mk.injEq] at h2
      obtain ⟨rfl, rfl⟩ := h2
      simp only [lstep, setNet, hr', false_and, if_false, hw, hd, if_true]
      exact ⟨_, rfl, rfl⟩
  | recv src c =>
    simp only [lstep] at h1
    cases hq : net src r with
    | nil => simp [hq] at h1
    | cons a rest =>
      simp only [hq, Option.some.injEq, Prod.mk.injEq] at h1
      obtain ⟨rfl, rfl⟩ := h1
      cases p' with
      | ret => simp [lstep] at h2
      | fail => simp [lstep] at h2
      | send dst' e' m' c' =>
        simp only [lstep] at h2
        split at h2
        case isFalse => simp at h2
        case isTrue hd' =>
        simp only [Option.some.injEq, Prod.mk.injEq] at h2
        obtain ⟨rfl, rfl⟩ := h2
        by_cases hs : src = r' ∧ r = dst'
        · obtain ⟨rfl, rfl⟩ := hs
          simp only [lstep, setNet, and_self, if_true, hq, hd', List.cons_append, Option.some.injEq, Prod.mk.injEq, true_and]
          refine ⟨_, rfl, ?_⟩
          funext x y
          simp only [setNet]
          grind
        · have hs' : ¬(r' = src ∧ dst' = r) := fun h => hs ⟨h.1.symm, h.2.symm⟩
          simp only [lstep, setNet, hs, hs', if_false, hd', if_true, hq, Option.some.injEq, Prod.mk.injEq, true_and]
          refine ⟨_, rfl, ?_⟩
          funext x y
          simp only [setNet]
          grind
      | recv src' c' =>
        simp only [lstep] at h2
        cases hq' : net src' r' with
        | nil => simp [hq'] at h2
        | cons a' rest' =>
          simp only [hq', Option.some.injEq, Prod.mk.injEq] at h2
          obtain ⟨rfl, rfl⟩ := h2
          simp only [lstep, setNet, hr, hr', and_false, if_false, hq, hq', Option.some.injEq, Prod.mk.injEq, true_and]
          refine ⟨_, rfl, ?_⟩
          funext x y
          simp only [setNet]
          grind
      | wait dst' c' =>
        simp only [lstep] at h2
        split at h2
        case isFalse => simp at h2
        case isTrue hw =>
        simp only [Option.some.injEq, Prod.mk.injEq] at h2
        obtain ⟨rfl, rfl⟩ := h2
        refine ⟨setNet net src r rest, ?_, by simp only [lstep, hq]⟩
        simp only [lstep, setNet]
        by_cases hs : r' = src ∧ dst' = r
        · obtain ⟨rfl, rfl⟩ := hs
          rw [hq] at hw
          simp only [List.all_cons, Bool.and_eq_true] at hw
          simp [hw.2]
        · simp only [hs, if_false, hw, if_true]
  | wait dst c =>
    simp only [lstep] at h1
    split at h1
    case isFalse => simp at h1
    case isTrue hv =>
    simp only [Option.some.injEq, Prod.mk.injEq] at h1
    obtain ⟨rfl, rfl⟩ := h1
    cases p' with
    | ret => simp [lstep] at h2
    | fail => simp [lstep] at h2
    | send dst' e' m' c' =>
      simp only [lstep] at h2
      split at h2
      case isFalse => simp at h2
      case isTrue hd' =>
      simp only [Option.some.injEq, Prod.mk.injEq] at h2
      obtain ⟨rfl, rfl⟩ := h2
      simp only [lstep, setNet, hr, false_and, if_false, hv, hd', if_true]
      exact ⟨_, rfl, rfl⟩
    | recv src' c' =>
      simp only [lstep] at h2
      cases hq' : net src' r' with
      | nil => simp [hq'] at h2
      | cons a' rest' =>
        simp only [hq', Option.some.injEq, Prod.mk.injEq] at h2
        obtain ⟨rfl, rfl⟩ := h2
        refine ⟨setNet net src' r' rest', by simp only [lstep, hq'], ?_⟩
        simp only [lstep, setNet]
        by_cases hs : r = src' ∧ dst = r'
        · obtain ⟨rfl, rfl⟩ := hs
          rw [hq'] at hv
          simp only [List.all_cons, Bool.and_eq_true] at hv
          simp [hv.2]
        · simp only [hs, if_false, hv, if_true]
    | wait dst' c' =>
      simp only [lstep] at h2
      split at h2
      case isFalse => simp at h2
      case isTrue hw =>
      simp only [Option.some.injEq, Prod.mk.injEq] at h2
      obtain ⟨rfl, rfl⟩ := h2
      simp only [lstep, hv, hw, if_true]
      exact ⟨_, rfl, rfl⟩

/-- The steps of two ranks can be made in either order. -/
theorem act_comm {N r r' : Nat} (hr : r ≠ r') {s s1 s2 : St μ β} (h1 : act N r s = some s1) (h2 : act N r' s = some s2) :
    ∃ s3, act N r' s1 = some s3 ∧ act N r s2 = some s3 := by
  rw [act_eq, Option.map_eq_some_iff] at h1 h2
  obtain ⟨⟨k, n1⟩, h1, rfl⟩ := h1
  obtain ⟨⟨k', n2⟩, h2, rfl⟩ := h2
  obtain ⟨n3, h3, h4⟩ := lstep_comm hr h1 h2
  have hr' : r' ≠ r := fun h => hr h.symm
  refine ⟨⟨upd (upd s.procs r k) r' k', n3⟩, ?_, ?_⟩
  · rw [act_eq]
    simp only [upd_ne _ _ hr', h3, Option.map_some]
  · rw [act_eq]
    simp only [upd_ne _ _ hr, h4, Option.map_some, Option.some.injEq, St.mk.injEq, and_true]
    funext x
    unfold upd
    by_cases hx : x = r
    · subst hx; simp [hr]
    · simp [hx]

theorem Reach.head {N n : Nat} {s s1 t : St μ β} (hs : Step N s s1) (h : Reach N s1 n t) : Reach N s (n + 1) t := by
  induction h with
  | refl => exact .tail .refl hs
  | tail _ h ih => exact .tail ih h

theorem Reach.uncons {N n : Nat} {s t : St μ β} (h : Reach N s (n + 1) t) : ∃ s1, Step N s s1 ∧ Reach N s1 n t := by
  induction n generalizing t with
  | zero =>
    cases h with
    | tail h hs => cases h; exact ⟨_, hs, .refl⟩
  | succ n ih =>
    cases h with
    | tail h hs =>
      obtain ⟨s1, h1, h2⟩ := ih h
      exact ⟨s1, h1, .tail h2 hs⟩

theorem Reach.trans {N n m : Nat} {s t u : St μ β} (h : Reach N s n t) (h' : Reach N t m u) : Reach N s (n + m) u := by
  induction h' with
  | refl => exact h
  | tail _ hs ih => exact .tail ih hs

/-- A step keeps the final state, and the number of steps that is left. -/
theorem strip {N : Nat} {n : Nat} {s s' t : St μ β} (h : Reach N s n t) (ht : ∀ u, ¬Step N t u) (hs : Step N s s') :
    ∃ m, n = m + 1 ∧ Reach N s' m t := by
  induction n generalizing s s' with
  | zero => cases h; exact absurd hs (ht s')
  | succ n ih =>
    refine ⟨n, rfl, ?_⟩
    obtain ⟨s1, h1, h2⟩ := h.uncons
    obtain ⟨r, hr, ha⟩ := hs
    obtain ⟨r', hr', ha'⟩ := h1
    by_cases he : r = r'
    · subst he
      rw [ha] at ha'
      cases ha'
      exact h2
    · obtain ⟨s3, h3, h4⟩ := act_comm he ha ha'
      obtain ⟨m, rfl, h5⟩ := ih h2 ⟨r, hr, h4⟩
      exact h5.head ⟨r', hr', h3⟩

/-- If some execution ends, then all executions end in the same state, after the same number of steps. -/
theorem determinacy {N n m : Nat} {s t u : St μ β} (h : Reach N s n t) (ht : ∀ v, ¬Step N t v) (hu : Reach N s m u) :
    m ≤ n ∧ Reach N u (n - m) t := by
  induction hu with
  | refl => exact ⟨Nat.zero_le _, h⟩
  | tail h1 hs ih =>
    obtain ⟨h2, h3⟩ := ih
    obtain ⟨l, hl, h4⟩ := strip h3 ht hs
    refine ⟨by omega, ?_⟩
    rwa [show n - (_ + 1) = l by omega]

/-- Some execution. -/
def Runs (N : Nat) (s t : St μ β) : Prop := ∃ n, Reach N s n t

theorem Runs.refl {N : Nat} (s : St μ β) : Runs N s s := ⟨0, .refl⟩

theorem Runs.trans {N : Nat} {s t u : St μ β} (h : Runs N s t) (h' : Runs N t u) : Runs N s u := by
  obtain ⟨n, h⟩ := h
  obtain ⟨m, h'⟩ := h'
  exact ⟨_, h.trans h'⟩

theorem Runs.cons {N r : Nat} {s t u : St μ β} (hr : r < N) (h : act N r s = some t) (h' : Runs N t u) : Runs N s u := by
  obtain ⟨n, h'⟩ := h'
  exact ⟨_, h'.head ⟨r, hr, h⟩⟩

/-- One rank after the other does its part. -/
theorem sweep {N : Nat} (P : Nat → St μ β → Prop) {s : St μ β} (h0 : P 0 s)
    (hs : ∀ j, j < N → ∀ s, P j s → ∃ t, Runs N s t ∧ P (j + 1) t) : ∃ t, Runs N s t ∧ P N t := by
  suffices h : ∀ j, j ≤ N → ∃ t, Runs N s t ∧ P j t from h N (Nat.le_refl N)
  intro j
  induction j with
  | zero => intro _; exact ⟨s, .refl s, h0⟩
  | succ j ih =>
    intro hj
    obtain ⟨t, h1, h2⟩ := ih (by omega)
    obtain ⟨u, h3, h4⟩ := hs j hj t h2
    exact ⟨u, h1.trans h3, h4⟩

end Verif.Net

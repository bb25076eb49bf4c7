import Verif.Net.Determinacy

/-!
# One execution of the direct all-to-all exchange
-/

namespace Verif.Net

variable {μ β : Type}

/-- One rank makes a step. -/
theorem Runs.step {N r : Nat} (hr : r < N) {s : St μ β} {k : Prog μ β} {net : Nat → Nat → List (μ × Bool)}
    (h : lstep N r (s.procs r) s.net = some (k, net)) {u : St μ β} (h' : Runs N ⟨upd s.procs r k, net⟩ u) : Runs N s u := by
  refine Runs.cons hr ?_ h'
  rw [act_eq, h]
  rfl

theorem upd_upd {α : Type} (f : Nat → α) (r : Nat) (a b : α) : upd (upd f r a) r b = upd f r b := by
  funext x
  unfold upd
  split <;> rfl

theorem upd_self {α : Type} (f : Nat → α) (r : Nat) : upd f r (f r) = f := by
  funext x
  unfold upd
  split
  case isTrue h => rw [h]
  case isFalse => rfl

/-- The network after the messages of a rank were sent. -/
def sentBy (r : Nat) (eager : Nat → Bool) (bufs : Nat → μ) (l : List Nat) (net : Nat → Nat → List (μ × Bool)) : Nat → Nat → List (μ × Bool) :=
  fun x y => if x = r ∧ y ∈ l ∧ y ≠ r then net x y ++ [(bufs y, eager y)] else net x y

theorem run_send {N r : Nat} (hr : r < N) (eager : Nat → Bool) (bufs : Nat → μ) (k : Prog μ β) : ∀ (l : List Nat), l.Nodup → (∀ y ∈ l, y < N) →
    ∀ (s : St μ β), s.procs r = sendLoop r eager bufs l k → Runs N s ⟨upd s.procs r k, sentBy r eager bufs l s.net⟩ := by
  intro l
  induction l with
  | nil =>
    intro _ _ s hs
    have : (⟨upd s.procs r k, sentBy r eager bufs [] s.net⟩ : St μ β) = s := by
      have h1 : upd s.procs r k = s.procs := by
        conv_rhs => rw [← upd_self s.procs r]
        rw [hs]; rfl
      have h2 : sentBy r eager bufs [] s.net = s.net := by
        funext x y; simp [sentBy]
      rw [h1, h2]
    rw [this]
    exact .refl s
  | cons pe l ih =>
    intro hn hl s hs
    obtain ⟨hp, hn⟩ := List.nodup_cons.1 hn
    have hl' : ∀ y ∈ l, y < N := fun y hy => hl y (List.mem_cons_of_mem _ hy)
    by_cases he : pe = r
    · simp only [sendLoop, he, ne_eq, not_true, if_false] at hs
      have := ih hn hl' s hs
      convert this using 2
      funext x y
      simp only [sentBy, List.mem_cons]
      grind
    · simp only [sendLoop, ne_eq, he, not_false_eq_true, if_true] at hs
      refine Runs.step hr (k := sendLoop r eager bufs l k) (net := setNet s.net r pe (s.net r pe ++ [(bufs pe, eager pe)])) ?_ ?_
      · rw [hs]
        simp only [lstep, hl pe (List.mem_cons_self ..), if_true]
      · have := ih hn hl' ⟨upd s.procs r (sendLoop r eager bufs l k), setNet s.net r pe (s.net r pe ++ [(bufs pe, eager pe)])⟩ (upd_same ..)
        convert this using 2
        · simp only [upd_upd]
        · funext x y
          simp only [sentBy, setNet, List.mem_cons]
          grind

/-- The network after a rank got the messages of other ranks. -/
def gotBy (r : Nat) (l : List Nat) (net : Nat → Nat → List (μ × Bool)) : Nat → Nat → List (μ × Bool) :=
  fun x y => if y = r ∧ x ∈ l ∧ x ≠ r then [] else net x y

theorem run_recv {N r : Nat} (hr : r < N) (e : Nat → Bool) (m : Nat → μ) (k : List (Nat × μ) → Prog μ β) : ∀ (l : List Nat), l.Nodup →
    ∀ (calls : List (Nat × μ)) (s : St μ β), s.procs r = recvLoop r (m r) l calls k → (∀ x ∈ l, x ≠ r → s.net x r = [(m x, e x)]) →
    Runs N s ⟨upd s.procs r (k (calls ++ l.map fun x => (x, m x))), gotBy r l s.net⟩ := by
  intro l
  induction l with
  | nil =>
    intro _ calls s hs _
    have : (⟨upd s.procs r (k (calls ++ [].map fun x => (x, m x))), gotBy r [] s.net⟩ : St μ β) = s := by
      have h1 : upd s.procs r (k (calls ++ [].map fun x => (x, m x))) = s.procs := by
        conv_rhs => rw [← upd_self s.procs r]
        rw [hs]; simp [recvLoop]
      have h2 : gotBy r [] s.net = s.net := by
        funext x y; simp [gotBy]
      rw [h1, h2]
    rw [this]
    exact .refl s
  | cons pe l ih =>
    intro hn calls s hs hm
    obtain ⟨hp, hn⟩ := List.nodup_cons.1 hn
    have hm' : ∀ x ∈ l, x ≠ r → s.net x r = [(m x, e x)] := fun x hx => hm x (List.mem_cons_of_mem _ hx)
    by_cases he : pe = r
    · simp only [recvLoop, he, if_true] at hs
      have := ih hn _ s hs hm'
      convert this using 2
      · simp [he]
      · funext x y
        simp only [gotBy, List.mem_cons]
        grind
    · simp only [recvLoop, he, if_false] at hs
      refine Runs.step hr (k := recvLoop r (m r) l (calls ++ [(pe, m pe)]) k) (net := setNet s.net pe r []) ?_ ?_
      · rw [hs]
        simp only [lstep, hm pe (List.mem_cons_self ..) he]
      · have := ih hn (calls ++ [(pe, m pe)]) ⟨upd s.procs r (recvLoop r (m r) l (calls ++ [(pe, m pe)]) k), setNet s.net pe r []⟩ (upd_same ..) (by
          intro x hx hxr
          have : x ≠ pe := fun h => hp (h ▸ hx)
          simp only [setNet, this, false_and, if_false]
          exact hm' x hx hxr)
        convert this using 2
        · simp only [upd_upd, List.map_cons, List.append_assoc, List.singleton_append]
        · funext x y
          simp only [gotBy, setNet, List.mem_cons]
          grind

theorem run_wait {N r : Nat} (hr : r < N) (k : Prog μ β) : ∀ (l : List Nat) (s : St μ β), s.procs r = waitLoop r l k → (∀ y, s.net r y = []) →
    Runs N s ⟨upd s.procs r k, s.net⟩ := by
  intro l
  induction l with
  | nil =>
    intro s hs _
    have : (⟨upd s.procs r k, s.net⟩ : St μ β) = s := by
      have h1 : upd s.procs r k = s.procs := by
        conv_rhs => rw [← upd_self s.procs r]
        rw [hs]; rfl
      rw [h1]
    rw [this]
    exact .refl s
  | cons pe l ih =>
    intro s hs he
    by_cases hp : pe = r
    · simp only [waitLoop, hp, ne_eq, not_true, if_false] at hs
      exact ih s hs he
    · simp only [waitLoop, ne_eq, hp, not_false_eq_true, if_true] at hs
      refine Runs.step hr (k := waitLoop r l k) (net := s.net) ?_ ?_
      · rw [hs]
        simp [lstep, he]
      · have := ih ⟨upd s.procs r (waitLoop r l k), s.net⟩ (upd_same ..) he
        rwa [upd_upd] at this

/-- No messages are on their way. -/
def idle : Nat → Nat → List (μ × Bool) := fun _ _ => []

/-- All ranks do an exchange. -/
theorem run_alltoall {N : Nat} (eager : Nat → Nat → Bool) (bufs : Nat → Nat → μ) (k : Nat → List (Nat × μ) → Prog μ β) (s : St μ β)
    (hs : ∀ r, r < N → s.procs r = alltoall N r (eager r) (bufs r) (k r)) (hnet : s.net = idle) :
    ∃ t, Runs N s t ∧ (∀ r, r < N → t.procs r = k r ((List.range N).map fun pe => (pe, bufs pe r))) ∧ t.net = idle := by
  have hlt : ∀ y ∈ List.range N, y < N := fun y hy => List.mem_range.1 hy
  -- all ranks send
  obtain ⟨s1, hr1, hp1, hn1⟩ := sweep (N := N) (s := s) (fun j t => (∀ r, r < N → t.procs r = if r < j
      then recvLoop r (bufs r r) (List.range N) [] fun calls => waitLoop r (List.range N) (k r calls) else s.procs r) ∧
      t.net = fun x y => if x < j ∧ y < N ∧ y ≠ x then [(bufs x y, eager x y)] else []) ⟨by simp, by rw [hnet]; funext x y; simp [idle]⟩ (by
    intro j hj t ⟨hp, hn⟩
    refine ⟨_, run_send hj (eager j) (bufs j) (recvLoop j (bufs j j) (List.range N) [] fun calls => waitLoop j (List.range N) (k j calls)) (List.range N) List.nodup_range hlt t (by
      rw [hp j hj, if_neg (Nat.lt_irrefl j), hs j hj]; rfl), ?_, ?_⟩
    · intro r hr
      by_cases he : r = j
      · subst he; simp
      · simp only [upd_ne _ _ he, hp r hr]
        congr 1
        simp only [eq_iff_iff]
        omega
    · funext x y
      simp only [sentBy, hn, List.mem_range]
      grind)
  -- all ranks receive
  obtain ⟨s2, hr2, hp2, hn2⟩ := sweep (N := N) (s := s1) (fun j t => (∀ r, r < N → t.procs r = if r < j
      then waitLoop r (List.range N) (k r ((List.range N).map fun pe => (pe, bufs pe r)))
      else recvLoop r (bufs r r) (List.range N) [] fun calls => waitLoop r (List.range N) (k r calls)) ∧
      t.net = fun x y => if x < N ∧ y < N ∧ y ≠ x ∧ j ≤ y then [(bufs x y, eager x y)] else []) ⟨by
        intro r hr
        rw [hp1 r hr, if_pos hr, if_neg (Nat.not_lt_zero r)], by rw [hn1]; funext x y; simp⟩ (by
    intro j hj t ⟨hp, hn⟩
    refine ⟨_, run_recv hj (fun x => eager x j) (fun x => bufs x j) (fun calls => waitLoop j (List.range N) (k j calls)) (List.range N) List.nodup_range [] t (by
      rw [hp j hj, if_neg (Nat.lt_irrefl j)]) (by
      intro x hx hne
      rw [hn]
      simp only [hlt x hx, hj, Nat.le_refl, true_and, and_true]
      rw [if_pos fun h => hne h.symm]), ?_, ?_⟩
    · intro r hr
      by_cases he : r = j
      · subst he; simp
      · simp only [upd_ne _ _ he, hp r hr]
        congr 1
        simp only [eq_iff_iff]
        omega
    · funext x y
      simp only [gotBy, hn, List.mem_range]
      grind)
  have hn2 : s2.net = idle := by
    rw [hn2]; funext x y
    simp only [idle]
    rw [if_neg (by omega)]
  -- all ranks wait
  obtain ⟨s3, hr3, hp3, hn3⟩ := sweep (N := N) (s := s2) (fun j t => (∀ r, r < N → t.procs r = if r < j
      then k r ((List.range N).map fun pe => (pe, bufs pe r))
      else waitLoop r (List.range N) (k r ((List.range N).map fun pe => (pe, bufs pe r)))) ∧ t.net = idle) ⟨by
        intro r hr
        rw [hp2 r hr, if_pos hr, if_neg (Nat.not_lt_zero r)], hn2⟩ (by
    intro j hj t ⟨hp, hn⟩
    refine ⟨_, run_wait hj (k j ((List.range N).map fun pe => (pe, bufs pe j))) (List.range N) t (by
      rw [hp j hj, if_neg (Nat.lt_irrefl j)]) (by intro y; rw [hn]; rfl), ?_, hn⟩
    intro r hr
    by_cases he : r = j
    · subst he; simp
    · simp only [upd_ne _ _ he, hp r hr]
      congr 1
      simp only [eq_iff_iff]
      omega)
  exact ⟨s3, (hr1.trans hr2).trans hr3, fun r hr => by rw [hp3 r hr, if_pos hr], hn3⟩

/-- All ranks do several exchanges. -/
theorem run_alltoalls {N : Nat} : ∀ (rounds : List ((Nat → Nat → Bool) × (Nat → Nat → μ))) (out : Nat → List (List (Nat × μ)))
    (s : St μ (List (List (Nat × μ)))),
    (∀ r, r < N → s.procs r = alltoalls N r (rounds.map fun x => (x.1 r, x.2 r)) (out r)) → s.net = idle →
    ∃ t, Runs N s t ∧ (∀ r, r < N → t.procs r = .ret (out r ++ rounds.map fun x => (List.range N).map fun pe => (pe, x.2 pe r))) ∧ t.net = idle := by
  intro rounds
  induction rounds with
  | nil =>
    intro out s hs hn
    exact ⟨s, .refl s, fun r hr => by rw [hs r hr]; simp [alltoalls], hn⟩
  | cons x l ih =>
    intro out s hs hn
    obtain ⟨t, h1, h2, h3⟩ := run_alltoall x.1 x.2 (fun r calls => alltoalls N r (l.map fun x => (x.1 r, x.2 r)) (out r ++ [calls])) s hs hn
    obtain ⟨u, h4, h5, h6⟩ := ih (fun r => out r ++ [(List.range N).map fun pe => (pe, x.2 pe r)]) t h2 h3
    exact ⟨u, h1.trans h4, fun r hr => by rw [h5 r hr]; simp, h6⟩

/-- A state in which all ranks are done does not change. -/
theorem final {N : Nat} {s : St μ β} (h : ∀ r, r < N → ∃ x, s.procs r = .ret x) (u : St μ β) : ¬Step N s u := by
  intro ⟨r, hr, ha⟩
  obtain ⟨x, hx⟩ := h r hr
  rw [act_eq, hx] at ha
  simp [lstep] at ha

/-- If the ranks can finish, then every execution ends, after the same number of steps and in the same state, and none gets stuck before. -/
theorem always {N : Nat} {s t : St μ β} (h : Runs N s t) (ht : ∀ r, r < N → ∃ x, t.procs r = .ret x) :
    ∃ T, ∀ n u, Reach N s n u → n ≤ T ∧ ((n < T ∧ ∃ u', Step N u u') ∨ (n = T ∧ u = t)) := by
  obtain ⟨T, h⟩ := h
  refine ⟨T, fun n u hu => ?_⟩
  obtain ⟨h1, h2⟩ := determinacy h (final ht) hu
  refine ⟨h1, ?_⟩
  by_cases hn : n = T
  · right
    refine ⟨hn, ?_⟩
    rw [hn, Nat.sub_self] at h2
    cases h2
    rfl
  · left
    obtain ⟨m, hm⟩ : ∃ m, T - n = m + 1 := ⟨T - n - 1, by omega⟩
    rw [hm] at h2
    obtain ⟨u', h3, _⟩ := h2.uncons
    exact ⟨by omega, u', h3⟩

end Verif.Net

import Verif.Contraction.Preprocess
import Mathlib.Data.List.Perm.Basic
import Mathlib.Data.List.Count
import Mathlib.Tactic.IntervalCases

/-!
# C29: cluster renumbering is dense and faithful
-/

namespace Verif.Contraction

/-! ## Specification -/

/-- The loops run over all nodes, in any order. -/
structure MapSched.Ok (s : MapSched) (n : Nat) : Prop where
  zero : s.zero.Perm (List.range n)
  mark : s.mark.Perm (List.range n)
  write : s.write.Perm (List.range n)

/-- The loops run over all indices in any order; in the last one every node takes a position once and stores
itself once, after it has taken its position. -/
structure BucketSched.Ok (s : BucketSched) (n cn : Nat) : Prop where
  zero : s.zero.Perm (List.range (cn + 1))
  count : s.count.Perm (List.range n)
  steps : s.steps.Perm ((List.range n).map Step.take ++ (List.range n).map Step.store)
  causal : ∀ i u, s.steps[i]? = some (Step.store u) → Step.take u ∈ s.steps.take i

/-! ## Proofs -/

theorem foldl_upd_const {l : List Nat} {f : Nat → Nat} {x : Nat} (a : Nat → Nat) (i : Nat) :
    l.foldl (fun a u => upd a (f u) x) a i = if ∃ u ∈ l, f u = i then x else a i := by
  induction l generalizing a with
  | nil => simp
  | cons v l ih =>
    rw [List.foldl_cons, ih]
    by_cases h : ∃ u ∈ l, f u = i
    · rw [if_pos h, if_pos]
      obtain ⟨u, hu, he⟩ := h
      exact ⟨u, List.mem_cons_of_mem _ hu, he⟩
    · rw [if_neg h]
      by_cases hv : f v = i
      · rw [if_pos ⟨v, List.mem_cons_self, hv⟩, ← hv, upd_same]
      · rw [upd_ne _ _ (Ne.symm hv), if_neg]
        rintro ⟨u, hu, he⟩
        rcases List.mem_cons.1 hu with rfl | hu
        · exact hv he
        · exact h ⟨u, hu, he⟩

theorem foldl_count {l : List Nat} {f : Nat → Nat} (a : Nat → Nat) (i : Nat) :
    l.foldl (fun a u => upd a (f u) (a (f u) + 1)) a i = a i + l.countP (f · = i) := by
  induction l generalizing a with
  | nil => simp
  | cons v l ih =>
    rw [List.foldl_cons, ih, List.countP_cons]
    by_cases hv : f v = i
    · subst hv; simp; omega
    · rw [upd_ne _ _ (Ne.symm hv)]; simp [hv]

/-- Prefix sums. -/
def psum (a : Nat → Nat) (i : Nat) : Nat := ((List.range i).map a).sum

theorem psum_succ (a : Nat → Nat) (i : Nat) : psum a (i + 1) = psum a i + a i := by
  simp [psum, List.range_succ]

theorem psum_congr {a b : Nat → Nat} {n : Nat} (h : ∀ i, i < n → a i = b i) : psum a n = psum b n := by
  unfold psum
  congr 1
  apply List.map_congr_left
  intro i hi
  exact h i (List.mem_range.1 hi)

theorem psum_mono (a : Nat → Nat) {i j : Nat} (h : i ≤ j) : psum a i ≤ psum a j := by
  induction j with
  | zero => rw [Nat.le_zero.1 h]
  | succ j ih =>
    rw [psum_succ]
    rcases Nat.lt_or_eq_of_le h with h | rfl
    · have := ih (by omega); omega
    · rw [psum_succ]

theorem prefixSum_eq {len i : Nat} (a : Nat → Nat) (h : i < len) : prefixSum len a i = psum a (i + 1) := by
  simp only [prefixSum, h, if_true, psum]

/-- 1 if a cluster with this label exists. -/
def used (n : Nat) (clustering : Nat → Nat) (i : Nat) : Nat := if ∃ u, u < n ∧ clustering u = i then 1 else 0

theorem leader_eq {n : Nat} {clustering init : Nat → Nat} {s : MapSched} (hs : s.Ok n)
    {i : Nat} (hi : i < n) :
    fillLeaderMapping n clustering s.zero s.mark init i = psum (used n clustering) (i + 1) := by
  unfold fillLeaderMapping
  rw [prefixSum_eq _ hi]
  apply psum_congr
  intro j hj
  rw [foldl_upd_const, foldl_upd_const (f := fun u => u)]
  have h1 : (∃ u ∈ s.mark, clustering u = j) ↔ ∃ u, u < n ∧ clustering u = j := by
    constructor
    · rintro ⟨u, hu, h⟩
      exact ⟨u, List.mem_range.1 (hs.mark.mem_iff.1 hu), h⟩
    · rintro ⟨u, hu, h⟩
      exact ⟨u, hs.mark.mem_iff.2 (List.mem_range.2 hu), h⟩
  have h2 : ∃ u ∈ s.zero, u = j := ⟨j, hs.zero.mem_iff.2 (List.mem_range.2 (by omega)), rfl⟩
  rw [if_pos h2, used]
  simp only [h1]

theorem renumber_eq {leader clustering : Nat → Nat} : ∀ {order : List Nat}, order.Nodup → ∀ u,
    renumber leader order clustering u = if u ∈ order then leader (clustering u) - 1 else clustering u := by
  intro order hn u
  have key : ∀ (l : List Nat) (a : Nat → Nat), l.Nodup → (∀ v ∈ l, a v = clustering v) →
      l.foldl (fun a u => upd a u (leader (a u) - 1)) a u =
        if u ∈ l then leader (clustering u) - 1 else a u := by
    intro l
    induction l with
    | nil => intro a _ _; simp
    | cons v l ih =>
      intro a hl ha
      obtain ⟨hv, hl⟩ := List.nodup_cons.1 hl
      rw [List.foldl_cons, ih _ hl]
      · by_cases hu : u ∈ l
        · simp [hu]
        · by_cases huv : u = v
          · subst huv
            simp [hu, ha u List.mem_cons_self]
          · rw [if_neg hu, upd_ne _ _ huv, if_neg (by simp [hu, huv])]
      · intro x hx
        rw [upd_ne _ _ (show x ≠ v from fun e => hv (e ▸ hx))]
        exact ha x (List.mem_cons_of_mem _ hx)
  exact key order clustering hn fun _ _ => rfl

theorem psum_used_lt {n : Nat} {clustering : Nat → Nat} {i j : Nat} (hij : i < j)
    (hj : ∃ u, u < n ∧ clustering u = j) :
    psum (used n clustering) (i + 1) < psum (used n clustering) (j + 1) := by
  have h1 := psum_mono (used n clustering) (show i + 1 ≤ j by omega)
  rw [psum_succ _ j, used, if_pos hj]
  omega

/-- A function on naturals that starts at 0 and grows by at most 1 takes every value in between. -/
theorem psum_hits {n : Nat} {clustering : Nat → Nat} (m : Nat) : ∀ c, c < psum (used n clustering) m →
    ∃ i, i < m ∧ (∃ u, u < n ∧ clustering u = i) ∧ psum (used n clustering) (i + 1) = c + 1 := by
  induction m with
  | zero => intro c hc; simp [psum] at hc
  | succ m ih =>
    intro c hc
    by_cases h : c < psum (used n clustering) m
    · obtain ⟨i, hi, h1, h2⟩ := ih c h
      exact ⟨i, by omega, h1, h2⟩
    · rw [psum_succ] at hc
      by_cases hu : ∃ u, u < n ∧ clustering u = m
      · refine ⟨m, by omega, hu, ?_⟩
        rw [psum_succ]
        rw [used, if_pos hu] at hc ⊢
        omega
      · rw [used, if_neg hu] at hc
        omega

theorem mapping_eq {n : Nat} {clustering init : Nat → Nat} {s : MapSched} (hs : s.Ok n)
    (hc : ∀ u, u < n → clustering u < n) {u : Nat} (hu : u < n) :
    (computeMapping n clustering init s).2 u + 1 = psum (used n clustering) (clustering u + 1) := by
  show renumber _ s.write clustering u + 1 = _
  rw [renumber_eq (hs.write.nodup_iff.2 List.nodup_range),
    if_pos (hs.write.mem_iff.2 (List.mem_range.2 hu)), leader_eq hs (hc u hu), psum_succ, used,
    if_pos ⟨u, hu, rfl⟩]
  omega

theorem cn_eq {n : Nat} {clustering init : Nat → Nat} {s : MapSched} (hs : s.Ok n) (hn : 0 < n) :
    (computeMapping n clustering init s).1 = psum (used n clustering) n := by
  show fillLeaderMapping _ _ _ _ _ _ = _
  rw [leader_eq hs (by omega)]
  congr 1; omega

/-- C29, mapping: for every clustering with labels below `n`, every previous content of the auxiliary array and
every order of the parallel loops, the coarse IDs are exactly `0..c_n - 1`, and two nodes get the same ID iff
they are in the same cluster. -/
theorem C29_mapping (n : Nat) (hn : 0 < n) (clustering init : Nat → Nat) (hc : ∀ u, u < n → clustering u < n)
    (s : MapSched) (hs : s.Ok n) :
    let r := computeMapping n clustering init s
    (∀ u, u < n → r.2 u < r.1) ∧
    (∀ c, c < r.1 → ∃ u, u < n ∧ r.2 u = c) ∧
    (∀ u v, u < n → v < n → (r.2 u = r.2 v ↔ clustering u = clustering v)) ∧
    r.1 ≤ n := by
  intro r
  have hm : ∀ u, u < n → r.2 u + 1 = psum (used n clustering) (clustering u + 1) := fun u hu => mapping_eq hs hc hu
  have hr : r.1 = psum (used n clustering) n := cn_eq hs hn
  refine ⟨?_, ?_, ?_, ?_⟩
  · intro u hu
    have h1 := hm u hu
    have h2 := psum_mono (used n clustering) (show clustering u + 1 ≤ n from hc u hu)
    omega
  · intro c hcr
    rw [hr] at hcr
    obtain ⟨i, _, ⟨u, hu, rfl⟩, h⟩ := psum_hits n c hcr
    have h1 := hm u hu
    exact ⟨u, hu, by omega⟩
  · intro u v hu hv
    have h1 := hm u hu
    have h2 := hm v hv
    constructor
    · intro h
      rcases Nat.lt_trichotomy (clustering u) (clustering v) with hl | he | hl
      · have := psum_used_lt (n := n) (clustering := clustering) hl ⟨v, hv, rfl⟩
        omega
      · exact he
      · have := psum_used_lt (n := n) (clustering := clustering) hl ⟨u, hu, rfl⟩
        omega
    · intro h
      rw [h] at h1
      omega
  · rw [hr]
    have : ∀ m, psum (used n clustering) m ≤ m := by
      intro m
      induction m with
      | zero => simp [psum]
      | succ m ih =>
        rw [psum_succ, used]
        split <;> omega
    exact this n

/-! ### Buckets -/

/-- The number of nodes in a bucket. -/
def size (n : Nat) (mapping : Nat → Nat) (c : Nat) : Nat := (List.range n).countP (mapping · = c)

theorem psum_size {n : Nat} {mapping : Nat → Nat} (c : Nat) :
    psum (size n mapping) c = (List.range n).countP (mapping · < c) := by
  induction c with
  | zero => simp [psum]
  | succ c ih =>
    rw [psum_succ, ih, size]
    have : ∀ l : List Nat, l.countP (mapping · < c) + l.countP (mapping · = c) = l.countP (mapping · < c + 1) := by
      intro l
      induction l with
      | nil => rfl
      | cons a l ih =>
        simp only [List.countP_cons]
        rcases Nat.lt_trichotomy (mapping a) c with h | h | h
        · simp [h, show mapping a ≠ c by omega, show mapping a < c + 1 by omega]; omega
        · simp [h]; omega
        · simp [show ¬ mapping a < c by omega, show mapping a ≠ c by omega,
            show ¬ mapping a < c + 1 by omega]; omega
    exact this _

/-- The nodes that have taken a position, in order. -/
def takes (l : List Step) : List Nat := l.filterMap fun | .take u => some u | .store _ => none

/-- The nodes that have stored themselves. -/
def stores (l : List Step) : List Nat := l.filterMap fun | .store u => some u | .take _ => none

theorem takes_append (l l' : List Step) : takes (l ++ l') = takes l ++ takes l' := List.filterMap_append
theorem stores_append (l l' : List Step) : stores (l ++ l') = stores l ++ stores l' := List.filterMap_append

theorem mem_takes {l : List Step} {u : Nat} : u ∈ takes l ↔ Step.take u ∈ l := by
  unfold takes
  rw [List.mem_filterMap]
  constructor
  · rintro ⟨s, hs, h⟩
    cases s with
    | take v => simp at h; subst h; exact hs
    | store v => simp at h
  · intro h; exact ⟨_, h, rfl⟩

/-- The position taken by the `i`-th node of bucket `c` that takes one. -/
structure BInv (n : Nat) (mapping : Nat → Nat) (done : List Step) (s : BucketState) : Prop where
  index : ∀ c, s.index c = psum (size n mapping) (c + 1) - (takes done).countP (mapping · = c) ∨
    size n mapping c = 0
  slot : ∀ c i, (h : i < ((takes done).filter (mapping · = c)).length) →
    s.slot ((takes done).filter (mapping · = c))[i] + i + 1 = psum (size n mapping) (c + 1)
  stored : ∀ u ∈ stores done, s.buckets (s.slot u) = u

theorem slot_range {n : Nat} {mapping : Nat → Nat} {done : List Step} {s : BucketState}
    (hi : BInv n mapping done s) {rest : List Nat} (hp : (takes done ++ rest).Perm (List.range n)) {u : Nat}
    (hu : u ∈ takes done) :
    psum (size n mapping) (mapping u) ≤ s.slot u ∧ s.slot u < psum (size n mapping) (mapping u + 1) := by
  have hm : u ∈ (takes done).filter (mapping · = mapping u) := List.mem_filter.2 ⟨hu, by simp⟩
  obtain ⟨i, h, he⟩ := List.getElem_of_mem hm
  have h1 := hi.slot (mapping u) i h
  rw [he] at h1
  rw [psum_succ] at h1 ⊢
  have h2 : (takes done).countP (mapping · = mapping u) ≤ size n mapping (mapping u) := by
    rw [size, ← hp.countP_eq, List.countP_append]
    omega
  rw [← List.countP_eq_length_filter] at h
  omega

theorem slot_inj {n : Nat} {mapping : Nat → Nat} {done : List Step} {s : BucketState}
    (hi : BInv n mapping done s) {rest : List Nat} (hp : (takes done ++ rest).Perm (List.range n)) {u v : Nat}
    (hu : u ∈ takes done) (hv : v ∈ takes done) (h : s.slot u = s.slot v) : u = v := by
  have hu1 := slot_range hi hp hu
  have hv1 := slot_range hi hp hv
  have hm : mapping u = mapping v := by
    rcases Nat.lt_trichotomy (mapping u) (mapping v) with hl | he | hl
    · have := psum_mono (size n mapping) (show mapping u + 1 ≤ mapping v from hl); omega
    · exact he
    · have := psum_mono (size n mapping) (show mapping v + 1 ≤ mapping u from hl); omega
  obtain ⟨i, hi', he⟩ := List.getElem_of_mem (List.mem_filter.2 ⟨hu, by simp⟩ :
    u ∈ (takes done).filter (mapping · = mapping u))
  obtain ⟨j, hj', he'⟩ := List.getElem_of_mem (List.mem_filter.2 ⟨hv, by simp [hm]⟩ :
    v ∈ (takes done).filter (mapping · = mapping u))
  have h1 := hi.slot _ i hi'
  have h2 := hi.slot _ j hj'
  rw [he] at h1
  rw [he'] at h2
  have : i = j := by omega
  subst this
  rw [← he, ← he']

theorem bucket_step {n : Nat} {mapping : Nat → Nat} {done : List Step} {s : BucketState} {st : Step}
    (hi : BInv n mapping done s) {rest : List Nat}
    (hp : (takes (done ++ [st]) ++ rest).Perm (List.range n))
    (hsub : ∀ u ∈ stores done, u ∈ takes done) (hst : ∀ u, st = .store u → u ∈ takes done) :
    BInv n mapping (done ++ [st]) (bucketStep mapping s st) := by
  have hnd : (takes (done ++ [st]) ++ rest).Nodup := hp.nodup_iff.2 List.nodup_range
  cases st with
  | take u =>
    have ht : takes (done ++ [Step.take u]) = takes done ++ [u] := by rw [takes_append]; rfl
    have hs : stores (done ++ [Step.take u]) = stores done := by rw [stores_append]; simp [stores]
    rw [ht] at hp hnd
    have hun : u ∉ takes done := by
      intro h
      have := (List.nodup_append.1 (List.nodup_append.1 hnd).1).2.2 u h u (by simp)
      exact this rfl
    have hcnt : (takes done).countP (mapping · = mapping u) + 1 ≤ size n mapping (mapping u) := by
      rw [size, ← hp.countP_eq, List.countP_append, List.countP_append]
      simp
    have hidx : s.index (mapping u) =
        psum (size n mapping) (mapping u + 1) - (takes done).countP (mapping · = mapping u) := by
      rcases hi.index (mapping u) with h | h
      · exact h
      · omega
    have hps := psum_succ (size n mapping) (mapping u)
    constructor
    · intro c
      show upd s.index (mapping u) _ c = _ ∨ _
      by_cases hc : c = mapping u
      · subst hc
        left
        rw [upd_same, hidx, ht, List.countP_append]
        simp
        omega
      · rw [upd_ne _ _ hc, ht, List.countP_append]
        rcases hi.index c with h | h
        · left; rw [h]; simp [Ne.symm hc]
        · right; exact h
    · intro c i h
      show upd s.slot u _ _ + i + 1 = _
      simp only [ht, List.filter_append] at h ⊢
      by_cases hlt : i < ((takes done).filter (mapping · = c)).length
      · rw [List.getElem_append_left hlt]
        have hmem := List.getElem_mem hlt
        rw [upd_ne]
        · exact hi.slot c i hlt
        · intro e
          exact hun (e ▸ (List.mem_filter.1 hmem).1)
      · by_cases hc : mapping u = c
        · subst hc
          simp only [List.length_append] at h
          simp at h
          have hie : i = ((takes done).filter (mapping · = mapping u)).length := by omega
          subst hie
          rw [List.getElem_append_right (Nat.le_refl _)]
          simp only [Nat.sub_self]
          have : (List.filter (fun x => decide (mapping x = mapping u)) [u])[0]'(by simp) = u := by simp
          rw [this, upd_same, hidx, ← List.countP_eq_length_filter]
          omega
        · simp [hc] at h
          omega
    · intro v hv
      rw [hs] at hv
      show s.buckets (upd s.slot u _ v) = v
      rw [upd_ne _ _ (show v ≠ u from fun e => hun (e ▸ hsub v hv))]
      exact hi.stored v hv
  | store u =>
    have ht : takes (done ++ [Step.store u]) = takes done := by rw [takes_append]; simp [takes]
    have hs : stores (done ++ [Step.store u]) = stores done ++ [u] := by rw [stores_append]; rfl
    rw [ht] at hp
    have hu : u ∈ takes done := hst u rfl
    constructor
    · rw [ht]; exact hi.index
    · rw [ht]; exact hi.slot
    · intro v hv
      rw [hs] at hv
      show upd s.buckets (s.slot u) u (s.slot v) = v
      by_cases hvu : v = u
      · subst hvu; rw [upd_same]
      · have hv' : v ∈ stores done := by simpa [hvu] using hv
        rw [upd_ne _ _ fun e => hvu (slot_inj hi hp (hsub v hv') hu e)]
        exact hi.stored v hv'

theorem bucket_run {n : Nat} {mapping : Nat → Nat} : ∀ (todo done : List Step) (s : BucketState),
    BInv n mapping done s → (takes (done ++ todo)).Perm (List.range n) →
    (∀ u ∈ stores done, u ∈ takes done) →
    (∀ pre u, done ++ pre ++ [Step.store u] <+: done ++ todo → Step.take u ∈ done ++ pre) →
    BInv n mapping (done ++ todo) (todo.foldl (bucketStep mapping) s)
  | [], done, s, hi, _, _, _ => by rw [List.append_nil]; exact hi
  | st :: todo, done, s, hi, hp, hsub, hca => by
    rw [List.foldl_cons]
    have hst : ∀ u, st = .store u → u ∈ takes done := by
      intro u hu
      subst hu
      have := hca [] u ⟨todo, by simp⟩
      rw [List.append_nil] at this
      exact mem_takes.2 this
    have e : done ++ st :: todo = done ++ [st] ++ todo := by simp
    rw [e] at hp hca ⊢
    rw [takes_append] at hp
    refine bucket_run todo (done ++ [st]) _ (bucket_step hi hp hsub hst) ?_ ?_ ?_
    · rw [takes_append]; exact hp
    · intro u hu
      rw [stores_append] at hu
      rw [takes_append]
      rcases List.mem_append.1 hu with hu | hu
      · exact List.mem_append_left _ (hsub u hu)
      · cases st with
        | take v => simp [stores] at hu
        | store v =>
          simp [stores] at hu
          subst hu
          exact List.mem_append_left _ (hst u rfl)
    · intro pre u hpre
      have := hca (st :: pre) u (by simpa using hpre)
      simpa using this

theorem map_takes_perm {n : Nat} {l : List Step}
    (h : l.Perm ((List.range n).map Step.take ++ (List.range n).map Step.store)) :
    (takes l).Perm (List.range n) ∧ (stores l).Perm (List.range n) := by
  have h1 : ∀ m : List Nat, takes (m.map Step.take ++ m.map Step.store) = m := by
    intro m
    rw [takes_append]
    have a : takes (m.map Step.take) = m := by
      unfold takes; rw [List.filterMap_map]; induction m <;> simp_all
    have b : takes (m.map Step.store) = [] := by
      unfold takes; rw [List.filterMap_map]; induction m <;> simp_all
    rw [a, b, List.append_nil]
  have h2 : ∀ m : List Nat, stores (m.map Step.take ++ m.map Step.store) = m := by
    intro m
    rw [stores_append]
    have a : stores (m.map Step.take) = [] := by
      unfold stores; rw [List.filterMap_map]; induction m <;> simp_all
    have b : stores (m.map Step.store) = m := by
      unfold stores; rw [List.filterMap_map]; induction m <;> simp_all
    rw [a, b, List.nil_append]
  have p1 : (takes l).Perm _ := h.filterMap _
  have p2 : (stores l).Perm _ := h.filterMap _
  exact ⟨h1 (List.range n) ▸ p1, h2 (List.range n) ▸ p2⟩

/-- C29, buckets: for every mapping to coarse nodes below `c_n`, every previous content of the arrays and every
interleaving of the atomic steps, the buckets are laid out one after the other in `0..n-1`, and the bucket of
coarse node `c` lists exactly the nodes of `c`, each once. -/
theorem C29_buckets (n cn : Nat) (mapping : Nat → Nat) (hm : ∀ u, u < n → mapping u < cn)
    (s : BucketSched) (hs : s.Ok n cn) (index buckets slot : Nat → Nat) :
    let r := fillClusterBuckets cn mapping s index buckets slot
    r.index 0 = 0 ∧ r.index cn = n ∧ (∀ c, c < cn → r.index c ≤ r.index (c + 1)) ∧
    ∀ c, c < cn → ((List.range' (r.index c) (r.index (c + 1) - r.index c)).map r.buckets).Perm
      ((List.range n).filter (mapping · = c)) := by
  intro r
  obtain ⟨htp, hsp⟩ := map_takes_perm hs.steps
  have hcounted : ∀ i, i < cn + 1 → s.count.foldl (fun a u => upd a (mapping u) (a (mapping u) + 1))
      (s.zero.foldl (fun a i => upd a i 0) index) i = size n mapping i := by
    intro i hi
    rw [foldl_count, foldl_upd_const (f := fun u => u),
      if_pos ⟨i, hs.zero.mem_iff.2 (List.mem_range.2 hi), rfl⟩, hs.count.countP_eq, size]
    omega
  have hzero : ∀ c, cn ≤ c → size n mapping c = 0 := by
    intro c hc
    rw [size, List.countP_eq_zero]
    intro u hu
    have := hm u (List.mem_range.1 hu)
    simp; omega
  have hi0 : BInv n mapping [] ⟨prefixSum (cn + 1) (s.count.foldl (fun a u => upd a (mapping u) (a (mapping u) + 1))
      (s.zero.foldl (fun a i => upd a i 0) index)), buckets, slot⟩ := by
    constructor
    · intro c
      by_cases hc : c < cn
      · left
        show prefixSum _ _ _ = _
        rw [prefixSum_eq _ (by omega), psum_congr fun i hi => hcounted i (by omega)]
        simp [takes]
      · right; exact hzero c (by omega)
    · intro c i h; simp [takes] at h
    · intro u hu; simp [stores] at hu
  have hfin : BInv n mapping s.steps r := by
    refine bucket_run s.steps [] _ hi0 htp (fun u hu => by simp [stores] at hu) ?_
    intro pre u hpre
    obtain ⟨t, ht⟩ := hpre
    rw [List.nil_append, List.nil_append] at ht
    have := hs.causal pre.length u (by rw [← ht]; simp)
    rw [← ht] at this
    simpa using this
  have hpn : (takes s.steps ++ []).Perm (List.range n) := by rw [List.append_nil]; exact htp
  have hidx : ∀ c, c ≤ cn → r.index c = psum (size n mapping) c := by
    intro c hc
    -- the index is only ever changed by nodes of bucket `c`
    have key : ∀ (l : List Step) (st : BucketState),
        (∀ u ∈ takes l, mapping u ≠ c) → (l.foldl (bucketStep mapping) st).index c = st.index c := by
      intro l
      induction l with
      | nil => intro st _; rfl
      | cons a l ih =>
        intro st h
        rw [List.foldl_cons, ih]
        · cases a with
          | take u =>
            show upd st.index (mapping u) _ c = _
            rw [upd_ne _ _ (Ne.symm (h u (mem_takes.2 (by simp))))]
          | store u => rfl
        · intro u hu
          exact h u (mem_takes.2 (List.mem_cons_of_mem _ (mem_takes.1 hu)))
    by_cases h0 : size n mapping c = 0
    · have : r.index c = prefixSum (cn + 1) (s.count.foldl (fun a u => upd a (mapping u) (a (mapping u) + 1))
          (s.zero.foldl (fun a i => upd a i 0) index)) c := by
        refine key s.steps _ ?_
        intro u hu he
        rw [size, List.countP_eq_zero] at h0
        have := h0 u (htp.mem_iff.1 hu)
        simp [he] at this
      rw [this, prefixSum_eq _ (by omega), psum_congr fun i hi => hcounted i (by omega), psum_succ, h0]
      omega
    · rcases hfin.index c with h | h
      · rw [h, htp.countP_eq, psum_succ, size]
        omega
      · exact absurd h h0
  refine ⟨by rw [hidx 0 (by omega)]; simp [psum], ?_, ?_, ?_⟩
  · rw [hidx cn (Nat.le_refl _), psum_size]
    have : (List.range n).countP (mapping · < cn) = (List.range n).length := by
      rw [List.countP_eq_length]
      intro u hu
      simpa using hm u (List.mem_range.1 hu)
    rw [this, List.length_range]
  · intro c hc
    rw [hidx c (by omega), hidx (c + 1) (by omega)]
    exact psum_mono _ (by omega)
  · intro c hc
    rw [hidx c (by omega), hidx (c + 1) (by omega), psum_succ, Nat.add_sub_cancel_left]
    have hlen : ((takes s.steps).filter (mapping · = c)).length = size n mapping c := by
      rw [← List.countP_eq_length_filter, htp.countP_eq, size]
    have heq : (List.range' (psum (size n mapping) c) (size n mapping c)).map r.buckets =
        ((takes s.steps).filter (mapping · = c)).reverse := by
      apply List.ext_getElem
      · simp [hlen]
      · intro i h1 h2
        simp only [List.length_map, List.length_range'] at h1
        rw [List.getElem_map, List.getElem_range', List.getElem_reverse]
        have hj : ((takes s.steps).filter (mapping · = c)).length - 1 - i <
            ((takes s.steps).filter (mapping · = c)).length := by omega
        have hsl := hfin.slot c _ hj
        have hmem := (List.mem_filter.1 (List.getElem_mem hj)).1
        have hst := hfin.stored _ (hsp.mem_iff.2 (htp.mem_iff.1 hmem))
        rw [psum_succ] at hsl
        rw [← hst]
        congr 1
        omega
    rw [heq]
    exact (List.reverse_perm _).trans (htp.filter _)

/-- Clusters `{0, 2}`, `{1, 4}`, `{3}` with leaders 2, 4, 3 and an interleaved schedule. -/
example :
    let clustering := fun u => [2, 4, 2, 3, 4].getD u 0
    let ms : MapSched := ⟨[4, 3, 2, 1, 0], [1, 0, 2, 4, 3], [2, 0, 1, 3, 4]⟩
    let bs : BucketSched := ⟨[3, 0, 1, 2], [4, 2, 0, 1, 3],
      [.take 1, .take 0, .take 4, .store 4, .take 2, .store 0, .take 3, .store 2, .store 1, .store 3]⟩
    let m := computeMapping 5 clustering (fun _ => 77) ms
    let r := fillClusterBuckets m.1 m.2 bs (fun _ => 9) (fun _ => 8) (fun _ => 7)
    m.1 = 3 ∧ (List.range 5).map m.2 = [0, 2, 0, 1, 2] ∧ (List.range 4).map r.index = [0, 2, 3, 5] ∧
      (List.range 5).map r.buckets = [2, 0, 3, 4, 1] := by decide +kernel

example : (⟨[4, 3, 2, 1, 0], [1, 0, 2, 4, 3], [2, 0, 1, 3, 4]⟩ : MapSched).Ok 5 ∧
    (⟨[3, 0, 1, 2], [4, 2, 0, 1, 3], [.take 1, .take 0, .take 4, .store 4, .take 2, .store 0, .take 3, .store 2,
      .store 1, .store 3]⟩ : BucketSched).Ok 5 3 := by
  refine ⟨⟨by decide, by decide, by decide⟩, ⟨by decide, by decide, by decide, ?_⟩⟩
  intro i u h
  have hi : i < 10 := by
    have := (List.getElem?_eq_some_iff.1 h).1
    simpa using this
  interval_cases i <;> simp at h <;> subst h <;> decide

end Verif.Contraction

import Verif.Contraction.Rows
import Verif.Contraction.PreprocessProps

/-!
# The buffered contraction algorithm writes the collected neighbourhoods
-/

namespace Verif.Contraction

/-! ## Executing writes -/

theorem exec_not_mem {ws : List Write} : ∀ {m : Mem} {t : Target}, (∀ v, (t, v) ∉ ws) → exec m ws t = m t := by
  induction ws with
  | nil => intro m t _; rfl
  | cons w ws ih =>
    intro m t h
    show exec (upd m w.1 w.2) ws t = m t
    rw [ih fun v hv => h v (List.mem_cons_of_mem _ hv)]
    exact upd_ne _ _ fun e => h w.2 (by rw [e]; exact List.mem_cons_self)

/-- A cell to which all writes write the same value has this value. -/
theorem exec_mem {ws : List Write} : ∀ {m : Mem} {t : Target} {v : Int}, (t, v) ∈ ws →
    (∀ v', (t, v') ∈ ws → v' = v) → exec m ws t = v := by
  induction ws with
  | nil => intro m t v h; simp at h
  | cons w ws ih =>
    intro m t v h hall
    show exec (upd m w.1 w.2) ws t = v
    by_cases hm : (t, v) ∈ ws
    · exact ih hm fun v' hv' => hall v' (List.mem_cons_of_mem _ hv')
    · have hw : (t, v) = w := (List.mem_cons.1 h).resolve_right hm
      rw [exec_not_mem]
      · rw [← hw]; exact upd_same ..
      · intro v' hv'
        have := hall v' (List.mem_cons_of_mem _ hv')
        subst this
        exact hm hv'

/-- Reorders lists of writes. -/
def Reorders (order : List Write → List Write) : Prop := ∀ ws, (order ws).Perm ws

theorem exec_order {order : List Write → List Write} (ho : Reorders order) {ws : List Write} {m : Mem} {t : Target} :
    (∀ v, (t, v) ∈ ws → (∀ v', (t, v') ∈ ws → v' = v) → exec m (order ws) t = v) ∧
    ((∀ v, (t, v) ∉ ws) → exec m (order ws) t = m t) := by
  constructor
  · intro v hv hall
    exact exec_mem ((ho ws).mem_iff.2 hv) fun v' hv' => hall v' ((ho ws).mem_iff.1 hv')
  · intro h
    exact exec_not_mem fun v hv => h v ((ho ws).mem_iff.1 hv)

theorem mapM_some {α β : Type} {f : α → Option β} {g : α → β} : ∀ {l : List α}, (∀ x ∈ l, f x = some (g x)) →
    l.mapM f = some (l.map g)
  | [], _ => rfl
  | x :: l, h => by
    rw [List.mapM_cons, h x List.mem_cons_self, mapM_some fun y hy => h y (List.mem_cons_of_mem _ hy)]
    rfl

/-! ## The edge buffers -/

theorem chunks_get {K : Nat} (hK : 0 < K) : ∀ (chunks : List (List (Nat × Int))) (last : List (Nat × Int)) (pos : Nat),
    (∀ ch ∈ chunks, ch.length = K) → pos < chunks.flatten.length + last.length → last.length ≤ K →
    (((chunks ++ [last])[pos / K]?).bind fun ch => ch[pos % K]?) = (chunks.flatten ++ last)[pos]?
  | [], last, pos, _, hp, hl => by
    have hp' : pos < last.length := by simpa using hp
    rw [Nat.div_eq_of_lt (by omega), Nat.mod_eq_of_lt (by omega)]
    simp
  | ch :: chunks, last, pos, hc, hp, hl => by
    have hlen := hc ch List.mem_cons_self
    rw [List.flatten_cons, List.append_assoc]
    by_cases hlt : pos < K
    · rw [Nat.div_eq_of_lt hlt, Nat.mod_eq_of_lt hlt,
        List.getElem?_append_left (l₁ := ch) (l₂ := chunks.flatten ++ last) (by omega)]
      simp
    · have e1 : pos / K = (pos - K) / K + 1 := by
        rw [← Nat.add_div_right _ hK]; congr 1; omega
      have e2 : pos % K = (pos - K) % K := by
        rw [← Nat.add_mod_right (pos - K) K]; congr 1; omega
      rw [e1, e2, List.getElem?_append_right (l₁ := ch) (l₂ := chunks.flatten ++ last) (by omega), hlen]
      rw [List.flatten_cons, List.length_append] at hp
      have := chunks_get hK chunks last (pos - K) (fun c h => hc c (List.mem_cons_of_mem _ h)) (by omega) hl
      rw [← this]
      rfl

/-- The list stores the elements `flat` in full chunks and a rest. -/
structure NavRep (K : Nat) (l : NavList) (flat : List (Nat × Int)) (marks : List (Nat × Nat)) : Prop where
  full : ∀ ch ∈ l.chunks, ch.length = K
  rest : l.current.length ≤ K
  flat : l.chunks.flatten ++ l.current = flat
  marks : l.markers = marks

theorem flatten_uniform {K : Nat} : ∀ {chunks : List (List (Nat × Int))}, (∀ ch ∈ chunks, ch.length = K) →
    chunks.flatten.length = chunks.length * K
  | [], _ => by simp
  | ch :: chunks, h => by
    rw [List.flatten_cons, List.length_append, flatten_uniform fun c hc => h c (List.mem_cons_of_mem _ hc),
      h ch List.mem_cons_self, List.length_cons, Nat.succ_mul]
    omega

theorem NavRep.position {K : Nat} {l : NavList} {flat : List (Nat × Int)} {marks : List (Nat × Nat)}
    (h : NavRep K l flat marks) : l.position K = flat.length := by
  rw [← h.flat, List.length_append, flatten_uniform h.full]; rfl

theorem NavRep.mark {K : Nat} {l : NavList} {flat : List (Nat × Int)} {marks : List (Nat × Nat)}
    (h : NavRep K l flat marks) (c : Nat) : NavRep K (l.mark K c) flat (marks ++ [(c, flat.length)]) :=
  ⟨h.full, h.rest, h.flat, by show l.markers ++ _ = _; rw [h.marks, h.position]⟩

theorem NavRep.push {K : Nat} (hK : 0 < K) {l : NavList} {flat : List (Nat × Int)} {marks : List (Nat × Nat)}
    (h : NavRep K l flat marks) (e : Nat × Int) : NavRep K (l.push K e) (flat ++ [e]) marks := by
  unfold NavList.push
  by_cases hf : l.current.length = K
  · rw [if_pos hf]
    have hne : l.current.isEmpty = false := by
      cases hc : l.current with
      | nil => rw [hc] at hf; simp at hf; omega
      | cons _ _ => rfl
    unfold NavList.flush
    rw [hne]
    refine ⟨?_, ?_, ?_, h.marks⟩
    · intro ch hch
      simp only [Bool.false_eq_true, if_false] at hch
      rcases List.mem_append.1 hch with h' | h'
      · exact h.full ch h'
      · rw [List.mem_singleton.1 h']; exact hf
    · simp; omega
    · simp [← h.flat]
  · rw [if_neg hf]
    refine ⟨h.full, ?_, ?_, h.marks⟩
    · have := h.rest
      simp; omega
    · show l.chunks.flatten ++ (l.current ++ [e]) = _
      rw [← h.flat, List.append_assoc]

theorem NavRep.pushes {K : Nat} (hK : 0 < K) : ∀ (es : List (Nat × Int)) {l : NavList} {flat : List (Nat × Int)}
    {marks : List (Nat × Nat)}, NavRep K l flat marks → NavRep K (es.foldl (NavList.push K) l) (flat ++ es) marks
  | [], l, flat, marks, h => by rw [List.append_nil]; exact h
  | e :: es, l, flat, marks, h => by
    rw [List.foldl_cons]
    have := NavRep.pushes hK es (h.push hK e)
    rwa [List.append_assoc] at this

theorem NavRep.get {K : Nat} (hK : 0 < K) {l : NavList} {flat : List (Nat × Int)} {marks : List (Nat × Nat)}
    (h : NavRep K l flat marks) {pos : Nat} (hp : pos < flat.length) : l.flush.get? K pos = flat[pos]? := by
  unfold NavList.flush NavList.get?
  rw [← h.flat, List.length_append] at hp
  cases hc : l.current with
  | nil =>
    rw [hc] at hp
    simp only [List.isEmpty_nil, if_true]
    have := chunks_get hK l.chunks [] pos h.full (by simpa using hp) (by simp)
    rw [← h.flat, hc, ← this]
    have hlt : pos / K < l.chunks.length := by
      rw [Nat.div_lt_iff_lt_mul hK, ← flatten_uniform h.full]; simpa using hp
    rw [List.getElem?_append_left hlt]
  | cons a cur =>
    simp only [List.isEmpty_cons, Bool.false_eq_true, if_false]
    rw [← hc, chunks_get hK l.chunks l.current pos h.full hp h.rest, h.flat]

/-- Positions of the markers. -/
def marksFrom (col : Nat → List (Nat × Int)) : Nat → List Nat → List (Nat × Nat)
  | _, [] => []
  | p, c :: cs => (c, p) :: marksFrom col (p + (col c).length) cs

theorem fillList_rep {K : Nat} (hK : 0 < K) (col : Nat → List (Nat × Int)) (nodes : List Nat) :
    NavRep K (fillList K col nodes) (nodes.flatMap col) (marksFrom col 0 nodes) := by
  have key : ∀ (nodes : List Nat) (l : NavList) (flat : List (Nat × Int)) (marks : List (Nat × Nat)),
      NavRep K l flat marks →
      NavRep K (nodes.foldl (fun l c => (col c).foldl (NavList.push K) (l.mark K c)) l) (flat ++ nodes.flatMap col)
        (marks ++ marksFrom col flat.length nodes) := by
    intro nodes
    induction nodes with
    | nil => intro l flat marks h; simpa [marksFrom] using h
    | cons c nodes ih =>
      intro l flat marks h
      rw [List.foldl_cons]
      have := ih _ _ _ ((h.mark c).pushes hK (col c))
      simpa [marksFrom] using this
  have := key nodes .empty [] [] ⟨by simp [NavList.empty], by simp [NavList.empty], rfl, rfl⟩
  rw [List.nil_append, List.nil_append] at this
  exact this

theorem marksFrom_keys (col : Nat → List (Nat × Int)) : ∀ (p : Nat) (nodes : List Nat),
    (marksFrom col p nodes).map Prod.fst = nodes
  | _, [] => rfl
  | p, c :: cs => by rw [marksFrom, List.map_cons, marksFrom_keys]

theorem marksFrom_get (col : Nat → List (Nat × Int)) : ∀ (nodes : List Nat) (pre : List (Nat × Int)) (mk : Nat × Nat),
    mk ∈ marksFrom col pre.length nodes → ∀ j, (hj : j < (col mk.1).length) →
    mk.2 + j < (pre ++ nodes.flatMap col).length ∧ (pre ++ nodes.flatMap col)[mk.2 + j]? = some (col mk.1)[j]
  | [], _, _, h, _, _ => absurd h List.not_mem_nil
  | c :: cs, pre, mk, h, j, hj => by
    rw [marksFrom] at h
    rcases List.mem_cons.1 h with rfl | h
    · simp only at hj ⊢
      constructor
      · rw [List.flatMap_cons, List.length_append, List.length_append]; omega
      · rw [List.getElem?_append_right (by omega), Nat.add_sub_cancel_left, List.flatMap_cons,
          List.getElem?_append_left hj, List.getElem?_eq_getElem hj]
    · rw [List.flatMap_cons, ← List.append_assoc]
      exact marksFrom_get col cs (pre ++ col c) mk (by rw [List.length_append]; exact h) j hj

/-! ## One chunk -/

/-- The degree of a coarse node. -/
def deg (col : Nat → List (Nat × Int)) (c : Nat) : Nat := (col c).length

/-- The arrays are complete for the first `a` coarse nodes. -/
structure Done (col : Nat → List (Nat × Int)) (wgt : Nat → Int) (a : Nat) (m : Mem) : Prop where
  node : ∀ i, i ≤ a → m (.node i) = (psum (deg col) i : Int)
  weight : ∀ c, c < a → m (.nweight c) = wgt c
  edge : ∀ c, c < a → ∀ j, (hj : j < (col c).length) →
    m (.edge (psum (deg col) c + j)) = ((col c)[j].1 : Int) ∧ m (.eweight (psum (deg col) c + j)) = (col c)[j].2

structure ChunkSched.Ok (s : ChunkSched) (a b : Nat) : Prop where
  threads : s.threads.flatten.Perm (List.range' a (b - a))
  order1 : Reorders s.order1
  markers : s.markers.Perm (List.range s.threads.length)
  order2 : Reorders s.order2

theorem mem_edgeWrites {first : Nat} {es : List (Nat × Int)} {w : Write} :
    w ∈ edgeWrites first es ↔ ∃ j, ∃ h : j < es.length,
      w = (.edge (first + j), (es[j].1 : Int)) ∨ w = (.eweight (first + j), es[j].2) := by
  unfold edgeWrites
  rw [List.mem_flatMap]
  constructor
  · rintro ⟨⟨e, j⟩, hx, hw⟩
    obtain ⟨hj, he⟩ := List.getElem?_eq_some_iff.1 (List.mem_zipIdx_iff_getElem?.1 hx)
    simp only at hj he
    subst he
    refine ⟨j, hj, ?_⟩
    simpa using hw
  · rintro ⟨j, hj, h⟩
    refine ⟨(es[j], j), ?_, ?_⟩
    · rw [List.mem_zipIdx_iff_getElem?]; exact List.getElem?_eq_getElem hj
    · simpa using h

theorem psum_unique {d : Nat → Nat} {c c' j j' : Nat} (hj : j < d c) (hj' : j' < d c')
    (h : psum d c + j = psum d c' + j') : c = c' ∧ j = j' := by
  have h1 := psum_succ d c
  have h2 := psum_succ d c'
  have hc : c = c' := by
    rcases Nat.lt_trichotomy c c' with hl | he | hl
    · have := psum_mono d (show c + 1 ≤ c' from hl); omega
    · exact he
    · have := psum_mono d (show c' + 1 ≤ c from hl); omega
  subst hc
  exact ⟨rfl, by omega⟩

/-- Writing the neighbourhoods of the nodes in `nodes` at their places. -/
theorem exec_edges {col : Nat → List (Nat × Int)} {nodes : List Nat} {order : List Write → List Write}
    (ho : Reorders order) (m : Mem) :
    (∀ c ∈ nodes, ∀ j, (hj : j < (col c).length) →
      exec m (order (nodes.flatMap fun c => edgeWrites (psum (deg col) c) (col c))) (.edge (psum (deg col) c + j)) =
        ((col c)[j].1 : Int) ∧
      exec m (order (nodes.flatMap fun c => edgeWrites (psum (deg col) c) (col c))) (.eweight (psum (deg col) c + j)) =
        (col c)[j].2) ∧
    (∀ t, (∀ c ∈ nodes, ∀ j, j < (col c).length → t ≠ .edge (psum (deg col) c + j) ∧
        t ≠ .eweight (psum (deg col) c + j)) →
      exec m (order (nodes.flatMap fun c => edgeWrites (psum (deg col) c) (col c))) t = m t) := by
  constructor
  · intro c hc j hj
    constructor
    · refine (exec_order ho).1 _ ?_ ?_
      · exact List.mem_flatMap.2 ⟨c, hc, mem_edgeWrites.2 ⟨j, hj, Or.inl rfl⟩⟩
      · intro v' hv'
        obtain ⟨c', hc', hw⟩ := List.mem_flatMap.1 hv'
        obtain ⟨j', hj', hw | hw⟩ := mem_edgeWrites.1 hw
        · obtain ⟨ht, hv⟩ := Prod.mk.inj hw
          obtain ⟨rfl, rfl⟩ := psum_unique (d := deg col) hj hj' (Target.edge.inj ht)
          exact hv
        · obtain ⟨ht, _⟩ := Prod.mk.inj hw
          exact absurd ht (by simp)
    · refine (exec_order ho).1 _ ?_ ?_
      · exact List.mem_flatMap.2 ⟨c, hc, mem_edgeWrites.2 ⟨j, hj, Or.inr rfl⟩⟩
      · intro v' hv'
        obtain ⟨c', hc', hw⟩ := List.mem_flatMap.1 hv'
        obtain ⟨j', hj', hw | hw⟩ := mem_edgeWrites.1 hw
        · obtain ⟨ht, _⟩ := Prod.mk.inj hw
          exact absurd ht (by simp)
        · obtain ⟨ht, hv⟩ := Prod.mk.inj hw
          obtain ⟨rfl, rfl⟩ := psum_unique (d := deg col) hj hj' (Target.eweight.inj ht)
          exact hv
  · intro t ht
    refine (exec_order ho).2 fun v hv => ?_
    obtain ⟨c, hc, hw⟩ := List.mem_flatMap.1 hv
    obtain ⟨j, hj, hw | hw⟩ := mem_edgeWrites.1 hw
    · exact (ht c hc j hj).1 (Prod.mk.inj hw).1
    · exact (ht c hc j hj).2 (Prod.mk.inj hw).1

theorem mem_nodeWrites {col : Nat → List (Nat × Int)} {wgt : Nat → Int} {nodes : List Nat} {w : Write} :
    w ∈ nodeWrites col wgt nodes ↔
      ∃ c ∈ nodes, w = (.nweight c, wgt c) ∨ w = (.node (c + 1), ((col c).length : Int)) := by
  unfold nodeWrites
  rw [List.mem_flatMap]
  simp

/-- The node arrays after the first loop and the prefix sum. -/
theorem nodes_ok {col : Nat → List (Nat × Int)} {wgt : Nat → Int} {a b : Nat} (hab : a ≤ b) {nodes : List Nat}
    (hn : nodes.Perm (List.range' a (b - a))) {order : List Write → List Write} (ho : Reorders order) {m : Mem}
    (hd : Done col wgt a m) :
    let m' := prefixNodes a b (exec m (order (nodeWrites col wgt nodes)))
    (∀ i, i ≤ b → m' (.node i) = (psum (deg col) i : Int)) ∧ (∀ c, c < b → m' (.nweight c) = wgt c) ∧
    (∀ e, m' (.edge e) = m (.edge e) ∧ m' (.eweight e) = m (.eweight e)) := by
  intro m'
  have hmem : ∀ c, c ∈ nodes ↔ a ≤ c ∧ c < b := by
    intro c
    rw [hn.mem_iff, List.mem_range'_1]; omega
  generalize hx : exec m (order (nodeWrites col wgt nodes)) = x
  have hnode : ∀ c, a ≤ c → c < b → x (.node (c + 1)) = (deg col c : Int) := by
    intro c h1 h2
    rw [← hx]
    refine (exec_order ho).1 _ (mem_nodeWrites.2 ⟨c, (hmem c).2 ⟨h1, h2⟩, Or.inr rfl⟩) ?_
    intro v' hv'
    obtain ⟨c', _, hw | hw⟩ := mem_nodeWrites.1 hv'
    · exact absurd (Prod.mk.inj hw).1 (by simp)
    · obtain ⟨ht, hv⟩ := Prod.mk.inj hw
      have := Target.node.inj ht
      have : c' = c := by omega
      subst this; exact hv
  have hnode' : ∀ i, i ≤ a → x (.node i) = m (.node i) := by
    intro i hi
    rw [← hx]
    refine (exec_order ho).2 fun v hv => ?_
    obtain ⟨c', hc', hw | hw⟩ := mem_nodeWrites.1 hv
    · exact absurd (Prod.mk.inj hw).1 (by simp)
    · have := Target.node.inj (Prod.mk.inj hw).1
      have := (hmem c').1 hc'
      omega
  have hsum : ∀ k, a + k ≤ b → ((List.range' a (k + 1)).map fun j => x (.node j)).sum =
      (psum (deg col) (a + k) : Int) := by
    intro k
    induction k with
    | zero =>
      intro _
      rw [Nat.zero_add, List.range'_one, Nat.add_zero]
      simp only [List.map_cons, List.map_nil, List.sum_cons, List.sum_nil, add_zero]
      rw [hnode' a (Nat.le_refl _), hd.node a (Nat.le_refl _)]
    | succ k ih =>
      intro h
      rw [show List.range' a (k + 1 + 1) = List.range' a (k + 1) ++ [a + (k + 1)] by
          rw [List.range'_concat]; simp,
        List.map_append, List.sum_append, ih (by omega)]
      simp only [List.map_cons, List.map_nil, List.sum_cons, List.sum_nil, add_zero]
      rw [show a + (k + 1) = (a + k) + 1 by omega, hnode (a + k) (by omega) (by omega), psum_succ]
      push_cast
      rfl
  have hm' : m' = prefixNodes a b x := by rw [← hx]
  refine ⟨?_, ?_, ?_⟩
  · intro i hi
    rw [hm']
    show (if a ≤ i ∧ i ≤ b then ((List.range' a (i + 1 - a)).map fun j => x (.node j)).sum else x (.node i)) = _
    by_cases hai : a ≤ i
    · rw [if_pos ⟨hai, hi⟩]
      have := hsum (i - a) (by omega)
      rw [show i + 1 - a = i - a + 1 by omega, this]
      congr 2; omega
    · rw [if_neg (by omega), hnode' i (by omega), hd.node i (by omega)]
  · intro c hc
    rw [hm']
    show x (.nweight c) = _
    by_cases hac : a ≤ c
    · rw [← hx]
      refine (exec_order ho).1 _ (mem_nodeWrites.2 ⟨c, (hmem c).2 ⟨hac, hc⟩, Or.inl rfl⟩) ?_
      intro v' hv'
      obtain ⟨c', _, hw | hw⟩ := mem_nodeWrites.1 hv'
      · obtain ⟨ht, hv⟩ := Prod.mk.inj hw
        have := Target.nweight.inj ht
        subst this; exact hv
      · exact absurd (Prod.mk.inj hw).1 (by simp)
    · rw [← hx, (exec_order ho).2, hd.weight c (by omega)]
      intro v hv
      obtain ⟨c', hc', hw | hw⟩ := mem_nodeWrites.1 hv
      · have := Target.nweight.inj (Prod.mk.inj hw).1
        have := (hmem c').1 hc'
        omega
      · exact absurd (Prod.mk.inj hw).1 (by simp)
  · intro e
    rw [hm']
    show x (.edge e) = _ ∧ x (.eweight e) = _
    constructor <;>
    · rw [← hx, (exec_order ho).2]
      intro v hv
      obtain ⟨c', hc', hw | hw⟩ := mem_nodeWrites.1 hv <;> exact absurd (Prod.mk.inj hw).1 (by simp)

/-- Placing the edges of a chunk completes it. -/
theorem done_of_edges {col : Nat → List (Nat × Int)} {wgt : Nat → Int} {a b : Nat} (hab : a ≤ b) {nodes : List Nat}
    (hn : nodes.Perm (List.range' a (b - a))) {order : List Write → List Write} (ho : Reorders order) {m m' : Mem}
    (hd : Done col wgt a m) (h1 : ∀ i, i ≤ b → m' (.node i) = (psum (deg col) i : Int))
    (h2 : ∀ c, c < b → m' (.nweight c) = wgt c)
    (h3 : ∀ e, m' (.edge e) = m (.edge e) ∧ m' (.eweight e) = m (.eweight e)) :
    Done col wgt b (exec m' (order (nodes.flatMap fun c => edgeWrites (psum (deg col) c) (col c)))) := by
  have he := exec_edges (col := col) (nodes := nodes) ho m'
  have hmem : ∀ c, c ∈ nodes ↔ a ≤ c ∧ c < b := by
    intro c
    rw [hn.mem_iff, List.mem_range'_1]; omega
  refine ⟨?_, ?_, ?_⟩
  · intro i hi
    rw [he.2 _ (by simp), h1 i hi]
  · intro c hc
    rw [he.2 _ (by simp), h2 c hc]
  · intro c hc j hj
    by_cases hac : a ≤ c
    · exact he.1 c ((hmem c).2 ⟨hac, hc⟩) j hj
    · have hlt : psum (deg col) c + j < psum (deg col) a := by
        have := psum_mono (deg col) (show c + 1 ≤ a by omega)
        rw [psum_succ] at this
        have : deg col c = (col c).length := rfl
        omega
      have hout : ∀ c' ∈ nodes, ∀ j', j' < (col c').length → psum (deg col) c + j ≠ psum (deg col) c' + j' := by
        intro c' hc' j' hj' e
        have := psum_mono (deg col) ((hmem c').1 hc').1
        omega
      rw [he.2 _ fun c' hc' j' hj' => ⟨fun e => hout c' hc' j' hj' (Target.edge.inj e), by simp⟩,
        he.2 _ fun c' hc' j' hj' => ⟨by simp, fun e => hout c' hc' j' hj' (Target.eweight.inj e)⟩,
        (h3 _).1, (h3 _).2]
      exact hd.edge c (by omega) j hj

theorem flatMap_order_perm {α : Type} (ls : List (List α)) (order : List Nat) (ho : order.Perm (List.range ls.length)) :
    (order.flatMap fun t => (ls[t]?).getD []).Perm ls.flatten := by
  refine (ho.flatMap_right _).trans ?_
  have : (List.range ls.length).flatMap (fun t => (ls[t]?).getD []) = ls.flatten := by
    rw [List.flatMap]
    congr 1
    apply List.ext_getElem
    · simp
    · intro i h1 h2
      simp only [List.getElem_map, List.getElem_range]
      rw [List.getElem?_eq_getElem h2]; rfl
  rw [this]

/-- One chunk: no read outside of the buffers, and the arrays are complete up to the end of the chunk. -/
theorem chunk_ok {K : Nat} (hK : 0 < K) {col : Nat → List (Nat × Int)} {wgt : Nat → Int} {a b : Nat} (hab : a ≤ b)
    {s : ChunkSched} (hs : s.Ok a b) {m : Mem} (hd : Done col wgt a m) :
    ∃ m', chunkStep? K col wgt a b s m = some m' ∧ Done col wgt b m' := by
  obtain ⟨h1, h2, h3⟩ := nodes_ok hab hs.threads hs.order1 hd
  unfold chunkStep?
  generalize prefixNodes a b (exec m (s.order1 (nodeWrites col wgt s.threads.flatten))) = m1 at h1 h2 h3
  simp only
  generalize hall : allMarkers (s.threads.map (fillList K col)) s.markers = all
  -- keys of the markers
  have hkeys : (all.map fun mk => mk.2.1) = s.markers.flatMap fun t => (s.threads[t]?).getD [] := by
    rw [← hall, allMarkers, List.map_flatMap]
    congr 1
    funext t
    rw [List.map_map, List.getElem?_map]
    cases s.threads[t]? with
    | none => rfl
    | some nodes =>
      simp only [Option.map_some, Option.getD_some]
      have := (fillList_rep hK col nodes).marks
      rw [this]
      exact marksFrom_keys col 0 nodes
  have hkp : (all.map fun mk => mk.2.1).Perm (List.range' a (b - a)) := by
    rw [hkeys]
    exact (flatMap_order_perm s.threads s.markers hs.markers).trans hs.threads
  have hlen : all.length = b - a := by
    have := hkp.length_eq
    simpa using this
  have hcopy : ∀ mk ∈ all, copyWrites? K (s.threads.map (fillList K col)) m1 mk =
      some (edgeWrites (psum (deg col) mk.2.1) (col mk.2.1)) := by
    rintro ⟨t, c, p⟩ hmk
    have hc : c ∈ List.range' a (b - a) := hkp.mem_iff.1 (List.mem_map.2 ⟨_, hmk, rfl⟩)
    rw [List.mem_range'_1] at hc
    rw [← hall, allMarkers] at hmk
    obtain ⟨t', ht', hmk⟩ := List.mem_flatMap.1 hmk
    obtain ⟨mk', hmk', he⟩ := List.mem_map.1 hmk
    obtain ⟨rfl, rfl⟩ := Prod.mk.inj he
    have htl : t' < s.threads.length := List.mem_range.1 (hs.markers.mem_iff.1 ht')
    have hget : (s.threads.map (fillList K col))[t']? = some (fillList K col s.threads[t']) := by
      rw [List.getElem?_map, List.getElem?_eq_getElem htl]; rfl
    rw [hget] at hmk'
    have hrep := fillList_rep hK col s.threads[t']
    simp only [Option.map_some, Option.getD_some, hrep.marks] at hmk'
    have hm := marksFrom_get col s.threads[t'] [] (c, p) hmk'
    simp only [List.nil_append] at hm
    unfold copyWrites?
    simp only [hget, Option.bind_some]
    rw [h1 (c + 1) (by omega), h1 c (by omega)]
    simp only [Int.toNat_natCast]
    rw [psum_succ, Nat.add_sub_cancel_left]
    rw [mapM_some (g := fun j => [(Target.edge (psum (deg col) c + j), (((col c)[j]?.getD (0, 0)).1 : Int)),
      (Target.eweight (psum (deg col) c + j), ((col c)[j]?.getD (0, 0)).2)])]
    · simp only [Option.map_some, edgeWrites, List.flatMap]
      congr 2
      apply List.ext_getElem
      · simp [deg]
      · intro i h1 h2
        have hi : i < (col c).length := by simpa [deg] using h1
        simp only [List.getElem_map, List.getElem_range, List.getElem_zipIdx, Nat.zero_add]
        rw [List.getElem?_eq_getElem hi]; rfl
    · intro j hj
      have hj' : j < (col c).length := List.mem_range.1 hj
      obtain ⟨hb1, hb2⟩ := hm j hj'
      rw [hrep.get hK hb1, hb2, List.getElem?_eq_getElem hj']
      rfl
  have hcall : copyAll? K a b (s.threads.map (fillList K col)) all m1 =
      some ((all.map fun mk => mk.2.1).flatMap fun c => edgeWrites (psum (deg col) c) (col c)) := by
    unfold copyAll?
    rw [mapM_some (g := fun i => edgeWrites (psum (deg col) ((all[i]?.map fun mk => mk.2.1).getD 0))
      (col ((all[i]?.map fun mk => mk.2.1).getD 0)))]
    · simp only [Option.map_some]
      rw [List.flatMap]
      congr 2
      apply List.ext_getElem
      · simp [hlen]
      · intro i h1 h2
        have hi : i < all.length := by rw [hlen]; simpa using h1
        simp only [List.getElem_map, List.getElem_range]
        rw [List.getElem?_eq_getElem hi]; rfl
    · intro i hi
      have hi' : i < all.length := by rw [hlen]; exact List.mem_range.1 hi
      rw [List.getElem?_eq_getElem hi']
      exact hcopy _ (List.getElem_mem hi')
  rw [hcall]
  exact ⟨_, rfl, done_of_edges hab hkp hs.order2 hd h1 h2 h3⟩

/-! ## All chunks -/

/-- The chunks are consecutive intervals from `a` to `b`. -/
def Consecutive : Nat → Nat → List (Nat × Nat) → Prop
  | a, b, [] => a = b
  | a, b, r :: rest => r.1 = a ∧ a ≤ r.2 ∧ Consecutive r.2 b rest

theorem loop_ok {K : Nat} (hK : 0 < K) {col : Nat → List (Nat × Int)} {wgt : Nat → Int} {cn : Nat} :
    ∀ (rs : List ((Nat × Nat) × ChunkSched)) (a : Nat) (m : Mem), Consecutive a cn (rs.map Prod.fst) →
    (∀ r ∈ rs, r.2.Ok r.1.1 r.1.2) → Done col wgt a m →
    ∃ m', bufferedLoop? K col wgt rs m = some m' ∧ Done col wgt cn m'
  | [], a, m, hc, _, hd => by
    have : a = cn := hc
    subst this
    exact ⟨m, rfl, hd⟩
  | ((x, y), s) :: rs, a, m, hc, hs, hd => by
    obtain ⟨h1, h2, h3⟩ := hc
    simp only at h1 h2 h3
    subst h1
    obtain ⟨m', e1, d1⟩ := chunk_ok hK h2 (hs _ List.mem_cons_self) hd
    obtain ⟨m'', e2, d2⟩ := loop_ok hK rs y m' h3 (fun r hr => hs r (List.mem_cons_of_mem _ hr)) d1
    refine ⟨m'', ?_, d2⟩
    simp only [bufferedLoop?]
    rw [e1]
    exact e2

theorem chunksFrom_ok (cn limit : Nat) (d : Nat → Nat) : ∀ (todo start count c : Nat), c + todo = cn → start ≤ c →
    Consecutive start cn (chunksFrom cn limit d todo start count c)
  | 0, start, count, c, hc, hs => by
    unfold chunksFrom
    by_cases h : start = cn
    · simp [h, Consecutive]
    · simp only [ne_eq, h, not_false_eq_true, if_true]
      exact ⟨rfl, by simp only; omega, rfl⟩
  | todo + 1, start, count, c, hc, hs => by
    unfold chunksFrom
    simp only
    split
    · split
      · rename_i h
        subst h
        exact ⟨rfl, by simp, chunksFrom_ok cn limit d todo (start + 1) 0 (start + 1) (by omega) (Nat.le_refl _)⟩
      · exact ⟨rfl, hs, chunksFrom_ok cn limit d todo c 0 (c + 1) (by omega) (by omega)⟩
    · exact chunksFrom_ok cn limit d todo start _ (c + 1) (by omega) (by omega)

theorem chunks_ok (cn : Nat) (limit : Option Nat) (d : Nat → Nat) : Consecutive 0 cn (chunks cn limit d) := by
  cases limit with
  | none => exact ⟨rfl, Nat.zero_le _, rfl⟩
  | some limit => exact chunksFrom_ok cn limit d cn 0 0 0 (by omega) (Nat.le_refl _)

/-- Complete arrays describe the graph of the collected neighbourhoods. -/
theorem coarse_of_done {col : Nat → List (Nat × Int)} {wgt : Nat → Int} {cn : Nat} {m : Mem}
    (hd : Done col wgt cn m) {c : Nat} (hc : c < cn) : (coarse cn m).w c = wgt c ∧ (coarse cn m).adj c = col c := by
  refine ⟨hd.weight c hc, ?_⟩
  show (List.range' (m (.node c)).toNat ((m (.node (c + 1))).toNat - (m (.node c)).toNat)).map _ = _
  rw [hd.node c (by omega), hd.node (c + 1) (by omega)]
  simp only [Int.toNat_natCast]
  rw [psum_succ, Nat.add_sub_cancel_left]
  apply List.ext_getElem
  · simp [deg]
  · intro i h1 h2
    simp only [List.getElem_map, List.getElem_range', Nat.one_mul]
    obtain ⟨e1, e2⟩ := hd.edge c hc i h2
    rw [e1, e2]
    rfl

end Verif.Contraction

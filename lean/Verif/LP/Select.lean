import Verif.Util

/-!
# Model of the choice of a cluster in label propagation

Sources: `kaminpar-shm/label_propagation.h` (LP), `kaminpar-shm/refinement/lp/lp_refiner.cc` (LR),
`kaminpar-shm/coarsening/clustering/lp_clusterer.cc` (LC).

A rating map is the list of its entries in the order in which `entries()` visits them.  The weight of a
cluster is loaded when its entry is visited, possibly while other threads change it: it is part of the
entry, as is the outcome of the coin that may be tossed for the entry.  Random indices are parameters, taken
modulo the size of the range they are drawn from.  Integers do not overflow.  `kUseActualGain` is `false` in
both configurations (LP 70), hence `gain_delta` is 0 and the current gain is the rating.
-/

namespace Verif.LP

/-- One entry: cluster, rating, the loaded `cluster_weight(cluster)` and the coin `random_bool()`. -/
structure Entry where
  c : Nat
  r : Int
  w : Int
  coin : Bool := false
  deriving DecidableEq, Repr

/-- The constant fields of `ClusterSelectionState`, LP 438-451, the limits `max_cluster_weight`, and
`store_favored_cluster`. -/
structure Ctx where
  uw : Int
  own : Nat
  ownW : Int
  maxW : Nat → Int
  storeFav : Bool

/-- The changing fields of `ClusterSelectionState`, LP 438-451, the favored cluster and the two vectors for
uniform tie breaking. -/
structure Sel where
  best : Nat
  gain : Int
  weight : Int
  overall : Int
  fav : Nat
  ties : List Nat
  favTies : List Nat
  deriving DecidableEq, Repr

/-- The initial state, LP 470-484, LR 151, LC 197. -/
def Sel.init (x : Ctx) : Sel := ⟨x.own, 0, x.ownW, 0, x.own, [], []⟩

/-- The favored cluster with uniform tie breaking, LR 158-168, LC 211-221. -/
def favUniform (x : Ctx) (s : Sel) (e : Entry) : Sel :=
  if x.storeFav then
    if s.overall < e.r then { s with overall := e.r, fav := e.c, favTies := [e.c] }
    else if e.r = s.overall then { s with favTies := s.favTies ++ [e.c] }
    else s
  else s

/-- The favored cluster without uniform tie breaking, LR 256-259, LC 266-269. -/
def favGeometric (x : Ctx) (s : Sel) (e : Entry) : Sel :=
  if x.storeFav && decide (s.overall < e.r) then { s with overall := e.r, fav := e.c } else s

/-- The condition on the weight in the refiner, LR 176-178, 196-198, 209-211, 246-248: the node fits with
room to spare, or the block is less overloaded than the node's own block, or it is the own block. -/
def fitsRefine (x : Ctx) (e : Entry) : Bool :=
  decide (e.w + x.uw < x.maxW e.c) || decide (e.w - x.maxW e.c < x.ownW - x.maxW x.own) ||
    decide (e.c = x.own)

/-- One entry in the refiner with uniform tie breaking, LR 153-216. -/
def refineUniform (x : Ctx) (s : Sel) (e : Entry) : Sel :=
  let s := favUniform x s e
  if s.gain < e.r then
    if fitsRefine x e then { s with ties := [e.c], best := e.c, weight := e.w, gain := e.r } else s
  else if e.r = s.gain then
    if e.w - x.maxW e.c < s.weight - x.maxW s.best then
      if fitsRefine x e then { s with ties := [e.c], best := e.c, weight := e.w } else s
    else if e.w - x.maxW e.c = s.weight - x.maxW s.best then
      if fitsRefine x e then { s with ties := s.ties ++ [e.c] } else s
    else s
  else s

/-- One entry in the refiner without uniform tie breaking, LR 231-266. -/
def refineGeometric (x : Ctx) (s : Sel) (e : Entry) : Sel :=
  let s := favGeometric x s e
  if (decide (s.gain < e.r) || (decide (e.r = s.gain) &&
      (decide (e.w - x.maxW e.c < s.weight - x.maxW s.best) ||
        (decide (e.w - x.maxW e.c = s.weight - x.maxW s.best) && e.coin)))) && fitsRefine x e then
    { s with best := e.c, weight := e.w, gain := e.r }
  else s

/-- The conditions on weight and community in the clusterer, LC 192-195, 199-204, 255-258: the node fits or
it is the own cluster, and the communities of the two clusters are equal (`comm c` is
`_communities[c]`; constant if there are no communities). -/
def fitsCluster (x : Ctx) (comm : Nat → Nat) (e : Entry) : Bool :=
  (decide (e.w + x.uw ≤ x.maxW e.c) || decide (e.c = x.own)) && decide (comm e.c = comm x.own)

/-- One entry in the clusterer with uniform tie breaking, LC 206-236. -/
def clusterUniform (x : Ctx) (comm : Nat → Nat) (s : Sel) (e : Entry) : Sel :=
  let s := favUniform x s e
  if s.gain < e.r then
    if fitsCluster x comm e then { s with ties := [e.c], best := e.c, gain := e.r } else s
  else if e.r = s.gain then
    if fitsCluster x comm e then { s with ties := s.ties ++ [e.c] } else s
  else s

/-- One entry in the clusterer without uniform tie breaking, LC 252-276. -/
def clusterGeometric (x : Ctx) (comm : Nat → Nat) (s : Sel) (e : Entry) : Sel :=
  let s := favGeometric x s e
  if (decide (s.gain < e.r) || (decide (e.r = s.gain) && e.coin)) && fitsCluster x comm e then
    { s with best := e.c, weight := e.w, gain := e.r }
  else s

/-- `if (v.size() > 1) c = v[random_index(0, v.size())]`, LR 218-228, LC 238-248, LP 779-789. -/
def pick (v : List Nat) (i c : Nat) : Nat := if 1 < v.length then v.getD (i % v.length) c else c

/-- The four ways to select: refiner or clusterer, with or without uniform tie breaking. -/
inductive Rule
  | refine (uniform : Bool)
  | cluster (uniform : Bool) (comm : Nat → Nat)

/-- One entry. -/
def Rule.step : Rule → Ctx → Sel → Entry → Sel
  | .refine true => refineUniform
  | .refine false => refineGeometric
  | .cluster true comm => fun x => clusterUniform x comm
  | .cluster false comm => fun x => clusterGeometric x comm

def Rule.uniform : Rule → Bool
  | .refine u => u
  | .cluster u _ => u

/-- What `select_best_cluster` leaves behind: `best_cluster`, `best_gain` and the favored cluster. -/
structure Choice where
  best : Nat
  gain : Int
  fav : Nat
  deriving DecidableEq, Repr

/-- `select_best_cluster`, LR 140-269, LC 182-280; `i`, `j` are the random indices.  Without uniform tie
breaking the vectors stay empty. -/
def select (rule : Rule) (x : Ctx) (es : List Entry) (i j : Nat) : Choice :=
  let s := es.foldl (rule.step x) (Sel.init x)
  ⟨pick s.ties i s.best, s.gain, pick s.favTies j s.fav⟩

/-- What one task of the second phase leaves in `_local_cluster_selection_states`, LP 453-458, 734-739. -/
structure Local where
  gain : Int
  best : Nat
  favGain : Int
  fav : Nat
  deriving DecidableEq, Repr

/-- The accumulated best and favored clusters while combining, LP 742-744. -/
structure Comb where
  best : Nat
  gain : Int
  fav : Nat
  favGain : Int
  ties : List Nat
  favTies : List Nat

/-- One iteration of the combination with uniform tie breaking, LP 752-777. -/
def combUniform (storeFav : Bool) (s : Comb) (l : Local) : Comb :=
  let s :=
    if s.gain < l.gain then { s with gain := l.gain, best := l.best, ties := [l.best] }
    else if l.gain = s.gain then { s with ties := s.ties ++ [l.best] }
    else s
  if storeFav then
    if s.favGain < l.favGain then { s with favGain := l.favGain, fav := l.fav, favTies := [l.fav] }
    else if l.favGain = s.favGain then { s with favTies := s.favTies ++ [l.fav] }
    else s
  else s

/-- One iteration of the combination without uniform tie breaking, LP 792-805. -/
def combGeometric (storeFav : Bool) (s : Comb) (l : Local) : Comb :=
  let s := if s.gain < l.gain then { s with gain := l.gain, best := l.best } else s
  if storeFav && decide (s.favGain < l.favGain) then { s with favGain := l.favGain, fav := l.fav } else s

/-- The combination of the local selections in the second phase, LP 742-811. -/
def combine (uniform storeFav : Bool) (own : Nat) (ls : List Local) (i j : Nat) : Choice :=
  let s := ls.foldl ((if uniform then combUniform else combGeometric) storeFav) ⟨own, 0, own, 0, [], []⟩
  ⟨pick s.ties i s.best, s.gain, pick s.favTies j s.fav⟩

/-- `find_best_cluster_second_phase`, LP 708-811: each group of entries is handled by one task, with its own
random indices; unused slots of `_local_cluster_selection_states` have gain -1 (LP 251, 775-776, 803-804).
`ratingOf` is the shared rating map. -/
def selectGroups (rule : Rule) (x : Ctx) (ratingOf : Nat → Int) (gs : List (Option (List Entry × Nat × Nat)))
    (i j : Nat) : Choice :=
  combine rule.uniform x.storeFav x.own
    (gs.map fun g => match g with
      | none => ⟨-1, 0, -1, 0⟩
      | some (es, i, j) =>
        let r := select rule x es i j
        ⟨r.gain, r.best, ratingOf r.fav, r.fav⟩) i j

/-! ## The rating map -/

/-- `map[c] += w`, LP 490, 574, 669. -/
def addTo : List (Nat × Int) → Nat → Int → List (Nat × Int)
  | [], c, w => [(c, w)]
  | (d, r) :: m, c, w => if d = c then (d, r + w) :: m else (d, r) :: addTo m c w

/-- The rating map of a node, LP 487-505: of the first `lim` neighbours (`_max_num_neighbors`), those
accepted (`accept_neighbor`) count with the cluster `cl v` loaded for them. -/
def rate (adj : List (Nat × Int)) (lim : Nat) (accept : Nat → Bool) (cl : Nat → Nat) : List (Nat × Int) :=
  (adj.take lim).foldl (fun m e => if accept e.1 then addTo m (cl e.1) e.2 else m) []

end Verif.LP

import Verif.FM.Lemmas

/-! # The invariant of a local search -/

namespace Verif.FM
open Finset Verif.DynMaps Verif.Maps Verif.Delta Verif.Gains

/-- The graph is one the refiner can be called with: symmetric, no self loops, non-negative node weights. -/
structure Ok (c : Cfg) : Prop where
  wf : c.g.WF
  symm : c.g.Symm
  loop : ∀ u, u < c.g.n → c.g.wt u u = 0
  nonneg : ∀ u, u < c.g.n → 0 ≤ c.g.w u

/-- The invariant of a local search that started with partition `p0` and tracker `o0` and now sees the partition
`v`. -/
structure J (c : Cfg) (p0 : Nat → Nat) (o0 : Nat → Int) (v : Nat → Nat) (s : State) (w : Worker) : Prop where
  sinv : SInv c s
  d : ∃ used, Delta.Inv c.g.n c.g.w s.sh.part v w.loc.delta used
  t : ∃ used, LInv c.g c.k s.sh.part v w.loc.tab used
  vlt : ∀ u, u < c.g.n → v u < c.k
  idpos : 1 ≤ w.id
  pq : ∀ b u key, w.pq b u = some key → u < c.g.n ∧ b = s.sh.part u ∧ s.owner u = w.id
  owned : ∀ u, u < c.g.n → s.owner u = w.id → ∃ key, w.pq (s.sh.part u) u = some key
  ent : ∀ u x, w.loc.delta.tab.abs u = some x → u < c.g.n ∧ s.owner u = movedLocally ∧ u ∈ w.seeds ++ w.touched
  mem : ∀ u ∈ w.seeds ++ w.touched, u < c.g.n ∧ o0 u = unlocked
  vals : ∀ u ∈ w.seeds ++ w.touched, s.owner u = w.id ∨ s.owner u = movedLocally ∨ s.owner u = movedGlobally
  changed : ∀ u, s.owner u ≠ o0 u → u ∈ w.seeds ++ w.touched
  id0 : ∀ u, u < c.g.n → o0 u ≠ w.id
  cutS : c.g.cut s.sh.part = c.g.cut p0 - w.best
  cutV : c.g.cut v = c.g.cut p0 - w.cur
  best0 : 0 ≤ w.best
  balS : ∀ b, b < c.k → weight c.g.n c.g.w s.sh.part b ≤ max (weight c.g.n c.g.w p0 b) (c.maxW b)
  balV : ∀ b, b < c.k → weight c.g.n c.g.w v b ≤ max (weight c.g.n c.g.w p0 b) (c.maxW b)
  moved : ∀ u, s.sh.part u ≠ p0 u → s.owner u = movedGlobally ∧ u ∈ w.seeds ++ w.touched

/-- `m` more clears do not overflow the time stamps of the hash maps. -/
def Room (w : Worker) (m : Nat) : Prop := w.loc.delta.tab.stamp + m < 2 ^ 64 ∧ w.loc.tab.stamp + m < 2 ^ 64

section
variable {c : Cfg} {p0 : Nat → Nat} {o0 : Nat → Int} {v : Nat → Nat} {s : State} {w : Worker}

theorem J.view (h : J c p0 o0 v s w) {u : Nat} (ho : s.owner u ≠ movedLocally) : v u = s.sh.part u := by
  obtain ⟨used, hd⟩ := h.d
  have := hd.get u
  cases hab : w.loc.delta.tab.abs u with
  | none => rw [hab] at this; exact this.symm
  | some x => exact absurd (h.ent u x hab).2.1 ho

theorem J.id_ne (h : J c p0 o0 v s w) : w.id ≠ movedLocally ∧ w.id ≠ movedGlobally ∧ w.id ≠ unlocked := by
  have := h.idpos
  unfold movedLocally movedGlobally unlocked
  omega

theorem J.bw (h : J c p0 o0 v s w) {b : Nat} (hb : b < c.k) :
    w.loc.delta.blockWeight s.sh.bw b = weight c.g.n c.g.w v b := by
  obtain ⟨used, hd⟩ := h.d
  unfold Delta.blockWeight
  rw [h.sinv.bw b hb, hd.bw b]
  omega

/-- Only the keys and targets change. -/
theorem J.key (h : J c p0 o0 v s w) {u : Nat} {x : Int} (hx : w.pq (s.sh.part u) u = some x) (key : Int) (t : Nat → Nat) :
    J c p0 o0 v { s with target := t } { w with pq := upd w.pq (s.sh.part u) (upd (w.pq (s.sh.part u)) u (some key)) } := by
  refine { h with
    sinv := ⟨h.sinv.lt, h.sinv.bw, h.sinv.cache⟩, pq := ?_, owned := ?_ }
  · intro b' u' key' hk
    have hk : upd w.pq (s.sh.part u) (upd (w.pq (s.sh.part u)) u (some key)) b' u' = some key' := hk
    rw [upd2] at hk
    split at hk
    · rename_i hc
      rw [hc.1, hc.2]; exact h.pq _ _ _ hx
    · exact h.pq _ _ _ hk
  · intro u' hu' ho
    obtain ⟨k', hk'⟩ := h.owned u' hu' ho
    show ∃ key', upd w.pq (s.sh.part u) (upd (w.pq (s.sh.part u)) u (some key)) (s.sh.part u') u' = some key'
    rw [upd2]
    split
    · exact ⟨_, rfl⟩
    · exact ⟨k', hk'⟩

/-- What stays the same while the neighbours of a moved node are visited. -/
structure Same (s s' : State) (w w' : Worker) : Prop where
  sh : s'.sh = s.sh
  cache : s'.cache = s.cache
  loc : w'.loc = w.loc
  id : w'.id = w.id
  cur : w'.cur = w.cur
  best : w'.best = w.best
  seeds : w'.seeds = w.seeds
  own : ∀ x, s'.owner x = s.owner x ∨ (s.owner x = unlocked ∧ s'.owner x = w.id)

theorem Same.refl (s : State) (w : Worker) : Same s s w w := ⟨rfl, rfl, rfl, rfl, rfl, rfl, rfl, fun _ => Or.inl rfl⟩

theorem Same.trans {s s' s'' : State} {w w' w'' : Worker} (h : Same s s' w w') (h' : Same s' s'' w' w'') : Same s s'' w w'' :=
  ⟨h'.sh.trans h.sh, h'.cache.trans h.cache, h'.loc.trans h.loc, h'.id.trans h.id, h'.cur.trans h.cur,
    h'.best.trans h.best, h'.seeds.trans h.seeds, fun x => by
      rcases h'.own x with h1 | ⟨h1, h2⟩
      · rw [h1]; exact h.own x
      · rcases h.own x with h3 | ⟨h3, _⟩
        · exact Or.inr ⟨by rw [← h3]; exact h1, by rw [h2, h.id]⟩
        · exact Or.inr ⟨h3, by rw [h2, h.id]⟩⟩

theorem J.best (h : J c p0 o0 v s w) {u : Nat} (hu : u < c.g.n) :
    ∃ t gain, findBestDelta? c s w.loc u = some (t, gain) ∧ Best c v u t gain := by
  obtain ⟨used, hd⟩ := h.d
  obtain ⟨used', ht⟩ := h.t
  exact findBestDelta_ok h.sinv.cache h.vlt hd ht hu

theorem J.gain (h : J c p0 o0 v s w) {u a b : Nat} (hu : u < c.g.n) (ha : a < c.k) (hb : b < c.k) :
    ∃ x, deltaGain? s.cache w.loc.tab u a b = some x := by
  obtain ⟨used', ht⟩ := h.t
  exact ⟨_, delta_gain h.sinv.cache ht hu ha hb⟩

/-- The targets stored for the nodes in the queues are blocks. -/
def Targets (c : Cfg) (s : State) (w : Worker) : Prop := ∀ b u key, w.pq b u = some key → s.target u < c.k

theorem retarget_ok (h : J c p0 o0 v s w) (ht : Targets c s w) {u : Nat} (hu : u < c.g.n) {x : Int} (hx : w.pq (s.sh.part u) u = some x) :
    ∃ s' w', retarget? c s w u (s.sh.part u) = some (s', w') ∧ J c p0 o0 v s' w' ∧ Targets c s' w' ∧ Same s s' w w' := by
  obtain ⟨t, gain, h1, h2⟩ := h.best hu
  unfold retarget?
  rw [h1]
  simp only [Option.bind_eq_bind, Option.bind_some, change_ok hx]
  refine ⟨_, _, rfl, h.key hx gain _, ?_, ⟨rfl, rfl, rfl, rfl, rfl, rfl, rfl, fun _ => Or.inl rfl⟩⟩
  intro b' u' key' hk
  have hk : upd w.pq (s.sh.part u) (upd (w.pq (s.sh.part u)) u (some gain)) b' u' = some key' := hk
  show upd s.target u t u' < c.k
  by_cases huu : u' = u
  · rw [huu, upd_same]; exact h2.lt
  · rw [upd_ne _ _ huu]
    rw [upd2, if_neg (by rintro ⟨_, h⟩; exact huu h)] at hk
    exact ht _ _ _ hk

theorem targets_key (ht : Targets c s w) {b u : Nat} {x : Int} (hx : w.pq b u = some x) (key : Int) :
    Targets c s { w with pq := upd w.pq b (upd (w.pq b) u (some key)) } := by
  intro b' u' key' hk
  have hk : upd w.pq b (upd (w.pq b) u (some key)) b' u' = some key' := hk
  rw [upd2] at hk
  split at hk
  · rename_i hc
    rw [hc.2]; exact ht _ _ _ hx
  · exact ht _ _ _ hk

theorem rekey_ok (h : J c p0 o0 v s w) (ht : Targets c s w) {u t : Nat} (hu : u < c.g.n) (htk : t < c.k) {x : Int}
    (hx : w.pq (s.sh.part u) u = some x) :
    ∃ s' w', rekey? s w u (s.sh.part u) t = some (s', w') ∧ J c p0 o0 v s' w' ∧ Targets c s' w' ∧ Same s s' w w' := by
  obtain ⟨gain, h1⟩ := h.gain hu (h.sinv.lt u hu) htk
  unfold rekey?
  rw [h1]
  simp only [Option.bind_eq_bind, Option.bind_some, change_ok hx]
  exact ⟨_, _, rfl, h.key hx gain s.target, targets_key ht hx gain, ⟨rfl, rfl, rfl, rfl, rfl, rfl, rfl, fun _ => Or.inl rfl⟩⟩

theorem better_ok (h : J c p0 o0 v s w) (ht : Targets c s w) {u t m : Nat} (hu : u < c.g.n) (htk : t < c.k) (hm : m < c.k)
    {x : Int} (hx : w.pq (s.sh.part u) u = some x) :
    ∃ s' w', better? c s w u (s.sh.part u) t m = some (s', w') ∧ J c p0 o0 v s' w' ∧ Targets c s' w' ∧ Same s s' w w' := by
  obtain ⟨g1, h1⟩ := h.gain hu (h.sinv.lt u hu) htk
  obtain ⟨g2, h2⟩ := h.gain hu (h.sinv.lt u hu) hm
  unfold better?
  rw [h1, h2]
  simp only [Option.bind_eq_bind, Option.bind_some, change_ok hx]
  split
  · refine ⟨_, _, rfl, h.key hx g2 _, ?_, ⟨rfl, rfl, rfl, rfl, rfl, rfl, rfl, fun _ => Or.inl rfl⟩⟩
    intro b' u' key' hk
    have hk : upd w.pq (s.sh.part u) (upd (w.pq (s.sh.part u)) u (some g2)) b' u' = some key' := hk
    show upd s.target u m u' < c.k
    by_cases huu : u' = u
    · rw [huu, upd_same]; exact hm
    · rw [upd_ne _ _ huu]
      rw [upd2, if_neg (by rintro ⟨_, h⟩; exact huu h)] at hk
      exact ht _ _ _ hk
  · exact ⟨_, _, rfl, h.key hx g1 s.target, targets_key ht hx g1, ⟨rfl, rfl, rfl, rfl, rfl, rfl, rfl, fun _ => Or.inl rfl⟩⟩

theorem update_ok (h : J c p0 o0 v s w) (ht : Targets c s w) {u a b : Nat} (hu : u < c.g.n) (hb : b < c.k)
    (ho : s.owner u = w.id) :
    ∃ s' w', updateAfterMove? c s w u a b = some (s', w') ∧ J c p0 o0 v s' w' ∧ Targets c s' w' ∧ Same s s' w w' := by
  obtain ⟨x, hx⟩ := h.owned u hu ho
  have htk := ht _ _ _ hx
  unfold updateAfterMove?
  simp only
  split
  · split
    · exact rekey_ok h ht hu htk hx
    · exact retarget_ok h ht hu hx
  · split
    · exact retarget_ok h ht hu hx
    · split
      · exact rekey_ok h ht hu htk hx
      · exact better_ok h ht hu htk hb hx

/-- A node that nobody owns is locked and gets a place in a queue. -/
theorem J.lock (h : J c p0 o0 v s w) {u : Nat} (hu : u < c.g.n) (ho : s.owner u = unlocked) (key : Int) (t : Nat → Nat)
    {seeds touched : List Nat} (hm : ∀ x, x ∈ seeds ++ touched ↔ x ∈ w.seeds ++ w.touched ∨ x = u) :
    J c p0 o0 v { s with owner := upd s.owner u w.id, target := t }
      { w with pq := upd w.pq (s.sh.part u) (upd (w.pq (s.sh.part u)) u (some key)), seeds := seeds, touched := touched } := by
  obtain ⟨i1, i2, i3⟩ := h.id_ne
  have ho0 : o0 u = unlocked := by
    by_cases hc : s.owner u = o0 u
    · rw [← hc]; exact ho
    · exact (h.mem u (h.changed u hc)).2
  refine { h with
    sinv := ⟨h.sinv.lt, h.sinv.bw, h.sinv.cache⟩, pq := ?_, owned := ?_, ent := ?_, mem := ?_, vals := ?_, changed := ?_, moved := ?_ }
  · intro b' u' key' hk
    have hk : upd w.pq (s.sh.part u) (upd (w.pq (s.sh.part u)) u (some key)) b' u' = some key' := hk
    rw [upd2] at hk
    show _ ∧ _ ∧ upd s.owner u w.id u' = w.id
    split at hk
    · rename_i hc
      rw [hc.1, hc.2, upd_same]; exact ⟨hu, rfl, rfl⟩
    · obtain ⟨h1, h2, h3⟩ := h.pq _ _ _ hk
      have : u' ≠ u := by rintro rfl; rw [ho] at h3; exact i3 h3.symm
      rw [upd_ne _ _ this]; exact ⟨h1, h2, h3⟩
  · intro u' hu' hown
    show ∃ key', upd w.pq (s.sh.part u) (upd (w.pq (s.sh.part u)) u (some key)) (s.sh.part u') u' = some key'
    rw [upd2]
    split
    · exact ⟨_, rfl⟩
    · rename_i hc
      have : u' ≠ u := by rintro rfl; exact hc ⟨rfl, rfl⟩
      have hown : upd s.owner u w.id u' = w.id := hown
      rw [upd_ne _ _ this] at hown
      exact h.owned u' hu' hown
  · intro u' x hx
    obtain ⟨h1, h2, h3⟩ := h.ent u' x hx
    have : u' ≠ u := by rintro rfl; rw [ho] at h2; exact absurd h2 (by decide)
    refine ⟨h1, ?_, (hm u').2 (Or.inl h3)⟩
    show upd s.owner u w.id u' = _
    rw [upd_ne _ _ this]; exact h2
  · intro x hx
    rcases (hm x).1 hx with hx | rfl
    · exact h.mem x hx
    · exact ⟨hu, ho0⟩
  · intro x hx
    show upd s.owner u w.id x = w.id ∨ upd s.owner u w.id x = _ ∨ upd s.owner u w.id x = _
    by_cases hxu : x = u
    · left; rw [hxu, upd_same]
    · rw [upd_ne _ _ hxu]
      rcases (hm x).1 hx with hx | hx
      · exact h.vals x hx
      · exact absurd hx hxu
  · intro x hx
    apply (hm x).2
    by_cases hxu : x = u
    · exact Or.inr hxu
    · left
      have hx : upd s.owner u w.id x ≠ o0 x := hx
      rw [upd_ne _ _ hxu] at hx
      exact h.changed x hx
  · intro x hx
    obtain ⟨h1, h2⟩ := h.moved x hx
    have : x ≠ u := by rintro rfl; rw [ho] at h1; exact absurd h1 (by decide)
    refine ⟨?_, (hm x).2 (Or.inl h2)⟩
    show upd s.owner u w.id x = _
    rw [upd_ne _ _ this]; exact h1

theorem targets_insert (h : J c p0 o0 v s w) (ht : Targets c s w) {u t : Nat} (htk : t < c.k) (key : Int) :
    ∀ b u' key', upd w.pq (s.sh.part u) (upd (w.pq (s.sh.part u)) u (some key)) b u' = some key' → upd s.target u t u' < c.k := by
  intro b' u' key' hk
  by_cases huu : u' = u
  · rw [huu, upd_same]; exact htk
  · rw [upd_ne _ _ huu]
    rw [upd2, if_neg (by rintro ⟨_, h⟩; exact huu h)] at hk
    exact ht _ _ _ hk

theorem J.pq_none (h : J c p0 o0 v s w) {b u : Nat} (ho : s.owner u ≠ w.id) : w.pq b u = none := by
  cases hp : w.pq b u with
  | none => rfl
  | some key => exact absurd (h.pq b u key hp).2.2 ho

theorem insertDelta_ok (h : J c p0 o0 v s w) (ht : Targets c s w) {u : Nat} (hu : u < c.g.n) (ho : s.owner u = unlocked) :
    ∃ s' w', (insertDelta? c { s with owner := upd s.owner u w.id } w u).map (fun r =>
        (r.1, { r.2 with touched := r.2.touched ++ [u] })) = some (s', w') ∧
      J c p0 o0 v s' w' ∧ Targets c s' w' ∧ Same s s' w w' := by
  obtain ⟨used, hd⟩ := h.d
  obtain ⟨used', ht'⟩ := h.t
  obtain ⟨t, gain, h1, h2⟩ := findBestDelta_ok (s := { s with owner := upd s.owner u w.id }) h.sinv.cache h.vlt hd ht' hu
  have hv : v u = s.sh.part u := h.view (by rw [ho]; decide)
  unfold insertDelta?
  rw [hd.block u]
  simp only [Option.bind_eq_bind, Option.bind_some, h1, hv]
  rw [push_ok (h.pq_none (by rw [ho]; exact Ne.symm h.id_ne.2.2))]
  refine ⟨_, _, rfl, h.lock hu ho gain _ ?_, targets_insert h ht h2.lt gain, ⟨rfl, rfl, rfl, rfl, rfl, rfl, rfl, ?_⟩⟩
  rotate_left
  · intro x
    show upd s.owner u w.id x = s.owner x ∨ _ ∧ upd s.owner u w.id x = w.id
    by_cases hx : x = u
    · right; rw [hx, upd_same]; exact ⟨ho, rfl⟩
    · left; rw [upd_ne _ _ hx]
  intro x
  simp only [List.mem_append, List.mem_singleton]
  constructor
  · rintro (h | h | h)
    · exact Or.inl (Or.inl h)
    · exact Or.inl (Or.inr h)
    · exact Or.inr h
  · rintro ((h | h) | h)
    · exact Or.inl h
    · exact Or.inr (Or.inl h)
    · exact Or.inr (Or.inr h)

theorem visit_ok (h : J c p0 o0 v s w) (ht : Targets c s w) {a b : Nat} (hb : b < c.k) {e : Nat × Int} (he : e.1 < c.g.n) :
    ∃ s' w', visit? c a b (s, w) e = some (s', w') ∧ J c p0 o0 v s' w' ∧ Targets c s' w' ∧ Same s s' w w' := by
  unfold visit?
  simp only
  split
  · rename_i ho
    exact update_ok h ht he hb ho
  · split
    · rename_i ho
      exact insertDelta_ok h ht he ho
    · exact ⟨s, w, rfl, h, ht, Same.refl s w⟩

end

theorem visits_ok {c : Cfg} {p0 : Nat → Nat} {o0 : Nat → Int} {v : Nat → Nat} {a b : Nat} (hb : b < c.k) :
    ∀ (l : List (Nat × Int)) (s : State) (w : Worker), J c p0 o0 v s w → Targets c s w → (∀ e ∈ l, e.1 < c.g.n) →
    ∃ s' w', l.foldlM (visit? c a b) (s, w) = some (s', w') ∧ J c p0 o0 v s' w' ∧ Targets c s' w' ∧ Same s s' w w'
  | [], s, w, h, ht, _ => ⟨s, w, rfl, h, ht, Same.refl s w⟩
  | e :: l, s, w, h, ht, hl => by
    obtain ⟨s1, w1, h1, h2, h3, h4⟩ := visit_ok (a := a) h ht hb (hl e List.mem_cons_self)
    obtain ⟨s2, w2, h5, h6, h7, h8⟩ := visits_ok hb l s1 w1 h2 h3 fun x hx => hl x (List.mem_cons_of_mem _ hx)
    exact ⟨s2, w2, by rw [List.foldlM_cons, h1]; exact h5, h6, h7, h4.trans h8⟩

end Verif.FM

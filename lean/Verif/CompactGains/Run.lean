import Verif.CompactGains.Mem

namespace Verif.CompactGains
open Verif.CompactMap Verif.Math Verif.SparseGains Verif.PrefixSum Verif.Gains

section
variable {g : Graph} {k : Nat} {L : Layout} {size : Nat} {hash : Nat → Bool} {w p : Nat → Nat}

/-- What the theorems need to know about layout and graph. -/
structure Ctx (g : Graph) (k : Nat) (L : Layout) (size : Nat) (hash : Nat → Bool) (w p : Nat → Nat) : Prop where
  lay : Lay g k L size hash w p
  wf : g.WF
  symm : g.Symm
  pos : ∀ u, u < g.n → ∀ e ∈ g.adj u, 0 < e.2

theorem Ctx.allowed (h : Ctx g k L size hash w p) {side : Nat × Nat → Option Nat} (hside : ∀ q b, side q = some b → q.1 < g.n → b < k) :
    Allowed g L hash w p (mv g side) := by
  intro v hv h1 h2
  exact mv_tab h.wf h.symm h.pos (by rw [h.lay.kk]; exact hside) hv (h.lay.room v hv h1 h2) (h.lay.fit v hv h1 h2)

/-- The target of an edge has entries. -/
theorem Ctx.target (h : Ctx g k L size hash w p) {q : Nat × Nat} (h1 : q.1 < g.n) (h2 : q.2 < (g.adj q.1).length)
    (hv : (edge g q).1 < g.n) : 0 < w (edge g q).1 := by
  rcases Nat.eq_zero_or_pos (w (edge g q).1) with h0 | h0
  · exfalso
    have hadj := (h.lay.zero _ hv).1 h0
    have := (inc_perm h.wf h.symm hv).length_eq
    rw [hadj, List.length_map, List.length_nil] at this
    have hm : q ∈ inc g (edge g q).1 := mem_inc.2 ⟨h1, h2, rfl⟩
    rw [List.length_eq_zero_iff.1 this] at hm
    cases hm
  · exact h0

theorem steps_ok (h : Ctx g k L size hash w p) : ∀ (evs : List Step) (side t : Nat × Nat → Option Nat) (mem : Nat → Nat),
    (∀ q b, side q = some b → q.1 < g.n → b < k) → MInv g L hash w p mem (mv g side) → Steps g k side evs t →
    ∃ mem', evs.foldlM (step? g L) mem = some mem' ∧ MInv g L hash w p mem' (mv g t)
  | [], side, t, mem, _, hm, hs => by
    have : side = t := funext hs
    subst this
    exact ⟨mem, rfl, hm⟩
  | e :: es, side, t, mem, hside, hm, ⟨h1, h2, h3, h4, h5⟩ => by
    have hside' : ∀ q b, upd side (key e) (if e.add then some e.block else none) q = some b → q.1 < g.n → b < k := by
      intro q b hq hn
      by_cases hk : q = key e
      · rw [hk, upd_same] at hq
        cases ha : e.add with
        | true => rw [ha] at hq; cases hq; exact (h3 ha).2
        | false => rw [ha] at hq; cases hq
      · rw [upd_ne _ _ hk] at hq; exact hside q b hq hn
    have hget : (g.adj e.u)[e.i]? = some (edge g (key e)) := by
      unfold edge key
      rw [List.getElem?_eq_getElem h2]; rfl
    have hmem : edge g (key e) ∈ g.adj e.u := List.mem_of_getElem? hget
    have w0 := h.pos e.u h1 _ hmem
    have hv := h.wf e.u h1 _ hmem
    have hup := fun v b => mv_upd (g := g) (side := side) (q := key e) h1 h2 (if e.add then some e.block else none) v b
    have hblk : e.block < k := by
      cases ha : e.add with
      | true => exact (h3 ha).2
      | false => exact hside _ _ (h4 ha) h1
    have hstep : ∃ mem', step? g L mem e = some mem' ∧
        MInv g L hash w p mem' (mv g (upd side (key e) (if e.add then some e.block else none))) := by
      unfold step?
      rw [hget]
      simp only [Option.bind_some]
      refine change_ok h.lay e.add hm (h.allowed hside) (h.allowed hside') hv (h.target (q := key e) h1 h2 hv) hblk w0 ?_ ?_
      · cases ha : e.add with
        | true => rw [ha] at hup; rw [if_pos rfl] at hup ⊢; rw [hup, (h3 ha).1]; simp
        | false =>
          rw [ha] at hup
          rw [if_neg (by decide)] at hup ⊢
          rw [hup, h4 ha]; simp
      · intro v' b' hne
        have : ∀ c, ¬ ((edge g (key e)).1 = v' ∧ some c = some b') ∨ c ≠ e.block := by
          intro c
          by_cases hc : c = e.block
          · left
            rintro ⟨r1, r2⟩
            have r2 := Option.some.inj r2
            rcases hne with hne | hne
            · exact hne r1.symm
            · exact hne (by rw [← r2, hc])
          · exact Or.inr hc
        have hno : ¬ ((edge g (key e)).1 = v' ∧ some e.block = some b') := by
          rcases this e.block with h | h
          · exact h
          · exact absurd rfl h
        cases ha : e.add with
        | true => rw [ha] at hup; rw [if_pos rfl] at hup ⊢; rw [hup, (h3 ha).1, if_neg hno]; simp
        | false =>
          rw [ha] at hup
          rw [if_neg (by decide)] at hup ⊢
          rw [hup, h4 ha, if_neg hno]; simp
    obtain ⟨c1, e1, e2⟩ := hstep
    obtain ⟨c2, f1, f2⟩ := steps_ok h es _ t c1 hside' e2 h5
    exact ⟨c2, by rw [List.foldlM_cons, e1]; exact f1, f2⟩

/-! ## Initialisation -/

theorem Ctx.allowed_prefix (h : Ctx g k L size hash w p) {part : Nat → Nat} (hpart : ∀ u, u < g.n → part u < k)
    {ls : Nat → List (Nat × Int)} (hls : ∀ v, v < g.n → ls v <+: full g part v) : Allowed g L hash w p fun v => blockSum (ls v) := by
  intro v hv ht hw
  have hpos : ∀ e ∈ full g part v, e.1 < k ∧ 0 < e.2 := by
    intro e he
    unfold full at he
    obtain ⟨x, hx, rfl⟩ := List.mem_map.1 he
    exact ⟨hpart _ (h.wf v hv x hx), h.pos v hv x hx⟩
  refine ⟨ls v, ?_, ?_, ?_, fun _ => rfl⟩
  · have h1 := (hls v hv).length_le
    unfold full at h1
    rw [List.length_map] at h1
    have h2 := h.lay.room v hv ht hw
    omega
  · intro e he
    rw [h.lay.kk]
    exact hpos e ((hls v hv).subset he)
  · have h1 := sum_prefix (hls v hv) fun e he => (hpos e he).2
    have h2 := h.lay.fit v hv ht hw
    have h3 : ((full g part v).map Prod.snd).sum = wdegOf g v := by
      unfold full wdegOf
      rw [List.map_map]; rfl
    omega

theorem recompute_edges (h : Ctx g k L size hash w p) {part : Nat → Nat} (hpart : ∀ u, u < g.n → part u < k) {u : Nat} (hu : u < g.n) :
    ∀ (rest : List (Nat × Int)) (mem : Nat → Nat) (ls : Nat → List (Nat × Int)), (∀ v, v < g.n → ls v <+: full g part v) →
    ls u ++ rest.map (fun e => (part e.1, e.2)) = full g part u → (∀ e ∈ rest, e ∈ g.adj u) →
    MInv g L hash w p mem (fun v => blockSum (ls v)) →
    ∃ mem', rest.foldlM (fun mem e => change? true L mem u (part e.1) (toUnsigned L.W e.2)) mem = some mem' ∧
      MInv g L hash w p mem' (fun v => blockSum (upd ls u (full g part u) v))
  | [], mem, ls, _, h2, _, h4 => by
    rw [List.map_nil, List.append_nil] at h2
    refine ⟨mem, rfl, ?_⟩
    have : upd ls u (full g part u) = ls := by
      funext v
      by_cases hv : v = u
      · subst hv; rw [upd_same, h2]
      · rw [upd_ne _ _ hv]
    rw [this]; exact h4
  | e :: rest, mem, ls, h1, h2, h3, h4 => by
    have he := h3 e List.mem_cons_self
    have w0 := h.pos u hu e he
    have hw : 0 < w u := by
      rcases Nat.eq_zero_or_pos (w u) with h0 | h0
      · rw [(h.lay.zero u hu).1 h0] at he; cases he
      · exact h0
    have hconv : ((toUnsigned L.W e.2 : Nat) : Int) = e.2 := by
      apply toUnsigned_pos w0
      have h5 := edge_le (h.pos u hu) e he
      have h6 := h.lay.fitW u hu
      unfold wdegOf at h6
      have h7 : (2 : Int) ^ (L.W - 1) ≤ 2 ^ L.W := by
        exact_mod_cast Nat.pow_le_pow_right (by decide : 0 < 2) (Nat.sub_le L.W 1)
      omega
    have h2' : (ls u ++ [(part e.1, e.2)]) ++ rest.map (fun e => (part e.1, e.2)) = full g part u := by
      rw [List.append_assoc]; exact h2
    have h1' : ∀ v, v < g.n → upd ls u (ls u ++ [(part e.1, e.2)]) v <+: full g part v := by
      intro v hv
      by_cases hvu : v = u
      · subst hvu; rw [upd_same]; exact ⟨_, h2'⟩
      · rw [upd_ne _ _ hvu]; exact h1 v hv
    obtain ⟨c, a1, a2⟩ := change_ok h.lay true h4 (h.allowed_prefix hpart h1) (h.allowed_prefix hpart h1') hu hw
      (b := part e.1) (x := e.2) (hpart _ (h.wf u hu e he)) w0
      (by show blockSum (upd ls u _ u) _ = blockSum (ls u) _ + _
          rw [upd_same, blockSum_snoc, if_pos rfl])
      (by
        intro v' b' hne
        show blockSum (upd ls u _ v') b' = blockSum (ls v') b'
        by_cases hv : v' = u
        · subst hv
          rw [upd_same, blockSum_snoc, if_neg, Int.add_zero]
          rcases hne with hne | hne
          · exact absurd rfl hne
          · exact Ne.symm hne
        · rw [upd_ne _ _ hv])
    obtain ⟨mem', b1, b2⟩ := recompute_edges h hpart hu rest c
      (upd ls u (ls u ++ [(part e.1, e.2)])) h1' (by rw [upd_same]; exact h2')
      (fun x hx => h3 x (List.mem_cons_of_mem _ hx)) a2
    refine ⟨mem', ?_, ?_⟩
    · rw [List.foldlM_cons, hconv, a1]
      exact b1
    · have : upd (upd ls u (ls u ++ [(part e.1, e.2)])) u (full g part u) = upd ls u (full g part u) := by
        funext v
        by_cases hv : v = u
        · subst hv; rw [upd_same, upd_same]
        · rw [upd_ne _ _ hv, upd_ne _ _ hv, upd_ne _ _ hv]
      rw [this] at b2
      exact b2

theorem recompute_all (h : Ctx g k L size hash w p) {part : Nat → Nat} (hpart : ∀ u, u < g.n → part u < k) :
    ∀ (order : List Nat) (mem : Nat → Nat) (ls : Nat → List (Nat × Int)), (∀ u ∈ order, u < g.n) → order.Nodup →
    (∀ u ∈ order, ls u = []) → (∀ v, v < g.n → v ∉ order → ls v = full g part v) →
    MInv g L hash w p mem (fun v => blockSum (ls v)) →
    ∃ mem', order.foldlM (recompute? L g part) mem = some mem' ∧
      ∃ ls' : Nat → List (Nat × Int), MInv g L hash w p mem' (fun v => blockSum (ls' v)) ∧ ∀ v, v < g.n → ls' v = full g part v
  | [], mem, ls, _, _, _, h4, h5 => ⟨mem, rfl, ls, h5, fun v hv => h4 v hv (by simp)⟩
  | u :: order, mem, ls, h1, h2, h3, h4, h5 => by
    obtain ⟨hn1, hn2⟩ := List.nodup_cons.1 h2
    have hu := h1 u List.mem_cons_self
    have hlu := h3 u List.mem_cons_self
    have hpre : ∀ v, v < g.n → ls v <+: full g part v := by
      intro v hv
      by_cases hm : v ∈ u :: order
      · rw [h3 v hm]; exact List.nil_prefix
      · rw [h4 v hv hm]
    obtain ⟨m1, a1, a2⟩ := recompute_edges h hpart hu (g.adj u) mem ls hpre (by rw [hlu]; rfl) (fun _ h => h) h5
    obtain ⟨m2, b1, b2⟩ := recompute_all h hpart order m1 (upd ls u (full g part u))
      (fun x hx => h1 x (List.mem_cons_of_mem _ hx)) hn2
      (by
        intro x hx
        have : x ≠ u := by rintro rfl; exact hn1 hx
        rw [upd_ne _ _ this]
        exact h3 x (List.mem_cons_of_mem _ hx))
      (by
        intro v hv hm
        by_cases hvu : v = u
        · subst hvu; rw [upd_same]
        · rw [upd_ne _ _ hvu]
          exact h4 v hv (by simp [hvu, hm]))
      a2
    exact ⟨m2, by rw [List.foldlM_cons]; unfold recompute?; rw [a1]; exact b1, b2⟩

theorem MInv.congr {mem : Nat → Nat} {M M' : Nat → Nat → Int} (h : MInv g L hash w p mem M)
    (he : ∀ v b, v < g.n → M' v b = M v b) : MInv g L hash w p mem M' := by
  refine ⟨?_, ?_⟩
  · intro v hv h1 h2
    have : (fun b => (M' v b).toNat) = fun b => (M v b).toNat := by
      funext b; rw [he v b hv]
    rw [this]; exact h.tab v hv h1 h2
  · intro v b h1 h2 h3 h4
    rw [he v b h1]; exact h.full v b h1 h2 h3 h4

theorem readE_zero {mem : Nat → Nat} : ∀ (n a : Nat), (∀ i, i < n → mem (a + i) = 0) → readE mem a n = 0
  | 0, _, _ => rfl
  | n + 1, a, h => by
    show mem a + 256 * readE mem (a + 1) n = 0
    have h0 := h 0 (by omega)
    rw [Nat.add_zero] at h0
    rw [h0, readE_zero n (a + 1) fun i hi => by
      have := h (i + 1) (by omega)
      rw [show a + (i + 1) = a + 1 + i by omega] at this
      exact this]

theorem minv_zero (h : Lay g k L size hash w p) (old : Nat → Nat) :
    MInv g L hash w p (fun a => if a < size then 0 else old a) fun _ => blockSum [] := by
  have hz : ∀ v i, v < g.n → i < (if hash v then 2 ^ p v else k) →
      win (fun a => if a < size then 0 else old a) (L.off v) (w v) i = 0 := by
    intro v i hv hi
    unfold win
    apply readE_zero
    intro j hj
    have h1 := h.len v hv
    have h2 := h.last v hv
    have h3 : (i + 1) * w v ≤ (if hash v then 2 ^ p v else k) * w v := Nat.mul_le_mul_right _ hi
    rw [Nat.add_mul, Nat.one_mul] at h3
    exact if_pos (by omega)
  refine ⟨?_, ?_⟩
  · intro v hv h1 _
    refine SparseGains.Inv.congr (Inv.new _) ?_
    intro i hi
    exact hz v i hv (by rw [h1]; exact hi)
  · intro v b hv h1 _ hb
    rw [hz v b hv (by rw [h1, ← h.kk]; exact hb)]
    simp [blockSum]

/-! ## Lookups -/

theorem toWeight_small {W x : Nat} {c : Int} (h0 : 0 ≤ c) (hc : c < 2 ^ (W - 1)) (hx : (x : Int) = c) : toWeight W x = c := by
  have h1 : (x : Int) < ((2 ^ (W - 1) : Nat) : Int) := by push_cast; omega
  have h1 : x < 2 ^ (W - 1) := by exact_mod_cast h1
  have h2 : x < 2 ^ W := Nat.lt_of_lt_of_le h1 (Nat.pow_le_pow_right (by decide) (Nat.sub_le _ _))
  unfold toWeight toSigned
  rw [Nat.mod_eq_of_lt h2, if_pos h1, hx]

theorem connZero (h : Ctx g k L size hash w p) {u : Nat} (hu : u < g.n) (h0 : w u = 0) (part : Nat → Nat) (b : Nat) :
    (g.conn u fun v => part v = b) = 0 := by
  rw [conn_block, (h.lay.zero u hu).1 h0]; rfl

theorem connHash_ok (h : Ctx g k L size hash w p) {part : Nat → Nat} {mem : Nat → Nat} (hM : Allowed g L hash w p fun v b => g.conn v fun u => part u = b)
    (hm : MInv g L hash w p mem fun v b => g.conn v fun u => part u = b) {u b : Nat} (hu : u < g.n) (hb : b < k) (hh : hash u = true) :
    connHash? L mem u b = some (g.conn u fun v => part v = b) := by
  obtain ⟨c0, c1⟩ := conn_le_wdeg (h.pos u hu) part b
  have c2 := h.lay.fitW u hu
  unfold connHash?
  rcases Nat.eq_zero_or_pos (w u) with hw | hw
  · rw [h.lay.tab0 u hu hh hw, connZero h hu hw]; rfl
  · obtain ⟨sz, t1, t2⟩ := h.lay.tab u hu hh hw
    rw [t1]
    simp only [Option.bind_some]
    rw [t2]
    have hbits := h.lay.bits u hu hh hw
    have hkey : b % 2 ^ (8 * w u) = b := by
      apply Nat.mod_eq_of_lt
      have := h.lay.kbits
      have := Nat.pow_le_pow_right (by decide : 0 < 2) hbits
      omega
    have := get_ok (c := cfg L w p u) hbits (hm.tab u hu hh hw) b (Or.inl rfl)
    rw [hkey]
    show Option.map _ ((cfg L w p u).get? _ _) = _
    rw [this, Option.map_some, toWeight_small c0 (by omega) (by omega)]

theorem connFull_ok (h : Ctx g k L size hash w p) {part : Nat → Nat} {mem : Nat → Nat}
    (hm : MInv g L hash w p mem fun v b => g.conn v fun u => part u = b) {u b : Nat} (hu : u < g.n) (hb : b < k) (hh : hash u = false) :
    connFull? L mem u b = some (g.conn u fun v => part v = b) := by
  obtain ⟨c0, c1⟩ := conn_le_wdeg (h.pos u hu) part b
  have c2 := h.lay.fitW u hu
  unfold connFull?
  rcases Nat.eq_zero_or_pos (w u) with hw | hw
  · rw [h.lay.full0 u hu hh hw, connZero h hu hw]; rfl
  · rw [h.lay.full u hu hh hw]
    have h1 := hm.full u b hu hh hw (by rw [h.lay.kk]; exact hb)
    have h2 := h.lay.fitFull u hu hh hw
    rw [Int.emod_eq_of_lt c0 (by omega)] at h1
    simp only [Option.map_some]
    rw [toWeight_small c0 (by omega) h1]

theorem conn_ok (h : Ctx g k L size hash w p) {part : Nat → Nat} {mem : Nat → Nat} (hM : Allowed g L hash w p fun v b => g.conn v fun u => part u = b)
    (hm : MInv g L hash w p mem fun v b => g.conn v fun u => part u = b) {u b : Nat} (hu : u < g.n) (hb : b < k) :
    conn? L mem u b = some (g.conn u fun v => part v = b) := by
  unfold conn?
  rw [h.lay.use u hu]
  simp only [Option.bind_some]
  cases hh : hash u with
  | true => rw [if_pos rfl]; exact connHash_ok h hM hm hu hb hh
  | false => rw [if_neg (by decide)]; exact connFull_ok h hm hu hb hh

/-- The entries of a table, each adjacent block once. -/
theorem entries_ok (h : Ctx g k L size hash w p) {part : Nat → Nat} {mem : Nat → Nat} (hM : Allowed g L hash w p fun v b => g.conn v fun u => part u = b)
    (hm : MInv g L hash w p mem fun v b => g.conn v fun u => part u = b) {u : Nat} (hu : u < g.n) (hh : hash u = true) :
    ∃ es, entries? L mem u = some es ∧ (es.map Prod.fst).Nodup ∧
      (∀ e ∈ es, e.1 < k ∧ e.2 = g.conn u (fun v => part v = e.1) ∧ 0 < e.2) ∧
      ∀ b, 0 < g.conn u (fun v => part v = b) → ∃ e ∈ es, e.1 = b := by
  unfold entries?
  rcases Nat.eq_zero_or_pos (w u) with hw | hw
  · rw [h.lay.tab0 u hu hh hw]
    refine ⟨[], rfl, List.nodup_nil, fun _ h => (nomatch h), ?_⟩
    intro b hb
    rw [connZero h hu hw] at hb
    omega
  · obtain ⟨sz, t1, t2⟩ := h.lay.tab u hu hh hw
    rw [t1]
    simp only [Option.map_some]
    rw [t2]
    refine ⟨_, rfl, ?_⟩
    have hinv := hm.tab u hu hh hw
    obtain ⟨f1, f2, _⟩ := forEach_ok (c := cfg L w p u) (h.lay.bits u hu hh hw) hinv
    have hsg : ∀ b, toWeight L.W (g.conn u fun v => part v = b).toNat = g.conn u fun v => part v = b := by
      intro b
      obtain ⟨c0, c1⟩ := conn_le_wdeg (h.pos u hu) part b
      have c2 := h.lay.fitW u hu
      exact toWeight_small c0 (by omega) (by omega)
    change (((((cfg L w p u).forEach (win mem (L.off u) (w u))).map fun e => (e.1, toWeight L.W e.2)).map Prod.fst).Nodup ∧
      (∀ e ∈ ((cfg L w p u).forEach (win mem (L.off u) (w u))).map fun e => (e.1, toWeight L.W e.2),
        e.1 < k ∧ e.2 = g.conn u (fun v => part v = e.1) ∧ 0 < e.2) ∧
      ∀ b, 0 < g.conn u (fun v => part v = b) →
        ∃ e ∈ ((cfg L w p u).forEach (win mem (L.off u) (w u))).map fun e => (e.1, toWeight L.W e.2), e.1 = b)
    generalize (cfg L w p u).forEach (win mem (L.off u) (w u)) = fe at f1 f2
    refine ⟨?_, ?_, ?_⟩
    · rw [List.map_map]; exact f1
    · intro e he
      obtain ⟨x, hx, rfl⟩ := List.mem_map.1 he
      obtain ⟨g1, g2⟩ := (f2 x.1 x.2).1 hx
      rw [← g2] at g1
      have g3 : 0 < g.conn u fun v => part v = x.1 := by omega
      refine ⟨?_, ?_, ?_⟩
      · rw [← h.lay.kk]; exact (hM u hu hh hw).lt (b := x.1) (Int.ne_of_gt g3)
      · simp only [← g2, hsg]
      · simp only [← g2, hsg]; exact g3
    · intro b hb
      exact ⟨_, List.mem_map.2 ⟨(b, (g.conn u fun v => part v = b).toNat), (f2 _ _).2 ⟨by omega, rfl⟩, rfl⟩, rfl⟩

/-- What the buffer holds after all entries were set. -/
theorem buffer_ok {C : Nat → Int} (h0 : ∀ b, 0 ≤ C b) : ∀ (l : List (Nat × Int)) (m : Nat → Int), (∀ e ∈ l, e.2 = C e.1) →
    (∀ b, m b = C b ∨ m b = 0 ∧ (0 < C b → ∃ e ∈ l, e.1 = b)) → ∀ b, l.foldl (fun (m : Nat → Int) e => upd m e.1 e.2) m b = C b
  | [], m, _, hm, b => by
    rcases hm b with h1 | ⟨h1, h2⟩
    · exact h1
    · have := h0 b
      rcases Int.lt_or_eq_of_le this with h3 | h3
      · obtain ⟨e, he, _⟩ := h2 h3; nomatch he
      · show m b = _
        rw [h1]; exact h3
  | e :: l, m, h1, h2, b => by
    rw [List.foldl_cons]
    apply buffer_ok h0
    · exact fun x hx => h1 x (List.mem_cons_of_mem _ hx)
    · intro c
      by_cases hce : c = e.1
      · rw [hce, upd_same]; exact Or.inl (h1 e List.mem_cons_self)
      · rw [upd_ne _ _ hce]
        rcases h2 c with h3 | ⟨h3, h4⟩
        · exact Or.inl h3
        · refine Or.inr ⟨h3, fun h5 => ?_⟩
          obtain ⟨x, hx, hx2⟩ := h4 h5
          rcases List.mem_cons.1 hx with rfl | hx
          · exact absurd hx2.symm hce
          · exact ⟨x, hx, hx2⟩

theorem mapM_some' {α β : Type} {f : α → Option β} {r : α → β} : ∀ (l : List α), (∀ x ∈ l, f x = some (r x)) → l.mapM f = some (l.map r)
  | [], _ => rfl
  | x :: l, h => by
    rw [List.mapM_cons, h x List.mem_cons_self, mapM_some' l fun y hy => h y (List.mem_cons_of_mem _ hy)]
    rfl

theorem gains_ok (h : Ctx g k L size hash w p) {part : Nat → Nat} {mem : Nat → Nat} (hM : Allowed g L hash w p fun v b => g.conn v fun u => part u = b)
    (hm : MInv g L hash w p mem fun v b => g.conn v fun u => part u = b) {u a : Nat} (hu : u < g.n) (ha : a < k) (exact : Bool) :
    gains? true exact L mem u a = some (gainsSpec g part k exact u a) ∧
    ∃ l, gains? false exact L mem u a = some l ∧
      l.Perm ((gainsSpec g part k exact u a).filter fun e => g.conn u (fun v => part v = e.1) > 0) := by
  have hfilt : (gainsSpec g part k exact u a).filter (fun e => g.conn u (fun v => part v = e.1) > 0) =
      (List.range k).filterMap fun b => if a = b then none else if g.conn u (fun v => part v = b) > 0 then
        some (b, g.conn u (fun v => part v = b) - if exact then g.conn u (fun v => part v = a) else 0) else none := by
    unfold gainsSpec
    rw [List.filter_filterMap]
    apply List.filterMap_congr
    intro b _
    by_cases hab : a = b
    · rw [if_pos hab, if_pos hab.symm]; rfl
    · rw [if_neg hab, if_neg (Ne.symm hab)]
      simp [Option.filter]
  rw [hfilt]
  unfold gains?
  rw [h.lay.use u hu]
  simp only [Option.bind_some]
  have h0 : ∀ b, 0 ≤ g.conn u fun v => part v = b := fun b => (conn_le_wdeg (h.pos u hu) part b).1
  cases hh : hash u with
  | false =>
    simp only [Bool.false_eq_true, if_false]
    have hcf : (if exact = true then connFull? L mem u a else some 0) = some (if exact then g.conn u fun v => part v = a else 0) := by
      cases exact with
      | true => exact connFull_ok h hm hu ha hh
      | false => rfl
    have hcs := mapM_some' (f := fun b => (connFull? L mem u b).map fun c => (b, c)) (r := fun b => (b, g.conn u fun v => part v = b)) (List.range L.k)
      (by
        intro b hb
        rw [h.lay.kk] at hb
        rw [connFull_ok h hm hu (List.mem_range.1 hb) hh]; rfl)
    rw [hcf, hcs, h.lay.kk]
    simp only [Option.bind_some, Option.map_some, List.filterMap_map]
    constructor
    · unfold gainsSpec
      congr 1
      apply List.filterMap_congr
      intro b _
      simp only [Function.comp]
      by_cases hab : a = b
      · rw [if_pos hab, if_pos hab.symm]
      · rw [if_neg hab, if_neg (Ne.symm hab)]; rfl
    · refine ⟨_, rfl, List.Perm.of_eq ?_⟩
      apply List.filterMap_congr
      intro b _
      simp only [Function.comp]
  | true =>
    simp only [if_true]
    have hcf : (if exact = true then connHash? L mem u a else some 0) = some (if exact then g.conn u fun v => part v = a else 0) := by
      cases exact with
      | true => exact connHash_ok h hM hm hu ha hh
      | false => rfl
    obtain ⟨es, e1, e2, e3, e4⟩ := entries_ok h hM hm hu hh
    rw [hcf, e1]
    simp only [Option.bind_some, Option.map_some]
    constructor
    · have hbuf := buffer_ok (C := fun b => g.conn u fun v => part v = b) h0 es (fun _ => 0) (fun e he => (e3 e he).2.1) (fun b => Or.inr ⟨rfl, e4 b⟩)
      unfold gainsSpec
      rw [h.lay.kk]
      congr 1
      apply List.filterMap_congr
      intro b hb
      rw [hbuf b]
      by_cases hab : a = b
      · rw [if_neg (by simpa using hab), if_pos hab.symm]
      · rw [if_pos hab, if_neg (Ne.symm hab)]
    · refine ⟨_, rfl, ?_⟩
      rw [if_neg (by decide)]
      have key : es.filterMap (fun e : Nat × Int => if e.1 ≠ a then some (e.1, e.2 -
            if exact = true then g.conn u fun v => part v = a else 0) else none) =
          (es.map Prod.fst).filterMap fun b => if a = b then none else if g.conn u (fun v => part v = b) > 0 then
        some (b, g.conn u (fun v => part v = b) - if exact then g.conn u (fun v => part v = a) else 0) else none := by
        rw [List.filterMap_map]
        apply List.filterMap_congr
        intro e he
        obtain ⟨_, g1, g2⟩ := e3 e he
        rw [g1] at g2
        simp only [Function.comp, g1]
        by_cases hea : a = e.1
        · rw [if_neg (by simpa using hea.symm), if_pos hea]
        · rw [if_pos (Ne.symm hea), if_neg hea, if_pos g2]
      rw [key]
      have hperm : (es.map Prod.fst).Perm ((List.range k).filter fun b => 0 < g.conn u fun v => part v = b) := by
        rw [List.perm_ext_iff_of_nodup e2 (List.nodup_range.filter _)]
        intro b
        rw [List.mem_filter, List.mem_map, List.mem_range, decide_eq_true_eq]
        constructor
        · rintro ⟨e, he, rfl⟩
          obtain ⟨g0, g1, g2⟩ := e3 e he
          exact ⟨g0, by rw [← g1]; exact g2⟩
        · rintro ⟨_, h2⟩
          exact e4 b h2
      refine (hperm.filterMap _).trans (List.Perm.of_eq ?_)
      rw [List.filterMap_filter]
      apply List.filterMap_congr
      intro b _
      by_cases hb : 0 < g.conn u fun v => part v = b
      · rw [if_pos (by simpa using hb)]
      · rw [if_neg (by simpa using hb)]
        by_cases hab : a = b
        · rw [if_pos hab]
        · rw [if_neg hab, if_neg hb]

end

end Verif.CompactGains

import Verif.SparseGains.LayoutLemmas
import Verif.CompactMap.Props

namespace Verif.SparseGains
open Verif.CompactMap Verif.Math

/-! # Tables as windows of the array -/

theorem slot_congr {c : Cfg} {data data' : Nat → Nat} {i : Nat} (h : data' i = data i) : c.slot data' i = c.slot data i := by
  unfold Cfg.slot; rw [h]

theorem Inv.congr {c : Cfg} {data data' m : Nat → Nat} (h : Inv c data m) (he : ∀ i, i < c.M → data' i = data i) :
    Inv c data' m := by
  refine ⟨⟨?_, ?_⟩, ⟨h.probing.start, ?_, ?_⟩, ?_⟩
  · intro i hi hne
    rw [he i hi] at hne ⊢
    exact h.rep.fwd i hi hne
  · intro k hk
    obtain ⟨h1, i, hi, h2⟩ := h.rep.bwd k hk
    exact ⟨h1, i, hi, by rw [he i hi]; exact h2⟩
  · intro i j k hi hj h1 h2
    rw [slot_congr (he i hi)] at h1
    rw [slot_congr (he j hj)] at h2
    exact h.probing.uniq i j k hi hj h1 h2
  · intro i k hi h1 d hd
    rw [slot_congr (he i hi)] at h1
    have hlt : (c.hash k + d) % c.M < c.M := Nat.mod_lt _ (M_pos c)
    rw [slot_congr (he _ hlt)]
    exact h.probing.path i k hi h1 d hd
  · obtain ⟨cut, h1, h2⟩ := h.cut
    refine ⟨cut, h1, ?_⟩
    intro i hi hne h0
    rw [he i hi] at h0 ⊢
    exact h2 i hi hne h0

theorem findLoop_lt {c : Cfg} {data : Nat → Nat} {key : Nat} : ∀ (fuel pos : Nat) {r : Nat × Nat}, pos < c.M →
    c.findLoop data key fuel pos = some r → r.1 < c.M
  | 0, pos, r, _, h => by cases h
  | fuel + 1, pos, r, hp, h => by
    unfold Cfg.findLoop at h
    simp only at h
    split at h
    · exact findLoop_lt fuel _ (hash_lt c _) h
    · cases h; exact hp

theorem eraseLoop_frame {c : Cfg} {start : Nat} : ∀ (fuel : Nat) (data : Nat → Nat) (hole cur : Nat) {r : (Nat → Nat) × Nat},
    hole < c.M → c.eraseLoop start fuel data hole cur = some r → r.2 < c.M ∧ ∀ i, c.M ≤ i → r.1 i = data i
  | 0, _, _, _, r, _, h => by cases h
  | fuel + 1, data, hole, cur, r, hh, h => by
    unfold Cfg.eraseLoop at h
    simp only at h
    by_cases hm : data (c.hash (cur + 1)) = 0 ∨ c.movable (c.decodeKey (data (c.hash (cur + 1)))) (c.hash (cur + 1)) hole = true
    · rw [if_pos hm] at h
      simp only at h
      have hfr : ∀ i, c.M ≤ i → upd data hole (data (c.hash (cur + 1))) i = data i :=
        fun i hi => upd_ne _ _ (by omega)
      split at h
      · obtain ⟨h1, h2⟩ := eraseLoop_frame fuel _ _ _ (hash_lt c _) h
        exact ⟨h1, fun i hi => (h2 i hi).trans (hfr i hi)⟩
      · cases h; exact ⟨hash_lt c _, hfr⟩
    · rw [if_neg hm] at h
      simp only at h
      split at h
      · exact eraseLoop_frame fuel _ _ _ hh h
      · cases h; exact ⟨hh, fun _ _ => rfl⟩

/-- The calls change no entry outside of the table. -/
theorem op_frame {c : Cfg} {data : Nat → Nat} {op : Op} {r : (Nat → Nat) × Bool} (h : c.op data op = some r) :
    ∀ i, c.M ≤ i → r.1 i = data i := by
  intro i hi
  cases op with
  | inc key value =>
    have h : c.increaseBy? data key value = some r := h
    unfold Cfg.increaseBy? at h
    cases hf : c.find? data key with
    | none => rw [hf] at h; cases h
    | some pe =>
      rw [hf] at h
      have hp := findLoop_lt _ _ (hash_lt c key) hf
      cases h
      exact upd_ne _ _ (by omega)
  | dec key value =>
    have h : c.decreaseBy? data key value = some r := h
    unfold Cfg.decreaseBy? at h
    cases hf : c.find? data key with
    | none => rw [hf] at h; cases h
    | some pe =>
      rw [hf] at h
      have hp := findLoop_lt _ _ (hash_lt c key) hf
      simp only [Option.bind_eq_bind, Option.bind_some] at h
      split at h
      · cases h
        exact upd_ne _ _ (by omega)
      · cases he : c.eraseLoop pe.1 c.M data pe.1 pe.1 with
        | none => rw [he] at h; cases h
        | some q =>
          rw [he] at h
          obtain ⟨h1, h2⟩ := eraseLoop_frame _ _ _ _ hp he
          cases h
          show (if c.full then upd q.1 q.2 0 else q.1) i = _
          split
          · rw [upd_ne _ _ (by omega)]; exact h2 i hi
          · exact h2 i hi

/-! ## Blocks and weights in a table -/

/-- Total weight listed for a block. -/
def blockSum (l : List (Nat × Int)) (b : Nat) : Int := (l.map fun e => if e.1 = b then e.2 else 0).sum

/-- `M` is the content of a table that is allowed: it comes from at most `room` edges of positive weight. -/
def TabOk (k room : Nat) (bound : Int) (M : Nat → Int) : Prop :=
  ∃ l : List (Nat × Int), l.length ≤ room ∧ (∀ e ∈ l, e.1 < k ∧ 0 < e.2) ∧ (l.map Prod.snd).sum < bound ∧ ∀ b, M b = blockSum l b

theorem blockSum_nonneg : ∀ (l : List (Nat × Int)), (∀ e ∈ l, 0 < e.2) → ∀ b, 0 ≤ blockSum l b ∧ blockSum l b ≤ (l.map Prod.snd).sum
  | [], _, b => by simp [blockSum]
  | e :: l, h, b => by
    have he := h e List.mem_cons_self
    have ih := blockSum_nonneg l (fun x hx => h x (List.mem_cons_of_mem _ hx)) b
    unfold blockSum at ih ⊢
    rw [List.map_cons, List.sum_cons, List.map_cons, List.sum_cons]
    split <;> omega

theorem blockSum_ne {l : List (Nat × Int)} {b : Nat} (h : blockSum l b ≠ 0) : b ∈ l.map Prod.fst := by
  induction l with
  | nil => simp [blockSum] at h
  | cons e l ih =>
    unfold blockSum at h ih
    rw [List.map_cons, List.sum_cons] at h
    by_cases he : e.1 = b
    · rw [← he]; exact List.mem_cons_self
    · rw [if_neg he, Int.zero_add] at h
      exact List.mem_cons_of_mem _ (ih h)

theorem TabOk.nonneg {k room : Nat} {bound : Int} {M : Nat → Int} (h : TabOk k room bound M) (b : Nat) : 0 ≤ M b ∧ M b < bound := by
  obtain ⟨l, _, h2, h3, h4⟩ := h
  have := blockSum_nonneg l (fun e he => (h2 e he).2) b
  rw [h4]; omega

theorem TabOk.live {k room : Nat} {bound : Int} {M : Nat → Int} (h : TabOk k room bound M) :
    LiveAtMost room fun b => (M b).toNat := by
  obtain ⟨l, h1, h2, h3, h4⟩ := h
  refine ⟨l.map Prod.fst, by rw [List.length_map]; exact h1, ?_⟩
  intro b hb
  simp only [h4] at hb
  exact blockSum_ne (by omega)

theorem TabOk.lt {k room : Nat} {bound : Int} {M : Nat → Int} (h : TabOk k room bound M) {b : Nat} (hb : M b ≠ 0) : b < k := by
  obtain ⟨l, h1, h2, h3, h4⟩ := h
  rw [h4] at hb
  obtain ⟨e, he, h5⟩ := List.mem_map.1 (blockSum_ne hb)
  rw [← h5]; exact (h2 e he).1

theorem TabOk.congr {k room : Nat} {bound : Int} {M M' : Nat → Int} (h : TabOk k room bound M) (he : ∀ b, M' b = M b) :
    TabOk k room bound M' := by
  obtain ⟨l, h1, h2, h3, h4⟩ := h
  exact ⟨l, h1, h2, h3, fun b => (he b).trans (h4 b)⟩

/-- What the memory holds: `M v b` is the value of node `v` and block `b`. -/
structure MInv (g : Graph) (L : Layout) (start p : Nat → Nat) (cache : Nat → Nat) (M : Nat → Nat → Int) : Prop where
  tab : ∀ v, v < L.thr → Inv (wrapper L (2 ^ p v)) (win cache (start v)) fun b => (M v b).toNat
  sp : ∀ v b, L.thr ≤ v → v < g.n → b < L.k → (cache (indexSparse L v b) : Int) = M v b % 2 ^ L.W

theorem wrapper_M (L : Layout) (p : Nat) : (wrapper L (2 ^ p)).M = 2 ^ p := by
  unfold Cfg.M wrapper
  simp only [Nat.log2_two_pow]

theorem sparse_inj {L : Layout} {v v' b b' : Nat} (h : L.thr ≤ v) (h' : L.thr ≤ v') (hb : b < L.k) (hb' : b' < L.k)
    (he : indexSparse L v b = indexSparse L v' b') : v = v' ∧ b = b' := by
  unfold indexSparse at he
  have h1 : ((v - L.thr) * L.k + b) / L.k = v - L.thr := by
    rw [Nat.mul_comm, Nat.mul_add_div (by omega), Nat.div_eq_of_lt hb]; omega
  have h2 : ((v' - L.thr) * L.k + b') / L.k = v' - L.thr := by
    rw [Nat.mul_comm, Nat.mul_add_div (by omega), Nat.div_eq_of_lt hb']; omega
  have h3 : (v - L.thr) * L.k + b = (v' - L.thr) * L.k + b' := by omega
  rw [h3] at h1
  have h4 : v = v' := by omega
  subst h4
  omega

theorem toUnsigned_pos {W : Nat} {w : Int} (h0 : 0 < w) (h1 : w < 2 ^ W) : ((toUnsigned W w : Nat) : Int) = w := by
  unfold toUnsigned
  rw [Int.emod_eq_of_lt (by omega) h1]
  omega

/-- Writing to the table of `v` or to the entries behind the tables. -/
theorem put_win {start : Nat} {cache data : Nat → Nat} : win (put cache start data) start = data := by
  funext i
  unfold win put
  rw [if_pos (by omega), Nat.add_sub_cancel_left]

section
variable {g : Graph} {k : Nat} {L : Layout} {gc : Nat} {start p : Nat → Nat}

theorem tab_update (hL : Lay g k L gc start p) {cache : Nat → Nat} {M M' : Nat → Nat → Int} (h : MInv g L start p cache M)
    {v : Nat} (hv : v < L.thr) {data : Nat → Nat}
    (hfr : ∀ i, 2 ^ p v ≤ i → data i = win cache (start v) i)
    (hd : Inv (wrapper L (2 ^ p v)) data fun b => (M' v b).toNat)
    (ho : ∀ v' b, v' ≠ v → M' v' b = M v' b) : MInv g L start p (put cache (start v) data) M' := by
  have hout : ∀ i, ¬ (start v ≤ i ∧ i < start v + 2 ^ p v) → put cache (start v) data i = cache i := by
    intro i hi
    unfold put
    by_cases h1 : start v ≤ i
    · rw [if_pos h1, hfr _ (by omega)]
      unfold win
      congr 1; omega
    · rw [if_neg h1]
  refine ⟨?_, ?_⟩
  · intro x hx
    by_cases hxv : x = v
    · subst hxv; rw [put_win]; exact hd
    · have : (fun b => (M' x b).toNat) = fun b => (M x b).toNat := by funext b; rw [ho x b hxv]
      rw [this]
      refine Inv.congr (h.tab x hx) ?_
      intro i hi
      rw [wrapper_M] at hi
      unfold win
      apply hout
      rcases Nat.lt_or_gt_of_ne hxv with hlt | hgt
      · have := hL.disj x v hlt hv; omega
      · have := hL.disj v x hgt hx; omega
  · intro x b hx hxn hb
    have hne : x ≠ v := by omega
    rw [hout, h.sp x b hx hxn hb, ho x b hne]
    have := hL.below v hv
    unfold indexSparse
    omega

theorem sparse_update (hL : Lay g k L gc start p) {cache : Nat → Nat} {M M' : Nat → Nat → Int} (h : MInv g L start p cache M)
    {v b : Nat} (hv : L.thr ≤ v) (hb : b < L.k) {x : Nat} (hx : (x : Int) = M' v b % 2 ^ L.W)
    (ho : ∀ v' b', (v' ≠ v ∨ b' ≠ b) → M' v' b' = M v' b') :
    MInv g L start p (upd cache (indexSparse L v b) x) M' := by
  refine ⟨?_, ?_⟩
  · intro y hy
    have : (fun b => (M' y b).toNat) = fun b => (M y b).toNat := by funext b'; rw [ho y b' (Or.inl (by omega))]
    rw [this]
    refine Inv.congr (h.tab y hy) ?_
    intro i hi
    rw [wrapper_M] at hi
    unfold win
    apply upd_ne
    have := hL.below y hy
    unfold indexSparse
    omega
  · intro y c hy hyn hc
    by_cases he : y = v ∧ c = b
    · rw [he.1, he.2, upd_same, hx]
    · rw [upd_ne _ _ (fun h' => he (sparse_inj hy hv hc hb h')), h.sp y c hy hyn hc, ho y c (by
        by_cases h1 : y = v
        · right; intro h2; exact he ⟨h1, h2⟩
        · exact Or.inl h1)]

/-- The allowed values. -/
def Allowed (L : Layout) (p : Nat → Nat) (M : Nat → Nat → Int) : Prop :=
  ∀ v, v < L.thr → TabOk L.k (2 ^ p v - 1) (2 ^ (L.W - L.bits)) (M v)

theorem add_ok (hL : Lay g k L gc start p) (hbW : L.bits ≤ L.W) (hkb : L.k ≤ 2 ^ L.bits) {cache : Nat → Nat}
    {M M' : Nat → Nat → Int} (h : MInv g L start p cache M) (hM : Allowed L p M) (hM' : Allowed L p M')
    {v b : Nat} {w : Int} (hv : v < g.n) (hb : b < L.k) (hw0 : 0 < w) (hw : w < 2 ^ L.W)
    (h1 : M' v b = M v b + w) (h2 : ∀ v' b', (v' ≠ v ∨ b' ≠ b) → M' v' b' = M v' b') :
    ∃ cache', add? L cache v b w = some cache' ∧ MInv g L start p cache' M' := by
  have hu := toUnsigned_pos hw0 hw
  unfold add?
  by_cases hs : v ≥ L.thr
  · rw [if_pos hs]
    refine ⟨_, rfl, sparse_update hL h hs hb ?_ h2⟩
    rw [h1]
    push_cast
    rw [h.sp v b hs hv hb, hu]
    exact Int.emod_add_emod _ _ _
  · rw [if_neg hs]
    have hvt : v < L.thr := by omega
    have hm := (hM v hvt).nonneg b
    have hm' := (hM' v hvt).nonneg b
    have hroom : (wrapper L (2 ^ p v)).room = 2 ^ p v - 1 := by
      show 2 ^ Nat.log2 (2 ^ p v) - 1 = _
      rw [Nat.log2_two_pow]
    have hstep : (fun b => (M' v b).toNat) = Op.step (fun b => (M v b).toNat) (.inc b (toUnsigned L.W w)) := by
      funext c
      simp only [Op.step]
      by_cases hc : c = b
      · subst hc; rw [upd_same, h1]; omega
      · rw [upd_ne _ _ hc, h2 v c (Or.inr hc)]
    have hval : Valid L.bits (L.W - L.bits) (wrapper L (2 ^ p v)).room (fun b => (M v b).toNat) [.inc b (toUnsigned L.W w)] := by
      refine ⟨⟨by omega, by omega, ?_⟩, ?_, trivial⟩
      · have : (((M v b).toNat + toUnsigned L.W w : Nat) : Int) < ((2 ^ (L.W - L.bits) : Nat) : Int) := by
          push_cast; omega
        exact_mod_cast this
      · rw [← hstep, hroom]; exact (hM' v hvt).live
    obtain ⟨data', e1, e2, _⟩ := run_ok (c := wrapper L (2 ^ p v)) hbW _ _ _ (h.tab v hvt)
      (by rw [hroom]; exact (hM v hvt).live) hval
    cases ho : (wrapper L (2 ^ p v)).op (win cache (start v)) (.inc b (toUnsigned L.W w)) with
    | none => simp [Cfg.run, ho] at e1
    | some r =>
      have hr : r.1 = data' := by
        simp [Cfg.run, ho] at e1
        exact e1.1
      refine ⟨put cache (start v) r.1, ?_, ?_⟩
      · rw [hL.idx v hvt]
        have ho : (wrapper L (2 ^ p v)).increaseBy? (win cache (start v)) b (toUnsigned L.W w) = some r := ho
        simp only [Option.bind_eq_bind, Option.bind_some, ho]
      · refine tab_update hL h hvt ?_ ?_ (fun v' b' hne => h2 v' b' (Or.inl hne))
        · have := op_frame ho
          rw [wrapper_M] at this
          exact this
        · rw [hstep, hr]; exact e2

theorem sub_ok (hL : Lay g k L gc start p) (hbW : L.bits ≤ L.W) {cache : Nat → Nat}
    {M M' : Nat → Nat → Int} (h : MInv g L start p cache M) (hM : Allowed L p M) (hM' : Allowed L p M')
    {v b : Nat} {w : Int} (hv : v < g.n) (hb : b < L.k) (hw0 : 0 < w) (hw : w < 2 ^ L.W)
    (h1 : M' v b = M v b - w) (h2 : ∀ v' b', (v' ≠ v ∨ b' ≠ b) → M' v' b' = M v' b') :
    ∃ cache', sub? L cache v b w = some cache' ∧ MInv g L start p cache' M' := by
  have hu := toUnsigned_pos hw0 hw
  unfold sub?
  by_cases hs : v ≥ L.thr
  · rw [if_pos hs]
    refine ⟨_, rfl, sparse_update hL h hs hb ?_ h2⟩
    rw [h1]
    have hle : toUnsigned L.W w ≤ cache (indexSparse L v b) + 2 ^ L.W := by
      have : (toUnsigned L.W w : Int) < ((2 ^ L.W : Nat) : Int) := by push_cast; omega
      omega
    rw [Int.natCast_mod, Int.natCast_sub hle]
    push_cast
    rw [h.sp v b hs hv hb, hu]
    have : M v b % 2 ^ L.W + 2 ^ L.W - w = (M v b % 2 ^ L.W - w) + 2 ^ L.W := by omega
    rw [this, Int.add_emod_right]
    exact Int.emod_sub_emod _ _ _
  · rw [if_neg hs]
    have hvt : v < L.thr := by omega
    have hm := (hM v hvt).nonneg b
    have hm' := (hM' v hvt).nonneg b
    have hroom : (wrapper L (2 ^ p v)).room = 2 ^ p v - 1 := by
      show 2 ^ Nat.log2 (2 ^ p v) - 1 = _
      rw [Nat.log2_two_pow]
    have hstep : (fun b => (M' v b).toNat) = Op.step (fun b => (M v b).toNat) (.dec b (toUnsigned L.W w)) := by
      funext c
      simp only [Op.step]
      by_cases hc : c = b
      · subst hc; rw [upd_same, h1]; omega
      · rw [upd_ne _ _ hc, h2 v c (Or.inr hc)]
    have hval : Valid L.bits (L.W - L.bits) (wrapper L (2 ^ p v)).room (fun b => (M v b).toNat) [.dec b (toUnsigned L.W w)] := by
      refine ⟨⟨by omega, ?_⟩, ?_, trivial⟩
      · show _ ≤ (M v b).toNat; omega
      · rw [← hstep, hroom]; exact (hM' v hvt).live
    obtain ⟨data', e1, e2, _⟩ := run_ok (c := wrapper L (2 ^ p v)) hbW _ _ _ (h.tab v hvt)
      (by rw [hroom]; exact (hM v hvt).live) hval
    cases ho : (wrapper L (2 ^ p v)).op (win cache (start v)) (.dec b (toUnsigned L.W w)) with
    | none => simp [Cfg.run, ho] at e1
    | some r =>
      have hr : r.1 = data' := by
        simp [Cfg.run, ho] at e1
        exact e1.1
      refine ⟨put cache (start v) r.1, ?_, ?_⟩
      · rw [hL.idx v hvt]
        have ho : (wrapper L (2 ^ p v)).decreaseBy? (win cache (start v)) b (toUnsigned L.W w) = some r := ho
        simp only [Option.bind_eq_bind, Option.bind_some, ho]
      · refine tab_update hL h hvt ?_ ?_ (fun v' b' hne => h2 v' b' (Or.inl hne))
        · have := op_frame ho
          rw [wrapper_M] at this
          exact this
        · rw [hstep, hr]; exact e2

end

end Verif.SparseGains

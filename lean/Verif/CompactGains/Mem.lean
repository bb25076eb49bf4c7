import Verif.CompactGains.Model
import Verif.SparseGains.Init
import Verif.PrefixSum.Props

namespace Verif.CompactGains
open Verif.CompactMap Verif.Math Verif.SparseGains Verif.PrefixSum Verif.Gains

/-! # Bytes -/

theorem readE_congr {mem mem' : Nat → Nat} : ∀ (w a : Nat), (∀ i, i < w → mem' (a + i) = mem (a + i)) →
    readE mem' a w = readE mem a w
  | 0, _, _ => rfl
  | w + 1, a, h => by
    show mem' a + 256 * readE mem' (a + 1) w = mem a + 256 * readE mem (a + 1) w
    have h0 := h 0 (by omega)
    rw [Nat.add_zero] at h0
    have hr := readE_congr (mem := mem) (mem' := mem') w (a + 1) fun i hi => by
      have := h (i + 1) (by omega)
      rw [show a + (i + 1) = a + 1 + i by omega] at this
      exact this
    rw [h0, hr]

theorem readE_lt {mem : Nat → Nat} (h : ∀ a, mem a < 256) : ∀ (w a : Nat), readE mem a w < 256 ^ w
  | 0, _ => Nat.one_pos
  | w + 1, a => by
    show mem a + 256 * readE mem (a + 1) w < _
    have h1 := h a
    have h2 := readE_lt h w (a + 1)
    rw [Nat.pow_succ]
    omega

/-- Reading the bytes of a number. -/
theorem readE_bytes {mem : Nat → Nat} : ∀ (w a x : Nat), (∀ i, i < w → mem (a + i) = x / 256 ^ i % 256) →
    readE mem a w = x % 256 ^ w
  | 0, _, x, _ => by rw [Nat.pow_zero, Nat.mod_one]; rfl
  | w + 1, a, x, h => by
    show mem a + 256 * readE mem (a + 1) w = _
    have h0 := h 0 (by omega)
    rw [Nat.add_zero, Nat.pow_zero, Nat.div_one] at h0
    rw [h0, readE_bytes w (a + 1) (x / 256) fun i hi => by
      have := h (i + 1) (by omega)
      rw [show a + (i + 1) = a + 1 + i by omega] at this
      rw [this, Nat.div_div_eq_div_mul, Nat.pow_succ, Nat.mul_comm]]
    rw [Nat.pow_succ, Nat.mul_comm (256 ^ w) 256, Nat.mod_mul]

theorem win_put {mem : Nat → Nat} {start w num : Nat} {data : Nat → Nat} (hw : 0 < w) {i : Nat} (hi : i < num)
    (hd : data i < 256 ^ w) : win (put mem start w num data) start w i = data i := by
  unfold win
  rw [readE_bytes w _ (data i), Nat.mod_eq_of_lt hd]
  intro j hj
  unfold put
  have h1 : (i + 1) * w ≤ num * w := Nat.mul_le_mul_right _ hi
  rw [Nat.add_mul, Nat.one_mul] at h1
  rw [if_pos (by constructor <;> omega)]
  have h2 : start + i * w + j - start = w * i + j := by rw [Nat.mul_comm w i]; omega
  rw [h2, Nat.mul_add_div hw, Nat.div_eq_of_lt hj, Nat.add_zero, Nat.mul_add_mod, Nat.mod_eq_of_lt hj]

theorem put_out {mem : Nat → Nat} {start w num : Nat} {data : Nat → Nat} {a : Nat} (h : a < start ∨ start + num * w ≤ a) :
    put mem start w num data a = mem a := by
  unfold put; rw [if_neg (by omega)]

theorem win_out {mem : Nat → Nat} {start w num : Nat} {data : Nat → Nat} {s' w' i n' : Nat} (hi : i < n')
    (h : s' + n' * w' ≤ start ∨ start + num * w ≤ s') : win (put mem start w num data) s' w' i = win mem s' w' i := by
  unfold win
  apply readE_congr
  intro j hj
  apply put_out
  have h1 : (i + 1) * w' ≤ n' * w' := Nat.mul_le_mul_right _ hi
  rw [Nat.add_mul, Nat.one_mul] at h1
  omega

theorem pow_bytes (w : Nat) : 2 ^ (8 * w) = 256 ^ w := by rw [Nat.pow_mul]

/-- The entries of a table fit into their type. -/
theorem Inv.lt {c : Cfg} (hb : c.b ≤ c.W) {data m : Nat → Nat} (h : Inv c data m) {i : Nat} (hi : i < c.M) : data i < 2 ^ c.W := by
  by_cases h0 : data i = 0
  · rw [h0]; exact Nat.two_pow_pos _
  · obtain ⟨k, h1, h2, h3, h4⟩ := h.rep.fwd i hi h0
    rw [h4]
    unfold Cfg.entry
    have hW : 2 ^ c.W = 2 ^ c.b * 2 ^ c.valueBits := by
      rw [← Nat.pow_add]; unfold Cfg.valueBits; congr 1; omega
    have : (k + 1) * 2 ^ c.valueBits ≤ 2 ^ c.b * 2 ^ c.valueBits := Nat.mul_le_mul_right _ h1
    rw [Nat.add_mul, Nat.one_mul] at this
    omega

/-! # The layout -/

/-- What the proofs need to know about the layout: `w u` is the width of the entries of `u`, `hash u` says whether it
has a table and `2 ^ p u` is the size of the table. -/
structure Lay (g : Graph) (k : Nat) (L : Layout) (size : Nat) (hash : Nat → Bool) (w p : Nat → Nat) : Prop where
  kk : L.k = k
  use : ∀ u, u < g.n → L.useHash? u = some (hash u)
  tab : ∀ u, u < g.n → hash u = true → 0 < w u → ∃ sz, L.hashTable? u = some (some (w u, L.off u, sz)) ∧
    hashCfg L.bits (w u) sz = { W := 8 * w u, b := L.bits, p := p u, full := true }
  tab0 : ∀ u, u < g.n → hash u = true → w u = 0 → L.hashTable? u = some none
  full : ∀ u, u < g.n → hash u = false → 0 < w u → L.fullTable? u = some (some (w u, L.off u))
  full0 : ∀ u, u < g.n → hash u = false → w u = 0 → L.fullTable? u = some none
  zero : ∀ u, u < g.n → (w u = 0 ↔ g.adj u = [])
  room : ∀ u, u < g.n → hash u = true → 0 < w u → (g.adj u).length ≤ 2 ^ p u
  bits : ∀ u, u < g.n → hash u = true → 0 < w u → L.bits ≤ 8 * w u
  kbits : k ≤ 2 ^ L.bits
  fit : ∀ u, u < g.n → hash u = true → 0 < w u → wdegOf g u < 2 ^ (8 * w u - L.bits)
  fitFull : ∀ u, u < g.n → hash u = false → 0 < w u → wdegOf g u < 2 ^ (8 * w u)
  len : ∀ u, u < g.n → L.off u + (if hash u then 2 ^ p u else k) * w u ≤ L.off (u + 1)
  mono : ∀ u v, u < v → v < g.n → L.off (u + 1) ≤ L.off v
  last : ∀ u, u < g.n → L.off (u + 1) ≤ size
  wdeg : ∀ u, u < g.n → (L.maxValue u : Int) = wdegOf g u
  fitW : ∀ u, u < g.n → wdegOf g u < 2 ^ (L.W - 1)

/-- The table of `u`. -/
def cfg (L : Layout) (w p : Nat → Nat) (u : Nat) : Cfg := { W := 8 * w u, b := L.bits, p := p u, full := true }

/-- What the memory holds: `M v b` is the value of node `v` and block `b`. -/
structure MInv (g : Graph) (L : Layout) (hash : Nat → Bool) (w p : Nat → Nat) (mem : Nat → Nat) (M : Nat → Nat → Int) : Prop where
  tab : ∀ v, v < g.n → hash v = true → 0 < w v → Inv (cfg L w p v) (win mem (L.off v) (w v)) fun b => (M v b).toNat
  full : ∀ v b, v < g.n → hash v = false → 0 < w v → b < L.k → (win mem (L.off v) (w v) b : Int) = M v b % 2 ^ (8 * w v)

/-- The allowed values. -/
def Allowed (g : Graph) (L : Layout) (hash : Nat → Bool) (w p : Nat → Nat) (M : Nat → Nat → Int) : Prop :=
  ∀ v, v < g.n → hash v = true → 0 < w v → TabOk L.k (2 ^ p v) (2 ^ (8 * w v - L.bits)) (M v)

section
variable {g : Graph} {k : Nat} {L : Layout} {size : Nat} {hash : Nat → Bool} {w p : Nat → Nat}

/-- The entries of different nodes do not overlap. -/
theorem Lay.disj (h : Lay g k L size hash w p) {u v : Nat} (hu : u < g.n) (hv : v < g.n) (hne : u ≠ v) :
    L.off u + (if hash u then 2 ^ p u else k) * w u ≤ L.off v ∨ L.off v + (if hash v then 2 ^ p v else k) * w v ≤ L.off u := by
  have h1 := h.len u hu
  have h2 := h.len v hv
  rcases Nat.lt_or_gt_of_ne hne with hlt | hgt
  · have := h.mono u v hlt hv; omega
  · have := h.mono v u hgt hu; omega

/-- Writing within the entries of `v` keeps the entries of the others. -/
theorem keep_others (h : Lay g k L size hash w p) {mem mem' : Nat → Nat} {M M' : Nat → Nat → Int} (hm : MInv g L hash w p mem M)
    {v : Nat} (hv : v < g.n)
    (hout : ∀ a, a < L.off v ∨ L.off v + (if hash v then 2 ^ p v else k) * w v ≤ a → mem' a = mem a)
    (ho : ∀ v' b, v' ≠ v → M' v' b = M v' b)
    (ht : hash v = true → 0 < w v → Inv (cfg L w p v) (win mem' (L.off v) (w v)) fun b => (M' v b).toNat)
    (hf : ∀ b, hash v = false → 0 < w v → b < L.k → (win mem' (L.off v) (w v) b : Int) = M' v b % 2 ^ (8 * w v)) :
    MInv g L hash w p mem' M' := by
  have hwin : ∀ x i, x < g.n → x ≠ v → i < (if hash x then 2 ^ p x else k) → win mem' (L.off x) (w x) i = win mem (L.off x) (w x) i := by
    intro x i hx hne hi
    unfold win
    apply readE_congr
    intro j hj
    apply hout
    have h1 : (i + 1) * w x ≤ (if hash x then 2 ^ p x else k) * w x := Nat.mul_le_mul_right _ hi
    rw [Nat.add_mul, Nat.one_mul] at h1
    rcases h.disj hx hv hne with h2 | h2
    · left; omega
    · right; omega
  refine ⟨?_, ?_⟩
  · intro x hx h1 h2
    by_cases hxv : x = v
    · subst hxv; exact ht h1 h2
    · have : (fun b => (M' x b).toNat) = fun b => (M x b).toNat := by funext b; rw [ho x b hxv]
      rw [this]
      refine SparseGains.Inv.congr (hm.tab x hx h1 h2) ?_
      intro i hi
      exact hwin x i hx hxv (by rw [h1]; exact hi)
  · intro x b hx h1 h2 hb
    by_cases hxv : x = v
    · subst hxv; exact hf b h1 h2 hb
    · rw [hwin x b hx hxv (by rw [h1, ← h.kk]; exact hb), hm.full x b hx h1 h2 hb, ho x b hxv]

theorem toUnsigned_mod (W : Nat) (x : Int) : ((toUnsigned W x : Nat) : Int) = x % 2 ^ W := by
  unfold toUnsigned
  have : 0 ≤ x % 2 ^ W := Int.emod_nonneg _ (by have := Int.pow_pos (n := 2) (m := W) (by decide); omega)
  omega

theorem full_value (inc : Bool) {W x : Nat} {A A' w : Int} (hx : (x : Int) = A % 2 ^ W)
    (hA : A' = if inc then A + w else A - w) :
    (((if inc then x + toUnsigned W w else x + 2 ^ W - toUnsigned W w) % 2 ^ W : Nat) : Int) = A' % 2 ^ W := by
  have hu := toUnsigned_mod W w
  have hlt : (toUnsigned W w : Int) < 2 ^ W := by
    rw [hu]; exact Int.emod_lt_of_pos _ (Int.pow_pos (by decide))
  cases inc with
  | true =>
    simp only [if_true] at *
    push_cast
    rw [hx, hu, hA, ← Int.add_emod]
  | false =>
    simp only [Bool.false_eq_true, if_false] at *
    have hle : toUnsigned W w ≤ x + 2 ^ W := by
      have : (toUnsigned W w : Int) < ((2 ^ W : Nat) : Int) := by push_cast; omega
      omega
    rw [Int.natCast_mod, Int.natCast_sub hle]
    push_cast
    rw [hx, hu, hA]
    have : A % 2 ^ W + 2 ^ W - w % 2 ^ W = (A % 2 ^ W - w % 2 ^ W) + 2 ^ W := by omega
    rw [this, Int.add_emod_right, ← Int.sub_emod]

theorem change_ok (h : Lay g k L size hash w p) (inc : Bool) {mem : Nat → Nat} {M M' : Nat → Nat → Int}
    (hm : MInv g L hash w p mem M) (hM : Allowed g L hash w p M) (hM' : Allowed g L hash w p M')
    {v b : Nat} {x : Int} (hv : v < g.n) (hw : 0 < w v) (hb : b < k) (hx0 : 0 < x)
    (h1 : M' v b = if inc then M v b + x else M v b - x) (h2 : ∀ v' b', (v' ≠ v ∨ b' ≠ b) → M' v' b' = M v' b') :
    ∃ mem', change? inc L mem v b x = some mem' ∧ MInv g L hash w p mem' M' := by
  unfold change?
  rw [h.use v hv]
  simp only [Option.bind_some]
  cases hh : hash v with
  | false =>
    rw [if_neg (by decide)]
    unfold changeFull?
    rw [h.full v hv hh hw]
    simp only [Option.map_some]
    refine ⟨_, rfl, ?_⟩
    have hcell : (b + 1) * w v ≤ k * w v := Nat.mul_le_mul_right _ hb
    rw [Nat.add_mul, Nat.one_mul] at hcell
    refine keep_others h hm hv ?_ (fun v' b' hne => h2 v' b' (Or.inl hne)) (fun h' => by rw [hh] at h'; cases h') ?_
    · intro a ha
      rw [hh] at ha
      simp only [Bool.false_eq_true, if_false] at ha
      apply put_out
      omega
    · intro c _ _ hc
      have hval := hm.full v b hv hh hw (by rw [h.kk]; exact hb)
      by_cases hcb : c = b
      · subst hcb
        have h3 := win_put (mem := mem) (start := L.off v + c * w v) (w := w v) (num := 1)
          (data := fun _ => (if inc = true then win mem (L.off v) (w v) c + toUnsigned (8 * w v) x
            else win mem (L.off v) (w v) c + 2 ^ (8 * w v) - toUnsigned (8 * w v) x) % 2 ^ (8 * w v)) hw (i := 0) (by decide)
          (by rw [← pow_bytes]; exact Nat.mod_lt _ (Nat.two_pow_pos _))
        have h4 : ∀ m : Nat → Nat, win m (L.off v) (w v) c = win m (L.off v + c * w v) (w v) 0 := by
          intro m; unfold win; rw [Nat.zero_mul, Nat.add_zero]
        rw [h4, h3]
        exact full_value inc hval h1
      · have h3 : ∀ m : Nat → Nat, win m (L.off v) (w v) c = win m (L.off v + c * w v) (w v) 0 := by
          intro m; unfold win; rw [Nat.zero_mul, Nat.add_zero]
        rw [h3, win_out (n' := 1) (by decide), ← h3, hm.full v c hv hh hw hc, h2 v c (Or.inr hcb)]
        rcases Nat.lt_or_gt_of_ne hcb with hlt | hgt
        · left
          have : (c + 1) * w v ≤ b * w v := Nat.mul_le_mul_right _ hlt
          rw [Nat.add_mul, Nat.one_mul] at this
          omega
        · right
          have : (b + 1) * w v ≤ c * w v := Nat.mul_le_mul_right _ hgt
          rw [Nat.add_mul, Nat.one_mul] at this
          omega
  | true =>
    rw [if_pos rfl]
    unfold changeHash?
    obtain ⟨sz, t1, t2⟩ := h.tab v hv hh hw
    rw [t1]
    simp only [Option.bind_some]
    rw [t2]
    have hbits := h.bits v hv hh hw
    have hinv := hm.tab v hv hh hw
    have hc : ({ W := 8 * w v, b := L.bits, p := p v, full := true } : Cfg) = cfg L w p v := rfl
    rw [hc]
    have hkey : b % 2 ^ (8 * w v) = b := by
      apply Nat.mod_eq_of_lt
      have := h.kbits
      have := Nat.pow_le_pow_right (by decide : 0 < 2) hbits
      omega
    rw [hkey]
    have hm0 := (hM v hv hh hw).nonneg b
    have hm1 := (hM' v hv hh hw).nonneg b
    have hpw : (2 : Int) ^ (8 * w v - L.bits) ≤ 2 ^ (8 * w v) := by
      exact_mod_cast Nat.pow_le_pow_right (by decide : 0 < 2) (Nat.sub_le _ _)
    have hx1 : x < 2 ^ (8 * w v) := by
      cases inc with
      | true => simp only [if_true] at h1; omega
      | false => simp only [Bool.false_eq_true, if_false] at h1; omega
    have hu := toUnsigned_pos hx0 hx1
    have hroom : (cfg L w p v).room = 2 ^ p v := rfl
    -- the operation
    let op : Op := if inc then .inc b (toUnsigned (8 * w v) x) else .dec b (toUnsigned (8 * w v) x)
    have hstep : (fun b => (M' v b).toNat) = Op.step (fun b => (M v b).toNat) op := by
      funext c
      cases inc with
      | true =>
        simp only [if_true] at h1
        simp only [op, if_true, Op.step]
        by_cases hcb : c = b
        · subst hcb; rw [upd_same, h1]; omega
        · rw [upd_ne _ _ hcb, h2 v c (Or.inr hcb)]
      | false =>
        simp only [Bool.false_eq_true, if_false] at h1
        simp only [op, Bool.false_eq_true, if_false, Op.step]
        by_cases hcb : c = b
        · subst hcb; rw [upd_same, h1]; omega
        · rw [upd_ne _ _ hcb, h2 v c (Or.inr hcb)]
    have hval : Valid L.bits (8 * w v - L.bits) (cfg L w p v).room (fun b => (M v b).toNat) [op] := by
      refine ⟨?_, ?_, trivial⟩
      · cases inc with
        | true =>
          simp only [if_true] at h1
          simp only [op, if_true]
          refine ⟨by have := h.kbits; omega, by omega, ?_⟩
          have : (((M v b).toNat + toUnsigned (8 * w v) x : Nat) : Int) < ((2 ^ (8 * w v - L.bits) : Nat) : Int) := by
            push_cast; omega
          exact_mod_cast this
        | false =>
          simp only [Bool.false_eq_true, if_false] at h1
          simp only [op, Bool.false_eq_true, if_false]
          refine ⟨by omega, ?_⟩
          show _ ≤ (M v b).toNat
          omega
      · rw [← hstep, hroom]; exact (hM' v hv hh hw).live
    obtain ⟨data', e1, e2, _⟩ := run_ok (c := cfg L w p v) hbits _ _ _ hinv
      (by rw [hroom]; exact (hM v hv hh hw).live) hval
    cases ho : (cfg L w p v).op (win mem (L.off v) (w v)) op with
    | none => simp [Cfg.run, ho] at e1
    | some r =>
      have hr : r.1 = data' := by
        simp [Cfg.run, ho] at e1
        exact e1.1
      refine ⟨put mem (L.off v) (w v) (cfg L w p v).M r.1, ?_, ?_⟩
      · have : (if inc = true then (cfg L w p v).increaseBy? (win mem (L.off v) (w v)) b (toUnsigned (8 * w v) x)
            else (cfg L w p v).decreaseBy? (win mem (L.off v) (w v)) b (toUnsigned (8 * w v) x)) = some r := by
          rw [← ho]
          cases inc <;> rfl
        rw [this]; rfl
      · refine keep_others h hm hv ?_ (fun v' b' hne => h2 v' b' (Or.inl hne)) ?_ (fun c h' => by rw [hh] at h'; cases h')
        · intro a ha
          rw [hh] at ha
          exact put_out ha
        · intro _ _
          rw [hstep]
          have e2 : Inv (cfg L w p v) r.1 (Op.step (fun b => (M v b).toNat) op) := by rw [hr]; exact e2
          refine SparseGains.Inv.congr e2 ?_
          intro i hi
          exact win_put hw hi (by rw [← pow_bytes]; exact Inv.lt (c := cfg L w p v) hbits e2 hi)

end

end Verif.CompactGains

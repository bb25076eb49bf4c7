import Verif.Rank.Model

namespace Verif.Rank

/-- The number of `i < n` with `f i`. -/
def cnt (f : Nat → Bool) (n : Nat) : Nat := (List.range n).countP f

@[simp] theorem cnt_zero (f : Nat → Bool) : cnt f 0 = 0 := rfl

theorem cnt_succ (f : Nat → Bool) (n : Nat) : cnt f (n + 1) = cnt f n + if f n then 1 else 0 := by
  unfold cnt
  rw [List.range_succ, List.countP_append, List.countP_singleton]

theorem cnt_add (f : Nat → Bool) (a : Nat) : ∀ b, cnt f (a + b) = cnt f a + cnt (fun i => f (a + i)) b
  | 0 => rfl
  | b + 1 => by rw [← Nat.add_assoc, cnt_succ, cnt_add f a b, cnt_succ, Nat.add_assoc]

theorem cnt_congr {f g : Nat → Bool} : ∀ {n : Nat}, (∀ i, i < n → f i = g i) → cnt f n = cnt g n
  | 0, _ => rfl
  | n + 1, h => by
    rw [cnt_succ, cnt_succ, h n (by omega), cnt_congr fun i hi => h i (by omega)]

theorem cnt_false {f : Nat → Bool} {n : Nat} (h : ∀ i, i < n → f i = false) : cnt f n = 0 := by
  rw [cnt_congr h]
  induction n with
  | zero => rfl
  | succ n ih => rw [cnt_succ, ih fun i hi => h i (by omega)]; rfl

theorem cnt_le (f : Nat → Bool) : ∀ n, cnt f n ≤ n
  | 0 => Nat.le_refl _
  | n + 1 => by
    rw [cnt_succ]
    have := cnt_le f n
    split <;> omega

theorem cnt_mono (f : Nat → Bool) {a b : Nat} (h : a ≤ b) : cnt f a ≤ cnt f b := by
  obtain ⟨d, rfl⟩ := Nat.exists_eq_add_of_le h
  rw [cnt_add]; omega

theorem popcount_eq (w : Nat) : popcount w = cnt w.testBit 64 := rfl

theorem testBit_big {w i : Nat} (hw : w < 2 ^ 64) (hi : 64 ≤ i) : w.testBit i = false :=
  Nat.testBit_lt_two_pow (Nat.lt_of_lt_of_le hw (Nat.pow_le_pow_right (by omega) hi))

theorem popcount_shr {w : Nat} (hw : w < 2 ^ 64) :
    popcount (w >>> 14) = cnt (fun i => w.testBit (14 + i)) 50 := by
  rw [popcount_eq, show 64 = 50 + 14 by rfl, cnt_add]
  rw [cnt_false (n := 14) fun i _ => by
    rw [Nat.testBit_shiftRight]; exact testBit_big hw (by omega)]
  rw [Nat.add_zero]
  exact cnt_congr fun i _ => Nat.testBit_shiftRight ..

theorem popcount_shl (junk : Nat) {x s : Nat} (h0 : 0 < s) (h : s < 64) :
    popcount (shl junk x s) = cnt x.testBit (64 - s) := by
  unfold shl
  rw [if_pos h, popcount_eq, show cnt _ 64 = cnt (x <<< s % 2 ^ 64).testBit (s + (64 - s)) by
    congr 1; omega, cnt_add]
  rw [cnt_false (n := s) fun i hi => by
    rw [Nat.testBit_mod_two_pow, Nat.testBit_shiftLeft]
    have : ¬ i ≥ s := by omega
    simp [this], Nat.zero_add]
  apply cnt_congr
  intro i hi
  rw [Nat.testBit_mod_two_pow, Nat.testBit_shiftLeft]
  have h1 : s + i < 64 := by omega
  simp [h1]

/-- The bits of consecutive words. -/
def bits (d : Nat → Nat) (y : Nat) : Bool := (d (y / 64)).testBit (y % 64)

theorem cnt_bits (d : Nat → Nat) {q r : Nat} (hr : r ≤ 64) :
    cnt (fun y => bits d (64 * q + y)) r = cnt (d q).testBit r := by
  apply cnt_congr
  intro i hi
  unfold bits
  rw [show (64 * q + i) / 64 = q by omega, show (64 * q + i) % 64 = i by omega]

theorem foldl_add (f : Nat → Nat) : ∀ (l : List Nat) (a : Nat),
    l.foldl (fun s j => s + f j) a = a + l.foldl (fun s j => s + f j) 0
  | [], a => rfl
  | x :: l, a => by
    rw [List.foldl_cons, foldl_add f l, List.foldl_cons, foldl_add f l (0 + f x)]
    omega

/-- Whole words and a rest. -/
theorem cnt_words (d : Nat → Nat) {r : Nat} (hr : r ≤ 64) : ∀ q,
    cnt (bits d) (64 * q + r) =
      (List.range q).foldl (fun s j => s + popcount (d j)) 0 + cnt (d q).testBit r := by
  intro q
  rw [cnt_add, cnt_bits d hr]
  congr 1
  induction q with
  | zero => rfl
  | succ q ih =>
    rw [show 64 * (q + 1) = 64 * q + 64 by omega, cnt_add, cnt_bits d (Nat.le_refl _), ih,
      List.range_succ, List.foldl_append]
    rfl

/-- The bits of a block behind its header, in the first word. -/
theorem cnt_block_first {d : Nat → Nat} {x : Nat} (hx : x ≤ 50) :
    cnt (fun y => bits d (14 + y)) x = cnt (fun i => (d 0).testBit (14 + i)) x := by
  apply cnt_congr
  intro i hi
  unfold bits
  rw [show (14 + i) / 64 = 0 by omega, show (14 + i) % 64 = 14 + i by omega]

/-- The bits of a block behind its header. -/
theorem cnt_block {d : Nat → Nat} (hd : d 0 < 2 ^ 64) {r : Nat} (hr : r ≤ 64) (q : Nat) :
    cnt (fun y => bits d (14 + y)) (50 + (64 * q + r)) =
      popcount (d 0 >>> 14) + ((List.range q).foldl (fun s j => s + popcount (d (j + 1))) 0 +
        cnt (d (q + 1)).testBit r) := by
  rw [cnt_add, cnt_block_first (Nat.le_refl _), popcount_shr hd]
  congr 1
  rw [← cnt_words (fun j => d (j + 1)) hr q]
  apply cnt_congr
  intro i _
  unfold bits
  rw [show (14 + (50 + i)) / 64 = i / 64 + 1 by omega, show (14 + (50 + i)) % 64 = i % 64 by omega]

theorem isSet_eq (b : BV) (pos : Nat) : b.isSet pos = (b.data (wordOf pos)).testBit (bitOf pos) := by
  unfold BV.isSet
  rw [Nat.testBit_eq_decide_div_mod_eq, Nat.and_one_is_mod, Nat.shiftRight_eq_div_pow]
  rfl

theorem wordOf_eq (pos : Nat) : wordOf pos = pos / 498 * 8 + (pos % 498 + 14) / 64 := rfl

theorem bitOf_eq (pos : Nat) : bitOf pos = (pos % 498 + 14) % 64 := rfl

/-- The bit of a position from its block and the offset. -/
theorem wordOf_block {blk y : Nat} (hy : y < 498) : wordOf (498 * blk + y) = blk * 8 + (14 + y) / 64 ∧
    bitOf (498 * blk + y) = (14 + y) % 64 := by
  rw [wordOf_eq, bitOf_eq]
  constructor <;> omega

theorem cnt_isSet_block (b : BV) {blk x : Nat} (hx : x ≤ 498) :
    cnt (fun y => b.isSet (498 * blk + y)) x =
      cnt (fun y => bits (fun i => b.data (blk * 8 + i)) (14 + y)) x := by
  apply cnt_congr
  intro y hy
  obtain ⟨h1, h2⟩ := wordOf_block (blk := blk) (y := y) (by omega)
  rw [isSet_eq, h1, h2]
  rfl

/-! ## `update` -/

/-- All words have 64 bits. -/
def BV.WF (b : BV) : Prop := ∀ i, b.data i < 2 ^ 64

/-- The number of set bits before a block. -/
def before (b : BV) (k : Nat) : Nat := cnt b.isSet (498 * k)

/-- The number of set bits between the start of the superblock and the block. -/
def hdr (b : BV) (k : Nat) : Nat := before b k - before b (32 * (k / 32))

theorem hdr_lt (b : BV) (k : Nat) : hdr b k < 2 ^ 14 := by
  unfold hdr before
  have h : 498 * k = 498 * (32 * (k / 32)) + 498 * (k % 32) := by omega
  rw [h, cnt_add]
  have := cnt_le (fun i => b.isSet (498 * (32 * (k / 32)) + i)) (498 * (k % 32))
  omega

/-- The word with a new header. -/
def withHeader (w h : Nat) : Nat := (w &&& (2 ^ 64 - 1) >>> (64 - (64 - header)) <<< header) ||| h

theorem testBit_ones (i : Nat) :
    ((2 ^ 64 - 1) >>> (64 - (64 - header)) <<< header).testBit i = (decide (14 ≤ i) && decide (i < 64)) := by
  rw [show (64 - (64 - header)) = 14 from rfl, show header = 14 from rfl, Nat.testBit_shiftLeft,
    Nat.testBit_shiftRight, Nat.testBit_two_pow_sub_one]
  by_cases h : 14 ≤ i
  · rw [show 14 + (i - 14) = i by omega]
  · simp [h]

theorem withHeader_hi {w h : Nat} (hw : w < 2 ^ 64) (hh : h < 2 ^ 14) {i : Nat} (hi : 14 ≤ i) :
    (withHeader w h).testBit i = w.testBit i := by
  unfold withHeader
  rw [Nat.testBit_or, Nat.testBit_and, testBit_ones]
  have h2 : h.testBit i = false :=
    Nat.testBit_lt_two_pow (Nat.lt_of_lt_of_le hh (Nat.pow_le_pow_right (by omega) hi))
  by_cases h64 : i < 64
  · simp [hi, h64, h2]
  · rw [testBit_big hw (by omega)]
    simp [h2]

theorem withHeader_lo {w h : Nat} {i : Nat} (hi : i < 14) :
    (withHeader w h).testBit i = h.testBit i := by
  unfold withHeader
  rw [Nat.testBit_or, Nat.testBit_and, testBit_ones]
  have : ¬ 14 ≤ i := by omega
  simp [this]

theorem withHeader_shr {w h : Nat} (hw : w < 2 ^ 64) (hh : h < 2 ^ 14) :
    withHeader w h >>> 14 = w >>> 14 := by
  apply Nat.eq_of_testBit_eq
  intro i
  rw [Nat.testBit_shiftRight, Nat.testBit_shiftRight, withHeader_hi hw hh (by omega)]

theorem withHeader_header {w h : Nat} (hh : h < 2 ^ 14) :
    withHeader w h &&& (2 ^ 64 - 1) >>> (64 - header) = h := by
  apply Nat.eq_of_testBit_eq
  intro i
  rw [Nat.testBit_and, show 64 - header = 50 from rfl, Nat.testBit_shiftRight,
    Nat.testBit_two_pow_sub_one]
  by_cases hi : i < 14
  · have : 50 + i < 64 := by omega
    simp [withHeader_lo hi, this]
  · have h1 : ¬ 50 + i < 64 := by omega
    have h2 : h.testBit i = false :=
      Nat.testBit_lt_two_pow (Nat.lt_of_lt_of_le hh (Nat.pow_le_pow_right (by omega) (by omega)))
    simp [h1, h2]

theorem withHeader_lt {w h : Nat} (hh : h < 2 ^ 14) : withHeader w h < 2 ^ 64 := by
  unfold withHeader
  apply Nat.or_lt_two_pow
  · exact Nat.and_lt_two_pow _ (by decide)
  · exact Nat.lt_trans hh (by decide)

/-- The words after `B` blocks have been updated. -/
def updated (b : BV) (B i : Nat) : Nat :=
  if i % 8 = 0 ∧ i / 8 < B then withHeader (b.data i) (hdr b (i / 8)) else b.data i

/-- Loop invariant of `update`. -/
structure UInv (b : BV) (B : Nat) (a : Acc) : Prop where
  data : ∀ i, a.data i = updated b B i
  cur : a.curSuper = (B + 31) / 32
  sup : ∀ s, s < a.curSuper → a.super s = before b (32 * s)
  rank : a.rank = before b (32 * (a.curSuper - 1))
  blockRank : a.blockRank = before b B - before b (32 * (a.curSuper - 1))

theorem before_mono (b : BV) {k l : Nat} (h : k ≤ l) : before b k ≤ before b l :=
  cnt_mono _ (by omega)

theorem before_succ (b : BV) (hb : b.WF) (k : Nat) :
    before b (k + 1) = before b k + (popcount (b.data (k * 8) >>> 14) +
      (List.range 7).foldl (fun s j => s + popcount (b.data (k * 8 + (j + 1)))) 0) := by
  unfold before
  rw [show 498 * (k + 1) = 498 * k + 498 by omega, cnt_add, cnt_isSet_block b (Nat.le_refl _)]
  congr 1
  have := cnt_block (d := fun i => b.data (k * 8 + i)) (hb _) (r := 0) (by omega) 7
  exact this

theorem UInv.step {b : BV} (hb : b.WF) {B : Nat} {a : Acc} (h : UInv b B a) :
    UInv b (B + 1) (a.step B) := by
  obtain ⟨hdata, hcur, hsup, hrank, hbr⟩ := h
  -- the state after the superblock test
  obtain ⟨a1, ha1, hd1, hc1, hs1, hr1, hb1⟩ : ∃ a1 : Acc,
      (if B * blockWords % superWords = 0 then
        { a with
          rank := a.rank + a.blockRank
          super := upd a.super a.curSuper (a.rank + a.blockRank)
          curSuper := a.curSuper + 1
          blockRank := 0 }
      else a) = a1 ∧ a1.data = a.data ∧ a1.curSuper = (B + 32) / 32 ∧
      (∀ s, s < a1.curSuper → a1.super s = before b (32 * s)) ∧
      a1.rank = before b (32 * (B / 32)) ∧ a1.blockRank = hdr b B := by
    by_cases hm : B * blockWords % superWords = 0
    · rw [if_pos hm]
      have hm' : B % 32 = 0 := by
        unfold blockWords superWords at hm; omega
      have hc : a.curSuper = B / 32 := by rw [hcur]; omega
      have hsum : a.rank + a.blockRank = before b (32 * (B / 32)) := by
        have := before_mono b (k := 32 * (a.curSuper - 1)) (l := B) (by rw [hc]; omega)
        rw [hrank, hbr, show 32 * (B / 32) = B by omega]
        omega
      refine ⟨_, rfl, rfl, ?_, ?_, hsum, ?_⟩
      · show a.curSuper + 1 = _
        omega
      · intro s hs
        show upd a.super a.curSuper (a.rank + a.blockRank) s = _
        have hs' : s < a.curSuper + 1 := hs
        by_cases hsc : s = a.curSuper
        · rw [hsc, upd_same, hsum, hc]
        · rw [upd_ne _ _ hsc]
          exact hsup s (by omega)
      · show 0 = hdr b B
        unfold hdr
        rw [show 32 * (B / 32) = B by omega]
        omega
    · rw [if_neg hm]
      have hm' : B % 32 ≠ 0 := by
        unfold blockWords superWords at hm; omega
      have hc : a.curSuper - 1 = B / 32 := by rw [hcur]; omega
      refine ⟨a, rfl, rfl, by rw [hcur]; omega, hsup, by rw [hrank, hc], ?_⟩
      rw [hbr, hc]
      rfl
  have hstep : a.step B = { a1 with
      data := upd a1.data (B * blockWords) (withHeader (a1.data (B * blockWords)) a1.blockRank)
      blockRank := a1.blockRank + blockPopcount (upd a1.data (B * blockWords)
        (withHeader (a1.data (B * blockWords)) a1.blockRank)) (B * blockWords) } := by
    unfold Acc.step
    simp only [ha1]
    rfl
  have h8 : B * blockWords = B * 8 := rfl
  rw [h8] at hstep
  have hold : a1.data (B * 8) = b.data (B * 8) := by
    rw [hd1, hdata]; unfold updated; rw [if_neg (by omega)]
  have hnew : ∀ i, upd a1.data (B * 8) (withHeader (a1.data (B * 8)) a1.blockRank) i =
      updated b (B + 1) i := by
    intro i
    by_cases hi : i = B * 8
    · subst hi
      rw [upd_same, hold, hb1]
      unfold updated
      rw [if_pos (by omega), show B * 8 / 8 = B by omega]
    · rw [upd_ne _ _ hi, hd1, hdata]
      unfold updated
      by_cases hc : i % 8 = 0 ∧ i / 8 < B
      · rw [if_pos hc, if_pos (by omega)]
      · rw [if_neg hc, if_neg (by omega)]
  rw [hstep]
  have hcs : a1.curSuper - 1 = B / 32 := by omega
  refine ⟨hnew, by show a1.curSuper = _; rw [hc1], hs1, ?_, ?_⟩
  · show a1.rank = before b (32 * (a1.curSuper - 1))
    rw [hr1, hcs]
  · show a1.blockRank + blockPopcount _ _ = before b (B + 1) - before b (32 * (a1.curSuper - 1))
    rw [hcs, before_succ b hb, hb1]
    unfold blockPopcount
    rw [foldl_add]
    have e1 : upd a1.data (B * 8) (withHeader (a1.data (B * 8)) (hdr b B)) (B * 8) >>> header =
        b.data (B * 8) >>> 14 := by
      rw [upd_same, hold]
      exact withHeader_shr (hb _) (hdr_lt b B)
    rw [e1]
    have e2 : (List.range 7).foldl (fun s j => s + popcount (upd a1.data (B * 8)
        (withHeader (a1.data (B * 8)) (hdr b B)) (B * 8 + (j + 1)))) 0 =
        (List.range 7).foldl (fun s j => s + popcount (b.data (B * 8 + (j + 1)))) 0 := by
      have : ∀ j, j < 7 → upd a1.data (B * 8) (withHeader (a1.data (B * 8)) (hdr b B)) (B * 8 + (j + 1)) =
          b.data (B * 8 + (j + 1)) := by
        intro j hj
        rw [upd_ne _ _ (by omega), hd1, hdata]
        unfold updated
        rw [if_neg (by omega)]
      simp only [List.range, List.range.loop, List.foldl_cons, List.foldl_nil]
      rw [this 0 (by omega), this 1 (by omega), this 2 (by omega), this 3 (by omega),
        this 4 (by omega), this 5 (by omega), this 6 (by omega)]
    rw [e2]
    have := before_mono b (k := 32 * (B / 32)) (l := B) (by omega)
    unfold hdr
    omega

theorem update_inv {b : BV} (hb : b.WF) (sup : Nat → Nat) (B : Nat) :
    UInv b B ((List.range B).foldl Acc.step
      { data := b.data, super := sup, rank := 0, blockRank := 0, curSuper := 0 }) := by
  induction B with
  | zero =>
    refine ⟨fun i => ?_, rfl, fun s hs => absurd hs (Nat.not_lt_zero _), rfl, rfl⟩
    unfold updated
    rw [if_neg (by omega)]
    rfl
  | succ B ih =>
    rw [List.range_succ, List.foldl_append]
    exact ih.step hb

/-- The sizes fit the length. -/
def BV.Sized (b : BV) : Prop :=
  b.numBlocks = divCeil b.length blockData ∧ b.numSuper = divCeil b.length superData

theorem update_ok {b : BV} (hb : b.WF) (hs : b.Sized) :
    ∃ b', b.update? = some b' ∧ b'.length = b.length ∧ b'.numBlocks = b.numBlocks ∧
      b'.numSuper = b.numSuper ∧ (∀ i, b'.data i = updated b b.numBlocks i) ∧
      ∀ s, s < b.numSuper → b'.super s = before b (32 * s) := by
  have h := update_inv hb b.super b.numBlocks
  have hcur : (b.numBlocks + 31) / 32 = b.numSuper := by
    rw [hs.1, hs.2]
    unfold divCeil blockData superData
    omega
  generalize hacc : (List.range b.numBlocks).foldl Acc.step
    { data := b.data, super := b.super, rank := 0, blockRank := 0, curSuper := 0 } = acc at h
  refine ⟨⟨b.length, b.numBlocks, b.numSuper, acc.data, acc.super⟩, ?_, rfl, rfl, rfl, h.data, ?_⟩
  · unfold BV.update?
    simp only [hacc]
    rw [if_pos (by rw [h.cur, hcur]; exact Nat.le_refl _)]
  · intro s hs
    exact h.sup s (by rw [h.cur, hcur]; exact hs)

theorem updated_testBit {b : BV} (hb : b.WF) (B i j : Nat) (hj : i % 8 = 0 → 14 ≤ j) :
    (updated b B i).testBit j = (b.data i).testBit j := by
  unfold updated
  split
  · rename_i hc
    exact withHeader_hi (hb _) (hdr_lt ..) (hj hc.1)
  · rfl

theorem word_bit (pos : Nat) : wordOf pos % 8 = 0 → 14 ≤ bitOf pos := by
  rw [wordOf_eq, bitOf_eq]
  omega

theorem update_isSet {b b' : BV} (hb : b.WF) {B : Nat} (h : ∀ i, b'.data i = updated b B i) (pos : Nat) :
    b'.isSet pos = b.isSet pos := by
  rw [isSet_eq, isSet_eq, h, updated_testBit hb _ _ _ (word_bit pos)]

theorem updated_lt {b : BV} (hb : b.WF) (B i : Nat) : updated b B i < 2 ^ 64 := by
  unfold updated
  split
  · exact withHeader_lt (hdr_lt ..)
  · exact hb _

/-! ## `rank` -/

theorem rank_ok (junk : Nat) {b b' : BV} (hb : b.WF) (hs : b.Sized) (hn : b'.numBlocks = b.numBlocks)
    (hns : b'.numSuper = b.numSuper) (hd : ∀ i, b'.data i = updated b b.numBlocks i)
    (hsup : ∀ s, s < b.numSuper → b'.super s = before b (32 * s)) {pos : Nat} (hpos : pos < b.length) :
    b'.rank? junk pos = some (cnt b.isSet pos) := by
  obtain ⟨blk, y, hy, rfl⟩ : ∃ blk y, y < 498 ∧ pos = 498 * blk + y :=
    ⟨pos / 498, pos % 498, by omega, by omega⟩
  have e1 : (498 * blk + y) / blockData = blk := by unfold blockData; omega
  have e2 : (498 * blk + y) % blockData + header = 14 + y := by unfold blockData header; omega
  have e3 : (498 * blk + y) / superData = blk / 32 := by unfold superData; omega
  have hblk : blk < b.numBlocks := by
    rw [hs.1]; unfold divCeil blockData; omega
  have hsb : blk / 32 < b.numSuper := by
    rw [hs.2]; unfold divCeil superData; omega
  unfold BV.rank?
  simp only [e1, e2, e3]
  rw [hn, hns, if_neg (by omega), hsup _ hsb]
  have h8 : blk * blockWords = blk * 8 := rfl
  rw [h8]
  -- the words of the block
  have hfirst : b'.data (blk * 8 + 0) = withHeader (b.data (blk * 8)) (hdr b blk) := by
    rw [hd]; unfold updated; rw [if_pos (by omega), show (blk * 8 + 0) / 8 = blk by omega]; rfl
  have hfirst' : b'.data (blk * 8 + 0) >>> header = b.data (blk * 8) >>> 14 := by
    rw [hfirst]; exact withHeader_shr (hb _) (hdr_lt ..)
  have hrest : ∀ j, 0 < j → j < 8 → b'.data (blk * 8 + j) = b.data (blk * 8 + j) := by
    intro j h0 h7
    rw [hd]; unfold updated; rw [if_neg (by omega)]
  have hmono := before_mono b (k := 32 * (blk / 32)) (l := blk) (by omega)
  have hbase : before b (32 * (blk / 32)) + hdr b blk = before b blk := by unfold hdr; omega
  rw [hfirst']
  rw [hfirst, withHeader_header (hdr_lt ..), hbase, cnt_add, cnt_isSet_block b (by omega)]
  by_cases hw : (14 + y) / 64 = 0
  · rw [if_pos hw, show (14 + y) % 64 = 14 + y by omega]
    rw [cnt_block_first (d := fun i => b.data (blk * 8 + i)) (by omega)]
    by_cases hy0 : y = 0
    · subst hy0
      rw [if_neg (by show ¬ (14 + 0 ≠ 14); decide)]
      simp [before]
    · rw [if_pos (by show 14 + y ≠ 14; omega), Nat.mul_one,
        show 64 + header - (14 + y) = 64 - y by unfold header; omega,
        popcount_shl junk (by omega) (by omega), show 64 - (64 - y) = y by omega]
      unfold before
      congr 2
      exact cnt_congr fun i _ => Nat.testBit_shiftRight ..
  · rw [if_neg hw]
    obtain ⟨q, r, hr, hyq⟩ : ∃ q r, r < 64 ∧ y = 50 + (64 * q + r) :=
      ⟨(y - 50) / 64, (y - 50) % 64, by omega, by omega⟩
    have hq : (14 + y) / 64 = q + 1 := by omega
    have hrr : (14 + y) % 64 = r := by omega
    rw [hq, hrr, hyq, cnt_block (d := fun i => b.data (blk * 8 + i)) (hb _) (by omega), foldl_add]
    have e4 : (List.range (q + 1 - 1)).foldl
        (fun s j => s + popcount (b'.data (blk * 8 + (j + 1)))) 0 =
        (List.range q).foldl (fun s j => s + popcount (b.data (blk * 8 + (j + 1)))) 0 := by
      rw [Nat.add_sub_cancel]
      have : ∀ q, q < 8 → (List.range q).foldl
        (fun s j => s + popcount (b'.data (blk * 8 + (j + 1)))) 0 =
        (List.range q).foldl (fun s j => s + popcount (b.data (blk * 8 + (j + 1)))) 0 := by
        intro q
        induction q with
        | zero => intro _; rfl
        | succ q ih =>
          intro hq
          rw [List.range_succ, List.foldl_append, List.foldl_append, ih (by omega)]
          simp only [List.foldl_cons, List.foldl_nil]
          rw [hrest (q + 1) (by omega) (by omega)]
      exact this q (by omega)
    rw [e4, hrest (q + 1) (by omega) (by omega)]
    have e5 : popcount (shl junk (b.data (blk * 8 + (q + 1))) (64 - r)) * (if r ≠ 0 then 1 else 0) =
        cnt (b.data (blk * 8 + (q + 1))).testBit r := by
      by_cases hr0 : r = 0
      · subst hr0; simp
      · rw [if_pos hr0, Nat.mul_one, popcount_shl junk (by omega) (by omega),
          show 64 - (64 - r) = r by omega]
    rw [e5]
    unfold before
    simp only [Nat.add_zero, Option.some.injEq]
    omega

/-! ## `set` -/

theorem set_ok {b : BV} (hb : b.WF) (hs : b.Sized) {pos : Nat} (hpos : pos < b.length) (v : Bool) :
    ∃ b', b.set? pos v = some b' ∧ b'.WF ∧ b'.Sized ∧ b'.length = b.length ∧
      ∀ p, b'.isSet p = if p = pos then v else b.isSet p := by
  have hbit : bitOf pos < 64 := by unfold bitOf; omega
  have hword : wordOf pos < b.numBlocks * blockWords := by
    rw [hs.1, wordOf_eq]; unfold divCeil blockData blockWords; omega
  have hmask : 1 <<< bitOf pos < 2 ^ 64 := by
    rw [Nat.shiftLeft_eq, Nat.one_mul]; exact Nat.pow_lt_pow_right (by omega) hbit
  have htb : ∀ i, (1 <<< bitOf pos).testBit i = decide (bitOf pos = i) := by
    intro i; rw [Nat.shiftLeft_eq, Nat.one_mul, Nat.testBit_two_pow]
  -- bits of the new word
  have hnew : ∀ i, ((b.data (wordOf pos) &&& (2 ^ 64 - 1 - 1 <<< bitOf pos)) |||
      (if v then 1 <<< bitOf pos else 0)).testBit i =
      if i = bitOf pos then v else (b.data (wordOf pos)).testBit i := by
    intro i
    rw [Nat.testBit_or, Nat.testBit_and,
      show 2 ^ 64 - 1 - 1 <<< bitOf pos = 2 ^ 64 - (1 <<< bitOf pos + 1) by omega,
      Nat.testBit_two_pow_sub_succ hmask, htb]
    have hv : (if v then 1 <<< bitOf pos else 0).testBit i = (v && decide (bitOf pos = i)) := by
      cases v
      · simp
      · simp only [if_true, Bool.true_and]; exact htb i
    rw [hv]
    by_cases hi : i = bitOf pos
    · subst hi
      cases v <;> simp
    · have hi' : bitOf pos ≠ i := fun e => hi e.symm
      by_cases h64 : i < 64
      · cases v <;> simp [hi, hi', h64]
      · rw [testBit_big (hb _) (by omega)]
        cases v <;> simp [hi, hi']
  refine ⟨⟨b.length, b.numBlocks, b.numSuper, upd b.data (wordOf pos) ((b.data (wordOf pos) &&&
    (2 ^ 64 - 1 - 1 <<< bitOf pos)) ||| (if v then 1 <<< bitOf pos else 0)), b.super⟩,
    ?_, ?_, hs, rfl, ?_⟩
  · unfold BV.set?
    rw [if_neg (by omega)]
  · intro i
    show upd b.data (wordOf pos) _ i < _
    by_cases hi : i = wordOf pos
    · subst hi
      rw [upd_same]
      apply Nat.or_lt_two_pow
      · exact Nat.and_lt_two_pow _ (Nat.lt_of_le_of_lt (Nat.sub_le _ _) (by decide))
      · split
        · exact hmask
        · exact Nat.two_pow_pos _
    · rw [upd_ne _ _ hi]; exact hb i
  · intro p
    rw [isSet_eq, isSet_eq]
    show (upd b.data (wordOf pos) _ (wordOf p)).testBit (bitOf p) = _
    by_cases hp : p = pos
    · subst hp
      rw [upd_same, hnew, if_pos rfl, if_pos rfl]
    · rw [if_neg hp]
      by_cases hw : wordOf p = wordOf pos
      · rw [hw, upd_same, hnew, if_neg]
        intro hbp
        apply hp
        rw [wordOf_eq, wordOf_eq] at hw
        rw [bitOf_eq, bitOf_eq] at hbp
        omega
      · rw [upd_ne _ _ hw]

end Verif.Rank

import Verif.CompactArray.Model

/-!
# C14: the byte-compact array is an array
-/

namespace Verif.CompactArray

/-- Operations: writing, restricting the visible part and undoing the restriction. -/
inductive Op
  | write (i v : Nat)
  | restrict (n : Nat)
  | unrestrict
  deriving DecidableEq, Repr

/-- Specification: the values of all elements, how many are visible, and, while restricted, how many
there were before. -/
structure Spec where
  val : Nat → Nat
  num : Nat
  before : Option Nat

/-- Effect of an operation; `none`: not allowed.  Values need at most `bw` bytes, only visible elements
are written, and a restricted array is not restricted further. -/
def Spec.step (bw : Nat) (s : Spec) : Op → Option Spec
  | .write i v => if i < s.num ∧ v < 2 ^ (8 * bw) then some { s with val := upd s.val i v } else none
  | .restrict n => if n ≤ s.num ∧ s.before = none then some { s with num := n, before := some s.num } else none
  | .unrestrict => some { s with num := s.before.getD s.num, before := none }

def Spec.run (bw : Nat) : Spec → List Op → Option Spec
  | s, [] => some s
  | s, op :: ops => (s.step bw op).bind fun s => s.run bw ops

/-- The same on the model. -/
def Arr.op (a : Arr) : Op → Option Arr
  | .write i v => a.write? i v
  | .restrict n => a.restrict? n
  | .unrestrict => some a.unrestrict

def Arr.run : Arr → List Op → Option Arr
  | a, [] => some a
  | a, op :: ops => (a.op op).bind fun a => a.run ops

theorem and_255 (v : Nat) : v &&& 0b11111111 = v % 256 := Nat.and_two_pow_sub_one_eq_mod v 8

/-- Bytes outside the written range keep their value. -/
theorem writeBytes_other {alloc : Nat} : ∀ {n p : Nat} {mem mem' : Nat → Nat} {v : Nat},
    writeBytes alloc n p mem v = some mem' → ∀ q, q < p ∨ p + n ≤ q → mem' q = mem q
  | 0, p, mem, mem', v, h, q, _ => by cases h; rfl
  | n + 1, p, mem, mem', v, h, q, hq => by
    unfold writeBytes at h
    split at h
    · rw [writeBytes_other h q (by omega), upd_ne _ _ (by omega)]
    · cases h

theorem readBytes_congr {alloc : Nat} {mem mem' : Nat → Nat} : ∀ {n p : Nat},
    (∀ q, p ≤ q → q < p + n → mem q = mem' q) →
    readBytes alloc mem n p = readBytes alloc mem' n p
  | 0, _, _ => rfl
  | n + 1, p, h => by
    unfold readBytes
    rw [h p (by omega) (by omega), readBytes_congr fun q h1 h2 => h q (by omega) (by omega)]

theorem write_read {alloc : Nat} : ∀ {n p : Nat} {mem : Nat → Nat} {v : Nat}, p + n ≤ alloc →
    v < 2 ^ (8 * n) → ∃ mem', writeBytes alloc n p mem v = some mem' ∧
      readBytes alloc mem' n p = some v
  | 0, p, mem, v, _, hv => ⟨mem, rfl, by simp at hv; rw [hv]; rfl⟩
  | n + 1, p, mem, v, hp, hv => by
    have hv' : v >>> 8 < 2 ^ (8 * n) := by
      rw [Nat.shiftRight_eq_div_pow]
      rw [Nat.mul_add, Nat.pow_add] at hv
      exact Nat.div_lt_of_lt_mul (by rw [Nat.mul_comm]; exact hv)
    obtain ⟨mem', h1, h2⟩ := write_read (alloc := alloc) (n := n) (p := p + 1)
      (mem := upd mem p (v &&& 0b11111111)) (v := v >>> 8) (by omega) hv'
    refine ⟨mem', ?_, ?_⟩
    · unfold writeBytes
      rw [if_pos (by omega)]
      exact h1
    · unfold readBytes
      rw [if_pos (by omega), h2, writeBytes_other h1 p (by omega), upd_same, and_255,
        Nat.shiftRight_eq_div_pow]
      simp only [Option.map_some, Option.some.injEq]
      omega

/-- The memory holds the values. -/
structure Inv (I bw n : Nat) (a : Arr) (s : Spec) : Prop where
  eI : a.I = I
  ebw : a.bw = bw
  bw_pos : 0 < bw
  bw_le : bw ≤ I
  alloc : a.alloc = n * bw + I - bw
  num : a.num = s.num
  num_le : s.num ≤ n
  size : a.size = s.num * bw + I - bw
  restricted : ∀ m, s.before = some m → m ≤ n ∧ a.unum = m ∧ a.usize = m * bw + I - bw
  free : s.before = none → a.unum = s.num ∧ a.usize = a.size
  get : ∀ i, i < n → readBytes a.alloc a.mem bw (i * bw) = some (s.val i)

theorem mul_step {bw i j : Nat} (h : i < j) : i * bw + bw ≤ j * bw := by
  have := Nat.mul_le_mul_right bw (show i + 1 ≤ j from h)
  rwa [Nat.add_mul, Nat.one_mul] at this

theorem Inv.step {I bw n : Nat} {a : Arr} {s s' : Spec} (h : Inv I bw n a s) {op : Op}
    (hs : s.step bw op = some s') : ∃ a', a.op op = some a' ∧ Inv I bw n a' s' := by
  cases op with
  | write i v =>
    simp only [Spec.step] at hs
    split at hs
    · rename_i hc
      cases hs
      obtain ⟨hi, hv⟩ := hc
      have hin : i < n := Nat.lt_of_lt_of_le hi h.num_le
      have hfit : i * bw + bw ≤ a.alloc := by
        have h1 := mul_step (bw := bw) hin
        have h2 := h.bw_le
        rw [h.alloc]
        generalize i * bw = x at *
        generalize n * bw = y at *
        omega
      obtain ⟨mem', h1, h2⟩ := write_read (mem := a.mem) hfit hv
      refine ⟨{ a with mem := mem' }, ?_, ⟨h.eI, h.ebw, h.bw_pos, h.bw_le, h.alloc, h.num, h.num_le,
        h.size, h.restricted, h.free, ?_⟩⟩
      · show a.write? i v = _
        unfold Arr.write?
        rw [if_neg (by rw [h.num, h.ebw]; omega), h.ebw, h1]
        rfl
      · intro j hj
        show readBytes a.alloc mem' bw (j * bw) = some (upd s.val i v j)
        by_cases hij : j = i
        · subst hij; rw [upd_same]; exact h2
        · rw [upd_ne _ _ hij, ← h.get j hj]
          apply readBytes_congr
          intro q hq1 hq2
          apply writeBytes_other h1
          rcases Nat.lt_or_gt_of_ne hij with hlt | hgt
          · have := mul_step (bw := bw) hlt
            generalize i * bw = x at *
            generalize j * bw = y at *
            omega
          · have := mul_step (bw := bw) hgt
            generalize i * bw = x at *
            generalize j * bw = y at *
            omega
    · cases hs
  | restrict m =>
    simp only [Spec.step] at hs
    split at hs
    · rename_i hc
      cases hs
      refine ⟨{ a with usize := a.size, size := m * a.bw + a.I - a.bw, unum := a.num, num := m }, ?_,
        ⟨h.eI, h.ebw, h.bw_pos, h.bw_le, h.alloc, rfl, Nat.le_trans hc.1 h.num_le, ?_, ?_,
        (fun h => nomatch h), h.get⟩⟩
      · show a.restrict? m = _
        unfold Arr.restrict?
        rw [if_pos (by rw [h.num]; exact hc.1)]
      · show m * a.bw + a.I - a.bw = _
        rw [h.ebw, h.eI]
      · intro m' hm'
        cases hm'
        exact ⟨h.num_le, h.num, h.size⟩
    · cases hs
  | unrestrict =>
    cases hs
    refine ⟨a.unrestrict, rfl, ?_⟩
    cases hb : s.before with
    | none =>
      obtain ⟨h1, h2⟩ := h.free hb
      exact ⟨h.eI, h.ebw, h.bw_pos, h.bw_le, h.alloc, h1, h.num_le, h2.trans h.size, (fun _ h => nomatch h),
        fun _ => ⟨h1, rfl⟩, h.get⟩
    | some m =>
      obtain ⟨h1, h2, h3⟩ := h.restricted m hb
      exact ⟨h.eI, h.ebw, h.bw_pos, h.bw_le, h.alloc, h2, h1, h3, (fun _ h => nomatch h),
        fun _ => ⟨h2, rfl⟩, h.get⟩

theorem Inv.run {I bw n : Nat} : ∀ (ops : List Op) {a : Arr} {s s' : Spec}, Inv I bw n a s →
    s.run bw ops = some s' → ∃ a', a.run ops = some a' ∧ Inv I bw n a' s'
  | [], a, s, s', h, hs => by cases hs; exact ⟨a, rfl, h⟩
  | op :: ops, a, s, s', h, hs => by
    simp only [Spec.run] at hs
    cases h1 : s.step bw op with
    | none => rw [h1] at hs; cases hs
    | some s1 =>
      rw [h1] at hs
      obtain ⟨q1, a1, b⟩ := h.step h1
      obtain ⟨q2, a', b'⟩ := Inv.run ops b hs
      exact ⟨q2, by simp only [Arr.run, a1, Option.bind_some]; exact a', b'⟩

theorem readBytes_zero {alloc : Nat} : ∀ {n p : Nat}, p + n ≤ alloc →
    readBytes alloc (fun _ => 0) n p = some 0
  | 0, _, _ => rfl
  | n + 1, p, h => by
    unfold readBytes
    rw [if_pos (by omega), readBytes_zero (by omega)]
    rfl

theorem Inv.new {I bw n : Nat} (h1 : 1 ≤ bw) (h8 : bw ≤ 8) (hI : bw ≤ I) :
    ∃ a, Arr.new? I bw n = some a ∧ Inv I bw n a ⟨fun _ => 0, n, none⟩ := by
  refine ⟨_, by unfold Arr.new?; rw [if_neg (by omega)], ⟨rfl, rfl, h1, hI, rfl, rfl, Nat.le_refl _,
    rfl, (fun _ h => nomatch h), (fun _ => ⟨rfl, rfl⟩), ?_⟩⟩
  intro i hi
  apply readBytes_zero
  have := mul_step (bw := bw) hi
  show i * bw + bw ≤ n * bw + I - bw
  generalize i * bw = x at *
  generalize n * bw = y at *
  omega

theorem Inv.size_eq {I bw n : Nat} {a : Arr} {s : Spec} (h : Inv I bw n a s) :
    a.size - (a.I - a.bw) = s.num * bw := by
  rw [h.size, h.eI, h.ebw]
  have := h.bw_le
  generalize s.num * bw = x
  omega

theorem Inv.iterFrom {I bw n : Nat} {a : Arr} {s : Spec} (h : Inv I bw n a s) :
    ∀ (k fuel : Nat), k ≤ s.num → k + 1 ≤ fuel →
      a.iterFrom fuel ((s.num - k) * bw) =
        some ((List.range k).map fun i => s.val (s.num - k + i))
  | k, 0, _, hf => by omega
  | 0, fuel + 1, _, _ => by
    unfold Arr.iterFrom
    rw [h.size_eq, Nat.sub_zero, if_pos rfl]
    rfl
  | k + 1, fuel + 1, hk, hf => by
    have hpos := h.bw_pos
    have hlt : s.num - (k + 1) < s.num := by omega
    have h1 := mul_step (bw := bw) hlt
    unfold Arr.iterFrom
    rw [h.size_eq, if_neg (by omega)]
    have h2 := h.get (s.num - (k + 1)) (by have := h.num_le; omega)
    rw [h.ebw, h2]
    simp only [Option.bind_eq_bind, Option.bind_some]
    have h3 : (s.num - (k + 1)) * bw + bw = (s.num - k) * bw := by
      rw [show s.num - k = s.num - (k + 1) + 1 by omega, Nat.add_mul, Nat.one_mul]
    rw [h3, h.iterFrom k fuel (by omega) (by omega)]
    simp only [Option.bind_some, List.range_succ_eq_map, List.map_cons, List.map_map, Nat.add_zero]
    congr 2
    apply List.map_congr_left
    intro i _
    show s.val _ = s.val _
    congr 1
    omega

theorem Inv.size_ge {I bw n : Nat} {a : Arr} {s : Spec} (h : Inv I bw n a s) : s.num ≤ a.size := by
  rw [h.size]
  have h1 := h.bw_pos
  have h2 := h.bw_le
  have h3 : s.num * 1 ≤ s.num * bw := Nat.mul_le_mul_left _ h1
  omega

/-- C14: for every width of 1..8 bytes that fits the integer type (`I` bytes), every size and every
allowed history of writes, restrictions and their removal, all accesses are in bounds, reading a
visible element returns the last value written to it (0 if there is none), the size is the number of
visible elements, and the iteration visits exactly their values in order. -/
theorem C14_compact_array (I bw n : Nat) (h1 : 1 ≤ bw) (h8 : bw ≤ 8) (hI : bw ≤ I) (ops : List Op)
    (s : Spec) (hs : Spec.run bw ⟨fun _ => 0, n, none⟩ ops = some s) :
    ∃ a, (Arr.new? I bw n).bind (·.run ops) = some a ∧ a.num = s.num ∧
      (∀ i, i < s.num → a.get? i = some (s.val i)) ∧
      a.iter? = some ((List.range s.num).map s.val) := by
  obtain ⟨a0, e, h0⟩ := Inv.new (I := I) (n := n) h1 h8 hI
  obtain ⟨a, e', h⟩ := h0.run ops hs
  refine ⟨a, by rw [e]; exact e', h.num, ?_, ?_⟩
  · intro i hi
    unfold Arr.get?
    rw [if_neg (by rw [h.num]; omega), h.ebw]
    exact h.get i (Nat.lt_of_lt_of_le hi h.num_le)
  · have := h.iterFrom s.num (a.size + 1) (Nat.le_refl _) (by have := h.size_ge; omega)
    rw [Nat.sub_self, Nat.zero_mul] at this
    unfold Arr.iter?
    rw [this]
    simp

/-- C14: handing the memory of an unrestricted array to a second array yields the same values. -/
theorem C14_from_memory (I bw n : Nat) (h1 : 1 ≤ bw) (h8 : bw ≤ 8) (hI : bw ≤ I) (hn : 0 < n) (ops : List Op)
    (s : Spec) (hs : Spec.run bw ⟨fun _ => 0, n, none⟩ ops = some s) (hu : s.before = none)
    (hfull : s.num = n) :
    ∃ a b, (Arr.new? I bw n).bind (·.run ops) = some a ∧ Arr.ofData? I bw a.usize a.mem = some b ∧
      b.num = n ∧ ∀ i, b.get? i = a.get? i := by
  obtain ⟨a0, e, h0⟩ := Inv.new (I := I) (n := n) h1 h8 hI
  obtain ⟨a, e', h⟩ := h0.run ops hs
  obtain ⟨f1, f2⟩ := h.free hu
  have hsz : a.usize = n * bw + I - bw := by rw [f2, h.size, hfull]
  have hge : bw ≤ n * bw := by
    have := Nat.mul_le_mul_right bw hn
    rwa [Nat.one_mul] at this
  have hnum : (a.usize - (I - bw)) / bw = n := by
    rw [hsz, show n * bw + I - bw - (I - bw) = n * bw by generalize n * bw = x at *; omega]
    exact Nat.mul_div_cancel _ h1
  refine ⟨a, ⟨I, bw, a.usize, (a.usize - (I - bw)) / bw, a.usize, (a.usize - (I - bw)) / bw, a.usize,
    a.mem⟩, by rw [e]; exact e', ?_, ?_, ?_⟩
  · unfold Arr.ofData?
    rw [if_neg (by rw [hsz]; generalize n * bw = x at *; omega)]
  · exact hnum
  · intro i
    unfold Arr.get?
    show (if (a.usize - (I - bw)) / bw ≤ i then none else readBytes a.usize a.mem bw (i * bw)) = _
    rw [hnum, h.num, hfull, h.ebw, h.alloc, hsz]

example : Spec.run 3 ⟨fun _ => 0, 4, none⟩ [.write 0 70000, .write 1 5, .restrict 2, .write 1 16777215,
    .unrestrict, .write 3 256] ≠ none := by
  simp [Spec.run, Spec.step]

example : ((Arr.new? 4 3 4).bind (·.run [.write 0 70000, .write 1 5, .restrict 2, .write 1 16777215,
    .unrestrict, .write 3 256])).bind (·.iter?) = some [70000, 16777215, 0, 256] := by decide +kernel

/-- Restricting twice forgets the original size. -/
theorem C14_restrict_twice :
    ((Arr.new? 4 3 4).bind (·.run [.restrict 3, .restrict 2, .unrestrict])).map (·.num) = some 3 := rfl

end Verif.CompactArray

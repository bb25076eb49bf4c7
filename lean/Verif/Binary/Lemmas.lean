import Verif.Binary.Model
import Verif.CsrGraph.Props

/-!
# Lemmas on binary files
-/

namespace Verif.Binary
open Verif.Math Verif.CsrGraph

theorem ok_bind {α β : Type} (a : α) (f : α → Res β) : (Except.ok a >>= f) = f a := rfl
theorem pure_eq {α : Type} (a : α) : (pure a : Res α) = .ok a := rfl

/-! ### Bytes -/

theorem le_length : ∀ k x, (le k x).length = k
  | 0, _ => rfl
  | k + 1, x => by rw [le, List.length_cons, le_length]

theorem ofLe_le : ∀ (k x : Nat), x < 2 ^ (8 * k) → ofLe (le k x) = x
  | 0, x, h => by
    have : x = 0 := by simpa using h
    rw [this]; rfl
  | k + 1, x, h => by
    rw [le, ofLe, ofLe_le k (x / 256)]
    · omega
    · apply Nat.div_lt_of_lt_mul
      rw [show 8 * (k + 1) = 8 + 8 * k by omega, Nat.pow_add] at h
      exact h

theorem ofLe_append (a b : List Nat) : ofLe (a ++ b) = ofLe a + 256 ^ a.length * ofLe b := by
  induction a with
  | nil => simp [ofLe]
  | cons x a ih =>
    rw [List.cons_append, ofLe, ofLe, ih, List.length_cons, Nat.pow_succ]
    ring

theorem bits_of_nonneg {k : Nat} {x : Int} (h0 : 0 ≤ x) (h : x < 2 ^ (8 * k)) : bits k x = x.toNat := by
  rw [bits, Int.emod_eq_of_lt h0 h]

theorem signed_bits {k : Nat} {x : Int} (h0 : 0 ≤ x) (h : x < 2 ^ (8 * k - 1)) : signed k (bits k x) = x := by
  have hle : (2 : Int) ^ (8 * k - 1) ≤ 2 ^ (8 * k) := by
    exact_mod_cast Nat.pow_le_pow_right (n := 2) (by decide) (by omega)
  rw [bits_of_nonneg h0 (lt_of_lt_of_le h hle), signed, if_pos]
  · exact Int.toNat_of_nonneg h0
  · have : ((x.toNat : Nat) : Int) < ((2 ^ (8 * k - 1) : Nat) : Int) := by
      rw [Int.toNat_of_nonneg h0]; push_cast; exact h
    exact_mod_cast this

theorem bits_lt (k : Nat) (x : Int) : bits k x < 2 ^ (8 * k) := by
  unfold bits
  have h1 : (0 : Int) < 2 ^ (8 * k) := by positivity
  have h2 := Int.emod_lt_of_pos x h1
  have h3 := Int.emod_nonneg x h1.ne'
  zify
  rw [Int.toNat_of_nonneg h3]
  exact h2

theorem mapM_ok {α β : Type} {f : α → Res β} {g : α → β} : ∀ {l : List α}, (∀ x ∈ l, f x = .ok (g x)) →
    l.mapM f = .ok (l.map g)
  | [], _ => rfl
  | x :: l, h => by
    rw [List.mapM_cons, h x List.mem_cons_self, ok_bind, mapM_ok fun y hy => h y (List.mem_cons_of_mem _ hy), ok_bind]
    rfl

theorem byte_ok {m : Mapped} {p : Nat} {b : Nat} (h : m.file[p]? = some b) : m.byte p = .ok b := by
  rw [Mapped.byte, h]

theorem getD_lt {α : Type} {l : List α} {i : Nat} {d : α} (h : i < l.length) : l.getD i d = l[i] := by
  rw [List.getD_eq_getElem?_getD, List.getElem?_eq_getElem h]; rfl

/-- An integer that is stored in the file. -/
theorem int_ok {pre post : List Nat} {k x : Nat} (h : x < 2 ^ (8 * k)) (page : Nat) {p : Nat} (hp : p = pre.length) :
    Mapped.int ⟨pre ++ le k x ++ post, page⟩ k p = .ok x := by
  subst hp
  unfold Mapped.int
  rw [mapM_ok (g := fun i => (le k x).getD i 0)]
  · rw [ok_bind, pure_eq]
    congr 1
    rw [show (List.range k).map (fun i => (le k x).getD i 0) = le k x from ?_, ofLe_le k x h]
    apply List.ext_getElem
    · simp [le_length]
    · intro i h1 h2
      rw [List.getElem_map, List.getElem_range, getD_lt h2]
  · intro i hi
    have hik := List.mem_range.1 hi
    apply byte_ok
    rw [List.append_assoc, List.getElem?_append_right (by omega), Nat.add_sub_cancel_left,
      List.getElem?_append_left (by rw [le_length]; exact hik), getD_lt (by rw [le_length]; exact hik)]
    exact List.getElem?_eq_getElem _

theorem flatMap_le_length (k : Nat) : ∀ l : List Nat, (l.flatMap (le k)).length = k * l.length
  | [] => by simp
  | x :: l => by
    rw [List.flatMap_cons, List.length_append, le_length, flatMap_le_length k l, List.length_cons]
    ring

/-- An array that is stored in the file. -/
theorem ints_ok {pre post : List Nat} {k : Nat} {l : List Nat} (h : ∀ x ∈ l, x < 2 ^ (8 * k)) (page : Nat) {p : Nat}
    (hp : p = pre.length) : Mapped.ints ⟨pre ++ l.flatMap (le k) ++ post, page⟩ k p l.length = .ok l := by
  subst hp
  unfold Mapped.ints
  rw [mapM_ok (g := fun i => l.getD i 0)]
  · congr 1
    apply List.ext_getElem
    · simp
    · intro i h1 h2
      rw [List.getElem_map, List.getElem_range, getD_lt h2]
  · intro i hi
    have hik := List.mem_range.1 hi
    have e : l = l.take i ++ l[i] :: l.drop (i + 1) := by
      rw [← List.drop_eq_getElem_cons hik, List.take_append_drop]
    have e2 : pre ++ l.flatMap (le k) ++ post =
        (pre ++ (l.take i).flatMap (le k)) ++ le k l[i] ++ ((l.drop (i + 1)).flatMap (le k) ++ post) := by
      have e3 : l.flatMap (le k) = (l.take i).flatMap (le k) ++ (le k l[i] ++ (l.drop (i + 1)).flatMap (le k)) := by
        conv_lhs => rw [e]
        rw [List.flatMap_append, List.flatMap_cons]
      rw [e3]
      simp only [List.append_assoc]
    rw [e2, int_ok (h _ (List.getElem_mem hik)) page, getD_lt hik]
    rw [List.length_append, flatMap_le_length, List.length_take, Nat.min_eq_left (by omega)]

theorem sz_cases (b : Bool) : sz b = 4 ∨ sz b = 8 := by cases b <;> simp [sz]

theorem pow_sz_le (b : Bool) : 2 ^ (8 * sz b) ≤ 2 ^ 64 := by cases b <;> decide

/-- The flags of the header survive. -/
theorem header_ofVersion (b : Build) (hasEw hasNw : Bool) (n m : Nat) :
    Header.ofVersion (version b hasEw hasNw) n m = ⟨hasEw, hasNw, b.e64, b.n64, b.nw64, b.ew64, n, m⟩ := by
  obtain ⟨b1, b2, b3, b4⟩ := b
  cases b1 <;> cases b2 <;> cases b3 <;> cases b4 <;> cases hasEw <;> cases hasNw <;> rfl

theorem version_lt (b : Build) (hasEw hasNw : Bool) : version b hasEw hasNw < 64 := by
  obtain ⟨b1, b2, b3, b4⟩ := b
  cases b1 <;> cases b2 <;> cases b3 <;> cases b4 <;> cases hasEw <;> cases hasNw <;> decide

theorem readIds_ok {b64 h64 : Bool} (hle : h64 = true → b64 = true) {pre post l : List Nat}
    (h : ∀ x ∈ l, x < 2 ^ (8 * sz h64)) (page : Nat) {p len : Nat} (hp : p = pre.length) (hlen : len = l.length) :
    readIds b64 h64 ⟨pre ++ l.flatMap (le (sz h64)) ++ post, page⟩ p len = .ok l := by
  subst hlen
  unfold readIds
  cases h64 with
  | true =>
    rw [hle rfl]
    exact ints_ok h page hp
  | false =>
    cases b64 with
    | true => exact ints_ok (k := 4) h page hp
    | false => exact ints_ok h page hp

theorem readWeights_ok {b64 h64 : Bool} (hle : h64 = true → b64 = true) {pre post : List Nat} {l : List Int}
    (h : ∀ x ∈ l, 0 ≤ x ∧ x < 2 ^ (8 * sz h64 - 1)) (page : Nat) {p len : Nat} (hp : p = pre.length)
    (hlen : len = l.length) :
    readWeights b64 h64 ⟨pre ++ (l.flatMap fun x => le (sz h64) (bits (sz h64) x)) ++ post, page⟩ p len = .ok l := by
  subst hlen
  have e : (l.flatMap fun x => le (sz h64) (bits (sz h64) x)) = (l.map (bits (sz h64))).flatMap (le (sz h64)) := by
    rw [List.flatMap_map]
  have hl : ∀ x ∈ l.map (bits (sz h64)), x < 2 ^ (8 * sz h64) := by
    intro x hx
    obtain ⟨y, -, rfl⟩ := List.mem_map.1 hx
    exact bits_lt _ _
  have hread := ints_ok (pre := pre) (post := post) hl page hp
  rw [List.length_map, ← e] at hread
  have hid : ∀ f : Nat → Int, (∀ x ∈ l, f (bits (sz h64) x) = x) → (l.map (bits (sz h64))).map f = l := by
    intro f hf
    rw [List.map_map]
    conv_rhs => rw [← List.map_id l]
    exact List.map_congr_left hf
  unfold readWeights
  cases h64 with
  | true =>
    rw [hle rfl]
    simp only [Bool.not_true, Bool.false_and, Bool.false_eq_true, if_false]
    rw [hread, ok_bind, pure_eq, hid _ fun x hx => signed_bits (h x hx).1 (h x hx).2]
  | false =>
    cases b64 with
    | true =>
      simp only [Bool.not_false, Bool.true_and, if_true]
      rw [show sz false = 4 from rfl] at hread hid h ⊢
      rw [hread, ok_bind, pure_eq, hid _ fun x hx => ?_]
      have h2 : x < 2 ^ (8 * 4) := lt_of_lt_of_le (h x hx).2 (by decide)
      rw [bits_of_nonneg (h x hx).1 h2]
      exact Int.toNat_of_nonneg (h x hx).1
    | false =>
      simp only [Bool.not_false, Bool.true_and, Bool.false_eq_true, if_false]
      rw [hread, ok_bind, pure_eq, hid _ fun x hx => signed_bits (h x hx).1 (h x hx).2]

end Verif.Binary

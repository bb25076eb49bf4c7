import Verif.Files.Model
import Verif.Files.Spec

/-!
# Reading a file that follows the format: the tokenizer
-/

namespace Verif.Files
open Verif.CsrGraph (Arr)

@[simp] theorem ok_bind {α β : Type} (a : α) (f : α → Res β) : ((Except.ok a : Res α) >>= f) = f a := rfl
@[simp] theorem pure_eq {α : Type} (a : α) : (pure a : Res α) = .ok a := rfl

theorem kassert_ok {dbg b : Bool} (h : dbg = true → b = true) : kassert dbg b = .ok () := by
  unfold kassert
  cases dbg <;> cases b <;> simp_all

theorem isDigit_of {d : Nat} {c : Char} (h : IsDigit d c) : isDigit c = true ∧ c.toNat - '0'.toNat = d ∧ c ≠ ' ' ∧ c ≠ '%' ∧ c ≠ '\n' := by
  cases h <;> decide

theorem scanDigits_numeral {x : Nat} {s : List Char} (h : IsNumeral x s) :
    ∀ r, scanDigits 0 (s ++ r) = scanDigits (x % 2 ^ 64) r := by
  induction h with
  | one hd =>
    intro r
    obtain ⟨h1, h2, -⟩ := isDigit_of hd
    simp only [List.singleton_append, scanDigits, h1, h2, if_true, Nat.zero_mul, Nat.zero_add]
  | more hn hd ih =>
    intro r
    obtain ⟨h1, h2, -⟩ := isDigit_of hd
    rw [List.append_assoc, ih]
    simp only [List.singleton_append, scanDigits, h1, h2, if_true]
    congr 1
    omega

theorem numeral_cons {x : Nat} {s : List Char} (h : IsNumeral x s) : ∃ d c r, s = c :: r ∧ IsDigit d c := by
  induction h with
  | one hd => exact ⟨_, _, _, rfl, hd⟩
  | more hn hd ih =>
    obtain ⟨d, c, r, rfl, h⟩ := ih
    exact ⟨d, c, r ++ _, rfl, h⟩

theorem scanDigits_stop (a : Nat) {r : List Char} (h : ∀ c ∈ r.head?, isDigit c = false) : scanDigits a r = (a, r) := by
  cases r with
  | nil => rfl
  | cons c r => simp [scanDigits, h c (by simp)]

theorem dropSpaces_blank {sp : List Char} (h : IsBlank sp) (r : List Char) : dropSpaces (sp ++ r) = dropSpaces r := by
  induction sp with
  | nil => rfl
  | cons c sp ih =>
    have := h c List.mem_cons_self
    subst this
    simp only [List.cons_append, dropSpaces, if_true]
    exact ih fun c hc => h c (List.mem_cons_of_mem _ hc)

theorem dropSpaces_stop {r : List Char} (h : ∀ c ∈ r.head?, c ≠ ' ') : dropSpaces r = r := by
  cases r with
  | nil => rfl
  | cons c r => simp [dropSpaces, h c (by simp)]

/-- The end of a line or of the file. -/
def End (r : List Char) : Prop := ∀ c ∈ r.head?, c = '\n'

theorem end_nil : End [] := fun _ h => by simp at h
theorem end_cons (r : List Char) : End ('\n' :: r) := fun c h => by simpa using h.symm

/-- What follows the fields of a line does not start with a space or with `%`. -/
theorem fields_head {xs : List Nat} {f r : List Char} (h : IsFields xs f) (hr : End r) :
    ∀ c ∈ (f ++ r).head?, c ≠ ' ' ∧ c ≠ '%' ∧ (xs = [] → isDigit c = false) ∧ (xs ≠ [] → isDigit c = true) := by
  cases h with
  | nil =>
    intro c hc
    have := hr c (by simpa using hc)
    subst this
    exact ⟨by decide, by decide, fun _ => by decide, fun h => absurd rfl h⟩
  | cons hn hb hs hf =>
    obtain ⟨d, c, t, rfl, hd⟩ := numeral_cons hn
    obtain ⟨h1, -, h2, h3, -⟩ := isDigit_of hd
    intro c' hc
    simp only [List.cons_append, List.head?_cons, Option.mem_some_iff] at hc
    subst hc
    exact ⟨h2, h3, (fun h => nomatch h), fun _ => h1⟩

theorem fields_ne_nil {x : Nat} {xs : List Nat} {f : List Char} (h : IsFields (x :: xs) f) : f ≠ [] := by
  cases h with
  | cons hn hb hs hf =>
    obtain ⟨d, c, t, rfl, hd⟩ := numeral_cons hn
    simp

/-- Scanning the next field of a line. -/
theorem scan_field {x : Nat} {xs : List Nat} {f : List Char} (h : IsFields (x :: xs) f) {r : List Char} (hr : End r)
    (hx : x < 2 ^ 64) (dbg : Bool) (o sl : Nat) :
    ∃ f', IsFields xs f' ∧ f'.length < f.length ∧
      Toker.scanUint dbg ⟨f ++ r, o, sl⟩ = .ok (x, ⟨f' ++ r, o, sl⟩) := by
  cases h with
  | @cons _ _ num sp f' hn hb hs hf =>
    obtain ⟨d, c, t, rfl, hd⟩ := numeral_cons hn
    refine ⟨f', hf, by simp; omega, ?_⟩
    unfold Toker.scanUint
    rw [kassert_ok (by intro _; exact (isDigit_of hd).1)]
    have hsc : scanDigits 0 (c :: t ++ sp ++ f' ++ r) = (x, sp ++ (f' ++ r)) := by
      rw [List.append_assoc, List.append_assoc, scanDigits_numeral hn, Nat.mod_eq_of_lt hx]
      refine scanDigits_stop _ ?_
      intro c' hc
      cases sp with
      | nil =>
        have hxs : xs = [] := by
          by_contra hne
          exact hs hne rfl
        exact (fields_head hf hr c' hc).2.2.1 hxs
      | cons b sp =>
        simp only [List.cons_append, List.head?_cons, Option.mem_some_iff] at hc
        have := hb b List.mem_cons_self
        subst hc; subst this
        decide
    simp only [ok_bind, pure_eq]
    rw [hsc]
    simp only [Toker.skipSpaces]
    rw [dropSpaces_blank hb, dropSpaces_stop fun c hc => (fields_head hf hr c hc).1]

/-- A position at which a character can be read: not behind the mapping. -/
def Mapped (t : Toker) : Prop := t.rest = [] → t.over < t.slack

theorem cur_mapped {t : Toker} (h : Mapped t) : ∃ c, t.cur = .ok c ∧ ∀ d ∈ t.rest.head?, c = d := by
  obtain ⟨r, o, sl⟩ := t
  cases r with
  | nil => exact ⟨'\x00', by simp [Toker.cur, h rfl], by simp⟩
  | cons c r => exact ⟨c, rfl, by simp⟩

theorem cur_head {t : Toker} {p : Char → Prop} (h : Mapped t) (h0 : p '\x00') (hp : ∀ c ∈ t.rest.head?, p c) :
    ∃ c, t.cur = .ok c ∧ p c := by
  obtain ⟨r, o, sl⟩ := t
  cases r with
  | nil => exact ⟨'\x00', by simp [Toker.cur, h rfl], h0⟩
  | cons c r => exact ⟨c, rfl, hp c (by simp)⟩

theorem dropLine_body {body : List Char} (h : '\n' ∉ body) (r : List Char) : dropLine (body ++ '\n' :: r) = r := by
  induction body with
  | nil => simp [dropLine]
  | cons c b ih =>
    have hc : c ≠ '\n' := fun e => h (by simp [e])
    simp only [List.cons_append, dropLine, hc, if_false]
    exact ih fun hm => h (List.mem_cons_of_mem _ hm)

/-- Skipping the comments before a line. -/
theorem skipComments_ok {com : List Char} (hc : IsComments com) {sp x : List Char} (hsp : IsBlank sp)
    (hx : ∀ c ∈ x.head?, c ≠ ' ' ∧ c ≠ '%') (o sl : Nat) (hm : Mapped ⟨x, o, sl⟩) :
    ∀ fuel, com.length ≤ fuel →
      skipComments fuel ⟨dropSpaces (com ++ sp ++ x), o, sl⟩ = .ok ⟨x, o, sl⟩ := by
  induction hc with
  | nil =>
    intro fuel _
    rw [List.nil_append, dropSpaces_blank hsp, dropSpaces_stop fun c hc => (hx c hc).1]
    obtain ⟨c, h1, h2⟩ := cur_head (p := fun c => c ≠ '%') hm (by decide) fun c hc => (hx c hc).2
    cases fuel <;> simp [skipComments, h1, h2]
  | @cons sp' body rest hb hn hr ih =>
    intro fuel hf
    simp only [List.length_append, List.length_cons] at hf
    obtain ⟨fuel, rfl⟩ : ∃ k, fuel = k + 1 := ⟨fuel - 1, by omega⟩
    have e : sp' ++ '%' :: body ++ '\n' :: rest ++ sp ++ x = sp' ++ ('%' :: (body ++ '\n' :: (rest ++ sp ++ x))) := by
      simp
    rw [e, dropSpaces_blank hb]
    have e2 : dropSpaces ('%' :: (body ++ '\n' :: (rest ++ sp ++ x))) = '%' :: (body ++ '\n' :: (rest ++ sp ++ x)) := by
      simp [dropSpaces]
    rw [e2]
    simp only [skipComments, Toker.cur, ok_bind, if_true, Toker.skipLine, Toker.skipSpaces, dropLine]
    rw [if_neg (by decide), dropLine_body hn]
    exact ih fuel (by omega)

/-- Going to the next line that is not a comment. -/
theorem skipToLine_ok {xs : List Nat} {s : List Char} (h : IsLine xs s) {r : List Char} (hr : End r) (o sl : Nat)
    (hm' : xs = [] → r = [] → o < sl) :
    ∃ f, IsFields xs f ∧ f.length ≤ s.length ∧ skipToLine ⟨s ++ r, o, sl⟩ = .ok ⟨f ++ r, o, sl⟩ := by
  obtain ⟨com, sp, f, rfl, hc, hb, hf⟩ := h
  refine ⟨f, hf, by simp; omega, ?_⟩
  unfold skipToLine
  simp only [Toker.skipSpaces]
  rw [List.append_assoc (com ++ sp)]
  refine skipComments_ok hc hb (fun c hc => ⟨(fields_head hf hr c hc).1, (fields_head hf hr c hc).2.1⟩) o sl ?_ _ ?_
  · intro he
    obtain ⟨h1, h2⟩ := List.append_eq_nil_iff.1 he
    refine hm' ?_ h2
    cases xs with
    | nil => rfl
    | cons x xs => exact absurd h1 (fields_ne_nil hf)
  · simp

theorem skipLast_ok {tail : List Char} (h : IsComments tail) (o sl : Nat) (hm : o < sl) :
    ∀ fuel, tail.length ≤ fuel → ∃ t, skipLastComments fuel ⟨tail, o, sl⟩ = .ok t := by
  induction h with
  | nil =>
    intro fuel _
    cases fuel <;> simp [skipLastComments, Toker.cur, hm]
  | @cons sp body rest hb hn hr ih =>
    intro fuel hf
    simp only [List.length_append, List.length_cons] at hf
    obtain ⟨fuel, rfl⟩ : ∃ k, fuel = k + 1 := ⟨fuel - 1, by omega⟩
    cases sp with
    | nil =>
      simp only [List.nil_append, List.cons_append, skipLastComments, Toker.cur, ok_bind, if_true, Toker.skipLine, dropLine]
      rw [if_neg (by decide), dropLine_body hn]
      exact ih fuel (by omega)
    | cons c sp =>
      have := hb c List.mem_cons_self
      subst this
      simp [skipLastComments, Toker.cur]

end Verif.Files

import Verif.Files.Lemmas

/-!
# Reading a file that follows the format: the parser calls the callbacks with what the file describes
-/

namespace Verif.Files
open Verif.CsrGraph (Arr)
open Verif.Math (subW)

theorem sub_one64 {x : Nat} (h : x + 1 < 2 ^ 64) : subW 64 (x + 1) 1 = x := by
  unfold subW
  omega

/-- The calls of the edge callback for the neighbours of a node. -/
def feedEdges {σ : Type} (edgeCb : σ → Nat → Nat → Res σ) : List (Nat × Nat) → σ → Res σ
  | [], s => .ok s
  | y :: nb, s => do
    let s ← edgeCb s y.2 y.1
    feedEdges edgeCb nb s

/-- The calls of the callbacks for a described graph. -/
def feed {σ : Type} (nodeCb : σ → Nat → Res σ) (edgeCb : σ → Nat → Nat → Res σ) : Desc → σ → Res σ
  | [], s => .ok s
  | x :: d, s => do
    let s ← nodeCb s x.1
    let s ← feedEdges edgeCb x.2 s
    feed nodeCb edgeCb d s

/-- A weight the parser accepts; `has` says whether the file contains weights, `b` is the width of the type. -/
def WeightOk (dbg has : Bool) (b x : Nat) : Prop :=
  x < 2 ^ 64 ∧ (has = false → x = 1) ∧ (dbg = true → has = true → 1 ≤ x ∧ x ≤ 2 ^ (b - 1) - 1)

/-- Node `u` is accepted. -/
structure NodeOk (w : Widths) (dbg : Bool) (h : Header) (u : Nat) (x : Nat × List (Nat × Nat)) : Prop where
  weight : WeightOk dbg h.hasNw w.nw x.1
  edge : ∀ y ∈ x.2, WeightOk dbg h.hasEw w.ew y.2
  target : ∀ y ∈ x.2, y.1 + 1 < 2 ^ 64
  inside : dbg = true → ∀ y ∈ x.2, y.1 < h.n
  noLoop : dbg = true → ∀ y ∈ x.2, u ≠ y.1

variable {σ : Type} {w : Widths} {dbg : Bool} {h : Header} {nodeCb : σ → Nat → Res σ} {edgeCb : σ → Nat → Nat → Res σ}

theorem parseWeight_ok {has : Bool} {b x : Nat} (hx : WeightOk dbg has b x) {xs : List Nat} {f r : List Char}
    (hf : IsFields ((if has then [x] else []) ++ xs) f) (hr : End r) (o sl : Nat) :
    ∃ f', IsFields xs f' ∧ f'.length ≤ f.length ∧
      parseWeight dbg has b ⟨f ++ r, o, sl⟩ = .ok (x, ⟨f' ++ r, o, sl⟩) := by
  cases has with
  | false =>
    have := hx.2.1 rfl
    subst this
    exact ⟨f, by simpa using hf, Nat.le_refl _, rfl⟩
  | true =>
    simp only [if_true, List.singleton_append] at hf
    obtain ⟨f', h1, h2, h3⟩ := scan_field hf hr hx.1 dbg o sl
    refine ⟨f', h1, h2.le, ?_⟩
    simp only [parseWeight, if_true, h3, ok_bind]
    rw [kassert_ok fun hd => decide_eq_true (hx.2.2 hd rfl).2, ok_bind,
      kassert_ok (b := decide (x > 0)) fun hd => decide_eq_true (hx.2.2 hd rfl).1]
    rfl

/-- The fields of the neighbours. -/
def edgeFields (hasEw : Bool) (nb : List (Nat × Nat)) : List Nat :=
  nb.flatMap fun y => (y.1 + 1) :: if hasEw then [y.2] else []

theorem parseEdges_ok (u : Nat) {r : List Char} (hr : End r) (o sl : Nat) (hm : r = [] → o < sl) :
    ∀ (nb : List (Nat × Nat)) (f : List Char) (s : σ) (fuel : Nat),
      IsFields (edgeFields h.hasEw nb) f → f.length ≤ fuel →
      (∀ y ∈ nb, WeightOk dbg h.hasEw w.ew y.2) → (∀ y ∈ nb, y.1 + 1 < 2 ^ 64) →
      (dbg = true → ∀ y ∈ nb, y.1 < h.n) → (dbg = true → ∀ y ∈ nb, u ≠ y.1) →
      parseEdges w dbg h edgeCb u fuel ⟨f ++ r, o, sl⟩ s =
        (feedEdges edgeCb nb s >>= fun s => .ok (⟨r, o, sl⟩, s))
  | [], f, s, fuel, hf, hfuel, _, _, _, _ => by
    cases hf
    obtain ⟨c, h1, h2⟩ := cur_head (t := ⟨r, o, sl⟩) (p := fun c => isDigit c = false) hm (by decide)
      fun c hc => by rw [hr c hc]; decide
    cases fuel <;> simp [parseEdges, h1, h2, feedEdges]
  | y :: nb, f, s, fuel, hf, hfuel, h1, h2, h3, h4 => by
    have hf' : IsFields ((y.1 + 1) :: ((if h.hasEw then [y.2] else []) ++ edgeFields h.hasEw nb)) f := hf
    have hne := fields_ne_nil hf'
    obtain ⟨fuel, rfl⟩ : ∃ k, fuel = k + 1 := ⟨fuel - 1, by have := List.length_pos_iff.2 hne; omega⟩
    have hdig := fields_head hf' hr
    obtain ⟨c, hc1, hc2⟩ : ∃ c, Toker.cur ⟨f ++ r, o, sl⟩ = .ok c ∧ isDigit c = true := by
      cases f with
      | nil => exact absurd rfl hne
      | cons c f => exact ⟨c, rfl, (hdig c (by simp)).2.2.2 (by simp)⟩
    obtain ⟨f1, a1, a2, a3⟩ := scan_field hf' hr (h2 y List.mem_cons_self) dbg o sl
    obtain ⟨f2, b1, b2, b3⟩ := parseWeight_ok (h1 y List.mem_cons_self) a1 hr o sl
    have hv : subW 64 (y.1 + 1) 1 = y.1 := sub_one64 (h2 y List.mem_cons_self)
    simp only [parseEdges, hc1, ok_bind, hc2, if_true, a3, b3, hv]
    rw [kassert_ok fun hd => decide_eq_true (h3 hd y List.mem_cons_self), ok_bind,
      kassert_ok fun hd => decide_eq_true (h4 hd y List.mem_cons_self), ok_bind]
    simp only [feedEdges]
    cases he : edgeCb s y.2 y.1 with
    | error e => rfl
    | ok s' =>
      simp only [ok_bind]
      exact parseEdges_ok u hr o sl hm nb f2 s' fuel b1 (by omega) (fun y hy => h1 y (List.mem_cons_of_mem _ hy))
        (fun y hy => h2 y (List.mem_cons_of_mem _ hy)) (fun hd y hy => h3 hd y (List.mem_cons_of_mem _ hy))
        (fun hd y hy => h4 hd y (List.mem_cons_of_mem _ hy))

/-- The line of a node, up to its end. -/
theorem parseLine_ok {u : Nat} {x : Nat × List (Nat × Nat)} (hx : NodeOk w dbg h u x) {line r : List Char}
    (hl : IsLine (nodeFields h.hasNw h.hasEw x) line) (hr : End r) (o sl : Nat) (hm : r = [] → o < sl)
    (left : Nat) (s : σ) :
    parseNodes w dbg h nodeCb edgeCb (left + 1) u ⟨line ++ r, o, sl⟩ s =
      (nodeCb s x.1 >>= fun s => feedEdges edgeCb x.2 s >>= fun s =>
        (if Toker.valid ⟨r, o, sl⟩ then Toker.consumeChar dbg '\n' ⟨r, o, sl⟩ else .ok ⟨r, o, sl⟩) >>= fun t =>
          parseNodes w dbg h nodeCb edgeCb left (u + 1) t s) := by
  obtain ⟨f, f1, -, f3⟩ := skipToLine_ok hl hr o sl fun _ hr0 => hm hr0
  obtain ⟨f', g1, -, g3⟩ := parseWeight_ok (xs := edgeFields h.hasEw x.2) hx.weight f1 hr o sl
  simp only [parseNodes, f3, ok_bind, g3]
  cases hn : nodeCb s x.1 with
  | error e => rfl
  | ok s' =>
    simp only [ok_bind]
    rw [parseEdges_ok u hr o sl hm x.2 f' s' _ g1 (by simp) hx.edge hx.target hx.inside hx.noLoop]
    cases feedEdges edgeCb x.2 s' <;> rfl

theorem consume_newline (dbg : Bool) (r : List Char) (o sl : Nat) :
    Toker.consumeChar dbg '\n' ⟨'\n' :: r, o, sl⟩ = .ok ⟨r, o, sl⟩ := by
  simp [Toker.consumeChar, kassert_ok, Toker.advance]

/-- All lines of a body. -/
theorem parseBody_ok {body : List Char} {d : Desc} (hb : IsBody h.hasNw h.hasEw d body) (r : List Char)
    (o sl : Nat) : ∀ (u left : Nat) (s : σ), (∀ i x, d[i]? = some x → NodeOk w dbg h (u + i) x) →
    parseNodes w dbg h nodeCb edgeCb (left + d.length) u ⟨body ++ r, o, sl⟩ s =
      (feed nodeCb edgeCb d s >>= fun s => parseNodes w dbg h nodeCb edgeCb left (u + d.length) ⟨r, o, sl⟩ s) := by
  induction hb with
  | nil => intro u left s _; rfl
  | @cons x d line rest hl hb ih =>
    intro u left s hd
    rw [List.length_cons, ← Nat.add_assoc, List.append_assoc, List.cons_append,
      parseLine_ok (u := u) (hd 0 x rfl) hl (end_cons _) o sl (fun h => by cases h)]
    simp only [feed]
    cases hn : nodeCb s x.1 with
    | error e => rfl
    | ok s1 =>
      simp only [ok_bind]
      cases he : feedEdges edgeCb x.2 s1 with
      | error e => rfl
      | ok s2 =>
        simp only [ok_bind]
        rw [if_pos (by rfl), consume_newline]
        simp only [ok_bind]
        rw [ih (u + 1) left s2 fun i x hi => by
          have := hd (i + 1) x (by simpa using hi)
          rwa [Nat.add_right_comm, Nat.add_assoc] ]
        rw [show u + 1 + d.length = u + (d.length + 1) by omega]

theorem feed_append (d d' : Desc) (s : σ) :
    feed nodeCb edgeCb (d ++ d') s = (feed nodeCb edgeCb d s >>= fun s => feed nodeCb edgeCb d' s) := by
  induction d generalizing s with
  | nil => rfl
  | cons x d ih =>
    simp only [List.cons_append, feed]
    cases nodeCb s x.1 with
    | error e => rfl
    | ok s1 =>
      simp only [ok_bind]
      cases feedEdges edgeCb x.2 s1 with
      | error e => rfl
      | ok s2 => simp only [ok_bind]; exact ih s2

/-- A header that the parser accepts. -/
structure HeaderOk (w : Widths) (dbg : Bool) (n m : Nat) : Prop where
  n64 : n < 2 ^ 64
  m64 : m < 2 ^ 64
  maxN : dbg = true → n ≤ 2 ^ w.node - 1
  maxM : dbg = true → m ≤ 2 ^ w.edge - 1
  few : dbg = true → m ≤ n * (subW 64 n 1) % 2 ^ 64 / 2

theorem parseHeader_ok {n m : Nat} {hasNw hasEw : Bool} {xs : List Nat} (hx : IsHeader n m hasNw hasEw xs)
    {head : List Char} (hl : IsLine xs head) (ho : HeaderOk w dbg n m) (r : List Char) (o sl : Nat) :
    parseHeader w dbg ⟨head ++ '\n' :: r, o, sl⟩ = .ok (⟨n, m, hasNw, hasEw⟩, ⟨r, o, sl⟩) := by
  have key : ∀ ys fmt, xs = n :: m :: ys → fmt < 2 ^ 64 → (ys = [fmt] ∨ (ys = [] ∧ fmt = 0)) →
      decide (fmt % 100 / 10 ≠ 0) = hasNw → decide (fmt % 10 ≠ 0) = hasEw →
      parseHeader w dbg ⟨head ++ '\n' :: r, o, sl⟩ = .ok (⟨n, m, hasNw, hasEw⟩, ⟨r, o, sl⟩) := by
    intro ys fmt hxs hfmt hys e1 e2
    subst hxs
    obtain ⟨f, f1, -, f3⟩ := skipToLine_ok hl (end_cons r) o sl fun h => by cases h
    obtain ⟨g, g1, -, g3⟩ := scan_field f1 (end_cons r) ho.n64 dbg o sl
    obtain ⟨k, k1, -, k3⟩ := scan_field g1 (end_cons r) ho.m64 dbg o sl
    unfold parseHeader
    simp only [f3, ok_bind, g3, k3]
    have hlast : ∃ c, Toker.cur ⟨k ++ '\n' :: r, o, sl⟩ = .ok c ∧
        (if c ≠ '\n' then Toker.scanUint dbg ⟨k ++ '\n' :: r, o, sl⟩ else .ok (0, ⟨k ++ '\n' :: r, o, sl⟩)) =
          .ok (fmt, ⟨'\n' :: r, o, sl⟩) := by
      rcases hys with rfl | ⟨rfl, rfl⟩
      · obtain ⟨l, l1, -, l3⟩ := scan_field k1 (end_cons r) hfmt dbg o sl
        cases l1
        cases k with
        | nil => exact absurd rfl (fields_ne_nil k1)
        | cons c k =>
          refine ⟨c, rfl, ?_⟩
          have := (fields_head k1 (end_cons r) c (by simp)).2.2.2 (by simp)
          rw [if_pos (by rintro rfl; exact absurd this (by decide))]
          exact l3
      · cases k1
        exact ⟨'\n', rfl, by simp⟩
    obtain ⟨c, c1, c2⟩ := hlast
    rw [c1]
    simp only [ok_bind]
    rw [c2]
    simp only [ok_bind, consume_newline]
    rw [kassert_ok fun hd => decide_eq_true (ho.maxN hd), ok_bind, kassert_ok fun hd => decide_eq_true (ho.maxM hd), ok_bind,
      kassert_ok fun hd => decide_eq_true (ho.few hd), ok_bind, e1, e2]
    rfl
  rcases hx with hx | ⟨rfl, rfl, hx⟩
  · refine key _ _ hx ?_ (Or.inl rfl) ?_ ?_ <;> cases hasNw <;> cases hasEw <;> decide
  · exact key [] 0 hx (by decide) (Or.inr ⟨rfl, rfl⟩) rfl rfl

/-- The parser reports what a file describes; afterwards it looks at the character behind the last line. -/
theorem parse_ok {d : Desc} {m : Nat} {hasNw hasEw : Bool} {file : List Char}
    (hf : IsMetis d m hasNw hasEw file) (ho : HeaderOk w dbg d.length m) (sl : Nat)
    (hd : ∀ i x, d[i]? = some x → NodeOk w dbg ⟨d.length, m, hasNw, hasEw⟩ i x) (hsl : 0 < sl) :
    ∃ t, parseHeader w dbg ⟨file, 0, sl⟩ = .ok (⟨d.length, m, hasNw, hasEw⟩, t) ∧
      ∀ (nodeCb : σ → Nat → Res σ) (edgeCb : σ → Nat → Nat → Res σ) (s : σ),
        parseGraph w dbg ⟨d.length, m, hasNw, hasEw⟩ nodeCb edgeCb t s = feed nodeCb edgeCb d s := by
  obtain ⟨xs, head, body, tail, rfl, h1, h2, h3⟩ := hf
  refine ⟨_, parseHeader_ok h1 h2 ho _ 0 sl, fun nodeCb edgeCb s => ?_⟩
  unfold parseGraph
  rcases h3 with ⟨h3, h4⟩ | ⟨d', x, rfl, h3, h4, h5⟩
  · have := parseBody_ok (h := ⟨d.length, m, hasNw, hasEw⟩) (nodeCb := nodeCb) (edgeCb := edgeCb) (w := w) (dbg := dbg)
      h3 tail 0 sl 0 0 s fun i x hi => by rw [Nat.zero_add]; exact hd i x hi
    rw [Nat.zero_add] at this
    simp only [this]
    cases feed nodeCb edgeCb d s with
    | error e => rfl
    | ok s' =>
      simp only [ok_bind, parseNodes]
      obtain ⟨t, ht⟩ := skipLast_ok h4 0 sl hsl tail.length (Nat.le_refl _)
      rw [ht]
      rfl
  · have := parseBody_ok (h := ⟨(d' ++ [x]).length, m, hasNw, hasEw⟩) (nodeCb := nodeCb) (edgeCb := edgeCb) (w := w)
      (dbg := dbg) h3 tail 0 sl 0 1 s fun i y hi => by
        rw [Nat.zero_add]
        refine hd i y ?_
        rw [List.getElem?_append_left]
        · exact hi
        · by_contra hcon
          rw [List.getElem?_eq_none (by omega)] at hi
          cases hi
    rw [show 1 + d'.length = (d' ++ [x]).length by simp; omega] at this
    simp only [this]
    rw [feed_append]
    cases feed nodeCb edgeCb d' s with
    | error e => rfl
    | ok s' =>
      simp only [ok_bind]
      have hx := hd d'.length x (by simp)
      have hl := parseLine_ok (nodeCb := nodeCb) (edgeCb := edgeCb) (s := s') hx h5 end_nil 0 sl (fun _ => hsl) 0
      rw [List.append_nil] at hl
      rw [Nat.zero_add, hl]
      simp only [feed]
      cases nodeCb s' x.1 with
      | error e => rfl
      | ok s1 =>
        simp only [ok_bind]
        cases feedEdges edgeCb x.2 s1 with
        | error e => rfl
        | ok s2 => simp [Toker.valid, parseNodes, skipLastComments, Toker.cur, hsl]

/-- If the file ends with the line of the last node, the parser reads the byte behind the last byte of the file. -/
theorem parse_end {d : Desc} {m : Nat} {hasNw hasEw : Bool} {head body : List Char} {xs : List Nat}
    (h1 : IsHeader d.length m hasNw hasEw xs) (h2 : IsLine xs head) (h3 : IsBody hasNw hasEw d body)
    (ho : HeaderOk w dbg d.length m)
    (hd : ∀ i x, d[i]? = some x → NodeOk w dbg ⟨d.length, m, hasNw, hasEw⟩ i x) :
    ∃ t, parseHeader w dbg ⟨head ++ '\n' :: body, 0, 0⟩ = .ok (⟨d.length, m, hasNw, hasEw⟩, t) ∧
      ∀ (nodeCb : σ → Nat → Res σ) (edgeCb : σ → Nat → Nat → Res σ) (s s' : σ),
        feed nodeCb edgeCb d s = .ok s' →
        parseGraph w dbg ⟨d.length, m, hasNw, hasEw⟩ nodeCb edgeCb t s = .error .undefined := by
  refine ⟨_, parseHeader_ok h1 h2 ho _ 0 0, fun nodeCb edgeCb s s' hs => ?_⟩
  unfold parseGraph
  have := parseBody_ok (h := ⟨d.length, m, hasNw, hasEw⟩) (nodeCb := nodeCb) (edgeCb := edgeCb) (w := w) (dbg := dbg)
      h3 [] 0 0 0 0 s fun i x hi => by rw [Nat.zero_add]; exact hd i x hi
  rw [Nat.zero_add, List.append_nil] at this
  simp only [this, hs, ok_bind, parseNodes]
  rfl

end Verif.Files

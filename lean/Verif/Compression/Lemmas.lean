import Verif.Compression.Model
import Verif.Varint.Lemmas
import Verif.StreamVByte.Props

namespace Verif.Compression

open Verif.Math (subW)
open Verif.Varint
open Verif.StreamVByte

/-- What a decoder reports for a stored neighbour. -/
def rep (hasW : Bool) (x : Nbr) : Nbr := (x.1, if hasW then x.2 else 1)

/-- The weights the encoder is used with. -/
def WOk (wE : Nat) (w : Int) : Prop := 0 ≤ w ∧ w < 2 ^ (wE - 1)

theorem subW_add {a b : Nat} (ha : a < 2 ^ 32) (hb : b < 2 ^ 32) :
    (subW 32 a b + b) % 2 ^ 32 = a := by
  unfold subW; omega

theorem subW_lt (a b : Nat) : subW 32 a b < 2 ^ 32 := Nat.mod_lt _ (by decide)

theorem subW_le {a b : Nat} (ha : a < 2 ^ 32) (hb : b ≤ a) : subW 32 a b = a - b := by
  unfold subW; omega

theorem wok_sub {wE : Nat} {w p : Int} (h : WOk wE w) (hp : WOk wE p) :
    -(2 ^ (wE - 1) : Int) ≤ w - p ∧ w - p < (2 ^ (wE - 1) : Int) := by
  obtain ⟨h1, h2⟩ := h
  obtain ⟨h3, h4⟩ := hp
  generalize (2 ^ (wE - 1) : Int) = m at *
  omega

theorem decW_enc {hasW : Bool} {wE : Nat} (hw : 0 < wE) {prev w : Int} (a : Nat)
    (h : WOk wE w) (hp : WOk wE prev) (rest : List Nat) :
    decW? hasW wE prev (encW hasW wE prev w ++ rest) = some ((rep hasW (a, w)).2, rest) := by
  cases hasW
  · simp [decW?, encW, rep]
  · obtain ⟨h1, h2⟩ := wok_sub h hp
    simp [decW?, encW, rep, signedDecode_encode hw h1 h2]

theorem nextW_rep (hasW : Bool) (prev : Int) (x : Nbr) :
    nextW hasW prev (rep hasW x).2 = nextW hasW prev x.2 := by
  cases hasW <;> simp [nextW, rep]

theorem nextW_ok {hasW : Bool} {wE : Nat} {prev w : Int} (h : WOk wE w) (hp : WOk wE prev) :
    WOk wE (nextW hasW prev w) := by
  cases hasW <;> simp [nextW, h, hp]

theorem lastW_ok {hasW : Bool} {wE : Nat} (ws : List Int) : ∀ {prev : Int},
    (∀ w ∈ ws, WOk wE w) → WOk wE prev → WOk wE (lastW hasW prev ws) := by
  induction ws with
  | nil => intro prev _ hp; simpa [lastW] using hp
  | cons w ws ih =>
    intro prev h hp
    have := ih (prev := nextW hasW prev w) (fun x hx => h x (by simp [hx]))
      (nextW_ok (h w (by simp)) hp)
    simpa [lastW] using this

theorem decRun_enc {hasW : Bool} {wE : Nat} (hw : 0 < wE) (seg : List Nbr) :
    ∀ (left : Nat) (pw : Int) (rest : List Nat),
    seg.map (·.1) = List.range' left seg.length → left + seg.length ≤ 2 ^ 32 →
    (∀ x ∈ seg, WOk wE x.2) → WOk wE pw →
    decRun? hasW wE seg.length left pw (encWs hasW wE pw (seg.map (·.2)) ++ rest) =
      some (seg.map (rep hasW), lastW hasW pw (seg.map (·.2)), rest) := by
  induction seg with
  | nil => intros; simp [decRun?, encWs, lastW]
  | cons x seg ih =>
    intro left pw rest hseg hlen hok hp
    simp only [List.map_cons, List.length_cons, List.range'_succ, List.cons.injEq] at hseg
    have hx : WOk wE x.2 := hok x (by simp)
    simp only [List.length_cons, decRun?, List.map_cons, encWs, List.append_assoc]
    rw [decW_enc hw x.1 hx hp]
    simp only [Option.bind_eq_bind, Option.bind_some]
    rw [nextW_rep]
    rcases seg with _ | ⟨y, seg⟩
    · simp only [List.length_nil, decRun?, List.map_nil, encWs, List.nil_append, Option.bind_some,
        lastW, List.foldl_cons, List.foldl_nil, Option.pure_def]
      simp [rep, ← hseg.1]
    · have hmod : (left + 1) % 2 ^ 32 = left + 1 := by
        simp only [List.length_cons] at hlen; omega
      rw [hmod, ih (left + 1) _ rest hseg.2 (by simp only [List.length_cons] at hlen ⊢; omega)
        (fun z hz => hok z (by simp [hz])) (nextW_ok hx hp)]
      simp [lastW, rep, ← hseg.1]

/-! ### Intervals -/

/-- The intervals are disjoint, in order, start at index `b` or later, and each is a run of
consecutive node IDs. -/
def IvOK (nodes : List Nat) : Nat → List Interval → Prop
  | _, [] => True
  | b, (left, right, len, idx) :: ivs =>
    b ≤ idx ∧ idx + len ≤ nodes.length ∧ 3 ≤ len ∧ right + 1 = left + len ∧
      (nodes.drop idx).take len = List.range' left len ∧ IvOK nodes (idx + len) ivs

theorem IvOK.mono {nodes : List Nat} : ∀ {ivs : List Interval} {b b' : Nat}, b' ≤ b →
    IvOK nodes b ivs → IvOK nodes b' ivs
  | [], _, _, _, _ => trivial
  | (_, _, _, _) :: _, _, _, hb, h => ⟨Nat.le_trans hb h.1, h.2⟩

theorem parseLoop_skip (i len a : Nat) (rest : List Nat)
    (h : rest.head? ≠ some ((a + 1) % 2 ^ 32)) :
    parseLoop i len a rest =
      match rest with
      | [] => []
      | c :: rest' => parseLoop (i + 1) len c rest' := by
  cases rest with
  | nil => rfl
  | cons c rest' =>
    simp only [List.head?_cons, ne_eq, Option.some.injEq] at h
    simp only [parseLoop]
    rw [if_pos (fun e => h e.symm)]

theorem parseLoop_ok (n : Nat) : ∀ (rest : List Nat), rest.length ≤ n →
    ∀ (pre : List Nat) (s len : Nat), 1 ≤ len →
    (len = 1 ∨ rest.head? = some ((s + len) % 2 ^ 32)) →
    (∀ x ∈ rest, x < 2 ^ 32 - 1) → s + len ≤ 2 ^ 32 - 1 →
    IvOK (pre ++ List.range' s len ++ rest) pre.length
      (parseLoop (pre.length + len) len (s + len - 1) rest) := by
  induction n with
  | zero =>
    intro rest hr pre s len _ _ _ _
    have : rest = [] := List.eq_nil_of_length_eq_zero (by omega)
    subst this
    trivial
  | succ n ih =>
    intro rest hr pre s len hlen hh hx hs
    cases rest with
    | nil => trivial
    | cons a rest =>
      have ha : a < 2 ^ 32 - 1 := hx a (by simp)
      have hx' : ∀ x ∈ rest, x < 2 ^ 32 - 1 := fun x h => hx x (by simp [h])
      simp only [List.length_cons] at hr
      -- restarting with the single pending node `c`
      have restart : ∀ (pre' : List Nat) (c : Nat) (rest' : List Nat), rest'.length ≤ n →
          (∀ x ∈ c :: rest', x < 2 ^ 32 - 1) →
          IvOK (pre' ++ (c :: rest')) pre'.length (parseLoop (pre'.length + 1) 1 c rest') := by
        intro pre' c rest' hl hc
        have := ih rest' hl pre' c 1 (by omega) (Or.inl rfl) (fun x h => hc x (by simp [h]))
          (by have := hc c (by simp); omega)
        simpa using this
      have e1 : (s + len - 1 + 1) % 2 ^ 32 = s + len := by omega
      unfold parseLoop
      rw [e1]
      by_cases hsucc : s + len = a
      · subst hsucc
        rw [if_neg (by simp)]
        have full : pre ++ List.range' s len ++ (s + len) :: rest =
            pre ++ List.range' s (len + 1) ++ rest := by
          rw [List.range'_concat]; simp
        by_cases hnext : rest.head? = some ((s + len + 1) % 2 ^ 32)
        · rw [if_pos hnext, full]
          have := ih rest (by omega) pre s (len + 1) (by omega) (Or.inr (by rw [hnext]; rfl)) hx'
            (by omega)
          simpa [Nat.add_assoc] using this
        · rw [if_neg hnext, full]
          have tail : IvOK (pre ++ List.range' s (len + 1) ++ rest) (pre.length + (len + 1))
              (parseLoop (pre.length + len + 1) 1 (s + len) rest) := by
            rw [parseLoop_skip _ _ _ _ hnext]
            cases rest with
            | nil => trivial
            | cons c rest' =>
              have := restart (pre ++ List.range' s (len + 1)) c rest'
                (by simp only [List.length_cons] at hr; omega) hx'
              simpa [Nat.add_assoc] using this
          split
          · rename_i h3
            simp only [intervalThreshold] at h3
            refine ⟨by omega, by simp, by omega, by omega, ?_, ?_⟩
            · have e : pre.length + len - len = pre.length := by omega
              have e' : s + len - len = s := by omega
              rw [e, e']
              simp [List.append_assoc]
            · have e : pre.length + len - len + (len + 1) = pre.length + (len + 1) := by omega
              rw [e]; exact tail
          · exact tail.mono (by omega)
      · rw [if_pos hsucc]
        have hl1 : len = 1 := by
          rcases hh with h | h
          · exact h
          · simp only [List.head?_cons, Option.some.injEq] at h
            omega
        subst hl1
        have := restart (pre ++ [s]) a rest (by omega) hx
        refine IvOK.mono (b := pre.length + 1) (by omega) ?_
        simpa [Nat.add_assoc] using this

theorem parseIntervals_ok (nodes : List Nat) (h : ∀ x ∈ nodes, x < 2 ^ 32 - 1) :
    IvOK nodes 0 (parseIntervals nodes) := by
  unfold parseIntervals
  split
  · trivial
  · cases nodes with
    | nil => trivial
    | cons a rest =>
      have := parseLoop_ok rest.length rest (Nat.le_refl _) [] a 1 (by omega) (Or.inl rfl)
        (fun x hx => h x (by simp [hx])) (by have := h a (by simp); omega)
      simpa using this

theorem IvOK.length_le {nodes : List Nat} : ∀ {ivs : List Interval} {b : Nat},
    IvOK nodes b ivs → b ≤ nodes.length → b + 3 * ivs.length ≤ nodes.length
  | [], _, _, h => by simpa using h
  | (_, _, _, _) :: _, _, h, _ => by
    obtain ⟨h1, h2, h3, _, _, h6⟩ := h
    have := h6.length_le h2
    simp only [List.length_cons]
    omega

/-! ### Marking -/

theorem markRange_eq (nb : List Nbr) (idx len : Nat) :
    markRange nb idx len = nb.take idx ++ ((nb.drop idx).take len).map (fun x => (invalidNode, x.2))
      ++ nb.drop (idx + len) := by
  apply List.ext_getElem?
  intro p
  simp only [markRange, List.getElem?_mapIdx, List.getElem?_append, List.length_append,
    List.length_take, List.length_map, List.length_drop, List.getElem?_take, List.getElem?_map,
    List.getElem?_drop]
  by_cases hp : p < nb.length
  · by_cases h1 : p < idx
    · have c1 : ¬ (idx ≤ p ∧ p < idx + len) := by omega
      have c2 : p < min idx nb.length + min len (nb.length - idx) := by omega
      have c3 : p < min idx nb.length := by omega
      simp [c1, c2, c3, h1, hp]
    · by_cases h2 : p < idx + len
      · have c1 : (idx ≤ p ∧ p < idx + len) := by omega
        have c2 : p < min idx nb.length + min len (nb.length - idx) := by omega
        have c3 : ¬ p < min idx nb.length := by omega
        have c4 : p - min idx nb.length < len := by omega
        have c5 : idx + (p - min idx nb.length) = p := by omega
        simp [c1, c2, c3, c4, c5, hp]
      · have c1 : ¬ (idx ≤ p ∧ p < idx + len) := by omega
        have c2 : ¬ p < min idx nb.length + min len (nb.length - idx) := by omega
        have c5 : idx + len + (p - (min idx nb.length + min len (nb.length - idx))) = p := by omega
        simp [c1, c2, c5, hp]
  · have n1 : nb[p]? = none := List.getElem?_eq_none (by omega)
    have n2 : ∀ q, nb.length ≤ q → nb[q]? = none := fun q hq => List.getElem?_eq_none hq
    have c2 : ¬ p < min idx nb.length + min len (nb.length - idx) := by omega
    have c6 : nb.length ≤ idx + len + (p - (min idx nb.length + min len (nb.length - idx))) := by
      omega
    simp [n1, c2, c6]

theorem markRange_snd (nb : List Nbr) (idx len : Nat) :
    (markRange nb idx len).map (·.2) = nb.map (·.2) := by
  apply List.ext_getElem?
  intro p
  simp only [markRange, List.getElem?_map, List.getElem?_mapIdx, Option.map_map]
  congr 1
  funext x
  simp only [Function.comp]
  split <;> rfl

/-- The neighbours outside all intervals, from index `b` on. -/
def remOf (nb : List Nbr) : Nat → List Interval → List Nbr
  | b, [] => nb.drop b
  | b, (_, _, len, idx) :: ivs => (nb.drop b).take (idx - b) ++ remOf nb (idx + len) ivs

/-- The neighbours of the intervals. -/
def segsOf (nb : List Nbr) : List Interval → List Nbr
  | [] => []
  | (_, _, len, idx) :: ivs => (nb.drop idx).take len ++ segsOf nb ivs

def markAll (nb : List Nbr) (ivs : List Interval) : List Nbr :=
  ivs.foldl (fun nb iv => markRange nb iv.2.2.2 iv.2.2.1) nb

def valid (x : Nbr) : Bool := decide (x.1 ≠ invalidNode)

theorem filter_markAll (nb : List Nbr) (hv : ∀ x ∈ nb, x.1 ≠ invalidNode) :
    ∀ (ivs : List Interval) (cur : List Nbr) (b : Nat), cur.length = nb.length →
    cur.drop b = nb.drop b → IvOK (nb.map (·.1)) b ivs →
    (markAll cur ivs).filter valid = (cur.take b).filter valid ++ remOf nb b ivs := by
  have allv : ∀ l : List Nbr, (∀ x ∈ l, x ∈ nb) → l.filter valid = l := by
    intro l hl
    apply List.filter_eq_self.2
    intro x hx
    simp [valid, hv x (hl x hx)]
  intro ivs
  induction ivs with
  | nil =>
    intro cur b hc hd _
    simp only [markAll, List.foldl_nil, remOf]
    conv => lhs; rw [← List.take_append_drop b cur]
    rw [List.filter_append, hd, allv (nb.drop b) (fun x hx => List.mem_of_mem_drop hx)]
  | cons iv ivs ih =>
    obtain ⟨l, r, len, idx⟩ := iv
    intro cur b hc hd hok
    obtain ⟨h1, h2, h3, h4, h5, h6⟩ := hok
    simp only [List.length_map] at h2
    have lenTake : (cur.take idx ++ ((cur.drop idx).take len).map
        (fun x => (invalidNode, x.2))).length = idx + len := by
      simp only [List.length_append, List.length_take, List.length_map, List.length_drop]; omega
    have hd' : cur.drop (idx + len) = nb.drop (idx + len) := by
      have e : idx + len = b + (idx + len - b) := by omega
      rw [e, ← List.drop_drop, hd, List.drop_drop]
    have hmk := markRange_eq cur idx len
    have step := ih (markRange cur idx len) (idx + len)
      (by rw [← hc]; simp [markRange])
      (by rw [hmk, List.drop_left' lenTake, hd']) h6
    simp only [markAll, List.foldl_cons]
    simp only [markAll] at step
    rw [step]
    rw [hmk, List.take_left' lenTake]
    simp only [remOf, List.filter_append]
    have z : (((cur.drop idx).take len).map (fun x => ((invalidNode, x.2) : Nbr))).filter valid
        = [] := by
      apply List.filter_eq_nil_iff.2
      intro x hx
      obtain ⟨y, _, rfl⟩ := List.mem_map.1 hx
      simp [valid]
    rw [z, List.append_nil]
    have sp : cur.take idx = cur.take b ++ (nb.drop b).take (idx - b) := by
      rw [← hd]
      have e : idx = b + (idx - b) := by omega
      conv => lhs; rw [e, List.take_add]
    rw [sp, List.filter_append, List.append_assoc, allv ((nb.drop b).take (idx - b))
      (fun x hx => List.mem_of_mem_drop (List.mem_of_mem_take hx))]

theorem segs_rem_perm (nb : List Nbr) : ∀ (ivs : List Interval) (b : Nat),
    IvOK (nb.map (·.1)) b ivs → (segsOf nb ivs ++ remOf nb b ivs).Perm (nb.drop b) := by
  intro ivs
  induction ivs with
  | nil => intro b _; simp [segsOf, remOf]
  | cons iv ivs ih =>
    obtain ⟨l, r, len, idx⟩ := iv
    intro b hok
    obtain ⟨h1, h2, h3, h4, h5, h6⟩ := hok
    have := ih (idx + len) h6
    have e : nb.drop b = (nb.drop b).take (idx - b) ++ ((nb.drop idx).take len ++
        nb.drop (idx + len)) := by
      have e1 : nb.drop idx = (nb.drop b).drop (idx - b) := by rw [List.drop_drop]; congr 1; omega
      rw [← List.drop_drop, List.take_append_drop, e1, List.take_append_drop]
    rw [e]
    simp only [segsOf, remOf]
    generalize (nb.drop idx).take len = S at *
    generalize (nb.drop b).take (idx - b) = P at *
    refine List.Perm.trans ?_ (List.Perm.append_left P (List.Perm.append_left S this))
    generalize segsOf nb ivs = A
    generalize remOf nb (idx + len) ivs = B
    have : (S ++ A ++ (P ++ B)).Perm (P ++ (S ++ A) ++ B) := by
      rw [← List.append_assoc]
      exact List.Perm.append_right B List.perm_append_comm
    simpa [List.append_assoc] using this

theorem segs_rem_length (nb : List Nbr) (ivs : List Interval) (h : IvOK (nb.map (·.1)) 0 ivs) :
    (segsOf nb ivs).length + (remOf nb 0 ivs).length = nb.length := by
  have := (segs_rem_perm nb ivs 0 h).length_eq
  simpa using this

/-! ### Interval bytes -/

/-- Bytes of the intervals after the count. -/
def ivBytes (hasW : Bool) (wE : Nat) (nb : List Nbr) : Nat → Int → List Interval → List Nat
  | _, _, [] => []
  | pr, pw, (left, right, len, idx) :: ivs =>
    let ws := ((nb.drop idx).take len).map (·.2)
    varintEncode (subW 32 left pr) ++ varintEncode (len - 3) ++ encWs hasW wE pw ws ++
      ivBytes hasW wE nb ((right + 2) % 2 ^ 32) (lastW hasW pw ws) ivs

theorem lastW_append (hasW : Bool) (p : Int) (a b : List Int) :
    lastW hasW p (a ++ b) = lastW hasW (lastW hasW p a) b := by
  simp [lastW, List.foldl_append]

theorem fold_ivStep (hasW : Bool) (wE : Nat) (nb : List Nbr) (hn : nb.length < 2 ^ 32) :
    ∀ (ivs : List Interval) (b : Nat) (s : IvState), s.nb.map (·.2) = nb.map (·.2) →
    IvOK (nb.map (·.1)) b ivs → (segsOf nb ivs).length ≤ s.remaining → s.remaining < 2 ^ 32 →
    (ivs.foldl (ivStep hasW wE) s).bytes =
        s.bytes ++ ivBytes hasW wE nb s.prevRight s.prevW ivs ∧
      (ivs.foldl (ivStep hasW wE) s).prevW = lastW hasW s.prevW ((segsOf nb ivs).map (·.2)) ∧
      (ivs.foldl (ivStep hasW wE) s).nb = markAll s.nb ivs ∧
      (ivs.foldl (ivStep hasW wE) s).remaining = s.remaining - (segsOf nb ivs).length := by
  intro ivs
  induction ivs with
  | nil => intro b s _ _ _ _; simp [ivBytes, segsOf, lastW, markAll]
  | cons iv ivs ih =>
    obtain ⟨l, r, len, idx⟩ := iv
    intro b s hs hok hrem hlt
    obtain ⟨h1, h2, h3, h4, h5, h6⟩ := hok
    simp only [List.length_map] at h2
    simp only [segsOf, List.length_append, List.length_take, List.length_drop] at hrem
    have hws : ((s.nb.drop idx).take len).map (·.2) = ((nb.drop idx).take len).map (·.2) := by
      rw [List.map_take, List.map_drop, hs, ← List.map_drop, ← List.map_take]
    have hsub : subW 32 s.remaining len = s.remaining - len := subW_le hlt (by omega)
    have := ih (idx + len) (ivStep hasW wE s (l, r, len, idx))
      (by simp only [ivStep]; rw [markRange_snd, hs]) h6
      (by simp only [ivStep, hsub]; omega) (by simp only [ivStep, hsub]; omega)
    obtain ⟨t1, t2, t3, t4⟩ := this
    simp only [List.foldl_cons]
    refine ⟨?_, ?_, ?_, ?_⟩
    · rw [t1]; simp only [ivStep, hws, ivBytes, intervalThreshold, List.append_assoc]
    · rw [t2]; simp only [ivStep, hws, segsOf, List.map_append, lastW_append]
    · rw [t3]; simp only [ivStep, markAll, List.foldl_cons]
    · rw [t4]
      simp only [ivStep, hsub, segsOf, List.length_append, List.length_take, List.length_drop]
      omega

theorem decIntervals_enc {hasW : Bool} {wE : Nat} (hw : 0 < wE) (nb : List Nbr)
    (hnode : ∀ x ∈ nb, x.1 < 2 ^ 32 - 1) (hok : ∀ x ∈ nb, WOk wE x.2) (hn : nb.length < 2 ^ 32) :
    ∀ (ivs : List Interval) (b pr remaining : Nat) (pw : Int) (rest : List Nat),
    IvOK (nb.map (·.1)) b ivs → pr < 2 ^ 32 → WOk wE pw →
    (segsOf nb ivs).length ≤ remaining → remaining < 2 ^ 32 →
    decIntervals? hasW wE ivs.length pr remaining pw (ivBytes hasW wE nb pr pw ivs ++ rest) =
      some ((segsOf nb ivs).map (rep hasW), remaining - (segsOf nb ivs).length,
        lastW hasW pw ((segsOf nb ivs).map (·.2)), rest) := by
  intro ivs
  induction ivs with
  | nil => intros; simp [decIntervals?, ivBytes, segsOf, lastW]
  | cons iv ivs ih =>
    obtain ⟨l, r, len, idx⟩ := iv
    intro b pr remaining pw rest hiv hpr hpw hrem hlt
    obtain ⟨h1, h2, h3, h4, h5, h6⟩ := hiv
    simp only [List.length_map] at h2
    have hseglen : ((nb.drop idx).take len).length = len := by
      simp only [List.length_take, List.length_drop]; omega
    simp only [segsOf, List.length_append, hseglen] at hrem
    have hsegmap : ((nb.drop idx).take len).map (·.1) = List.range' l len := by
      rw [List.map_take, List.map_drop]; exact h5
    have hr : r < 2 ^ 32 - 1 := by
      have : r ∈ ((nb.drop idx).take len).map (·.1) := by
        rw [hsegmap, List.mem_range']; exact ⟨len - 1, by omega, by omega⟩
      obtain ⟨x, hx, rfl⟩ := List.mem_map.1 this
      exact hnode x (List.mem_of_mem_drop (List.mem_of_mem_take hx))
    have hl : l < 2 ^ 32 := by omega
    have hsegok : ∀ x ∈ (nb.drop idx).take len, WOk wE x.2 :=
      fun x hx => hok x (List.mem_of_mem_drop (List.mem_of_mem_take hx))
    simp only [List.length_cons, decIntervals?, ivBytes, List.append_assoc]
    rw [varintDecode_encode (by decide) (subW_lt _ _)]
    simp only [Option.bind_eq_bind, Option.bind_some]
    rw [varintDecode_encode (by decide) (show len - 3 < 2 ^ 32 by omega)]
    simp only [Option.bind_some]
    rw [subW_add hl hpr]
    have e3 : (len - 3 + intervalThreshold) % 2 ^ 32 = len := by
      simp only [intervalThreshold]; omega
    rw [e3]
    have e4 : (l + (len - 1) + 2) % 2 ^ 32 = (r + 2) % 2 ^ 32 := by congr 1; omega
    rw [e4]
    have hrun := decRun_enc (hasW := hasW) hw ((nb.drop idx).take len) l pw
      (ivBytes hasW wE nb ((r + 2) % 2 ^ 32)
        (lastW hasW pw (((nb.drop idx).take len).map (·.2))) ivs ++ rest)
      (by rw [hseglen]; exact hsegmap) (by rw [hseglen]; omega) hsegok hpw
    rw [hseglen] at hrun
    rw [hrun]
    simp only [Option.bind_some]
    have hsub : subW 32 remaining len = remaining - len := subW_le hlt (by omega)
    rw [hsub, ih (idx + len) _ (remaining - len) _ rest h6 (Nat.mod_lt _ (by decide))
      (lastW_ok _ (by
        intro w hw'
        obtain ⟨x, hx, rfl⟩ := List.mem_map.1 hw'
        exact hsegok x hx) hpw) (by omega) (by omega)]
    simp only [Option.bind_some, Option.pure_def, segsOf, List.map_append, List.length_append,
      hseglen, lastW_append, Option.some.injEq, Prod.mk.injEq, and_true, true_and]
    omega

/-! ### Gaps -/

theorem decGaps_enc {hasW : Bool} {wE : Nat} (hw : 0 < wE) (nb : List Nbr) :
    ∀ (prev : Nat) (pw : Int) (rest : List Nat), prev < 2 ^ 32 → WOk wE pw →
    (∀ x ∈ nb, x.1 < 2 ^ 32) → (∀ x ∈ nb, WOk wE x.2) →
    decGaps? hasW wE nb.length prev pw (encGaps hasW wE prev pw nb ++ rest) =
      some (nb.map (rep hasW)) := by
  induction nb with
  | nil => intros; simp [decGaps?]
  | cons x nb ih =>
    obtain ⟨a, w⟩ := x
    intro prev pw rest hprev hpw hn hok
    have ha : a < 2 ^ 32 := hn (a, w) (by simp)
    have hwk : WOk wE w := hok (a, w) (by simp)
    simp only [List.length_cons, decGaps?, encGaps, List.append_assoc]
    rw [varintDecode_encode (by decide) (subW_lt _ _)]
    simp only [Option.bind_eq_bind, Option.bind_some]
    have e : (subW 32 (subW 32 a prev) 1 + prev + 1) % 2 ^ 32 = a := by
      unfold subW; omega
    rw [e, decW_enc hw a hwk hpw]
    simp only [Option.bind_some]
    rw [nextW_rep]
    simp only
    rw [ih a _ rest ha (nextW_ok hwk hpw) (fun x h => hn x (by simp [h]))
      (fun x h => hok x (by simp [h]))]
    simp [rep]

/-- Decoding what follows the intervals. -/
def decTail? (c : Cfg) (hasW : Bool) (wE node remaining : Nat) (pw : Int) (data : List Nat) :
    Option (List Nbr) := do
  let (gap, data) ← signedDecode 64 data
  let first := ((gap + node) % 2 ^ 32).toNat
  let (w, data) ← decW? hasW wE pw data
  let remaining := subW 32 remaining 1
  if c.svb ∧ remaining ≥ svbThreshold then
    if hasW then
      let ps ← StreamVByte.decodePairs? .D2 (remaining * 2) data
      return (first, w) :: ps.map fun p => (p.1, (BitVec.ofNat 32 p.2).toInt)
    else
      let xs ← StreamVByte.decode? .D1 remaining data
      return (first, w) :: xs.map fun x => (x, 1)
  else
    let out ← decGaps? hasW wE remaining first (nextW hasW pw w) data
    return (first, w) :: out

theorem pair_rep {w : Int} (h0 : 0 ≤ w) (h1 : w < 2 ^ 31) :
    (BitVec.ofNat 32 (w % 2 ^ 32).toNat).toInt = w := by
  rw [BitVec.toInt_ofNat', Int.bmod_def]
  omega

theorem toNat_gap (a node : Nat) (ha : a < 2 ^ 32) :
    (((a : Int) - node + node) % 2 ^ 32).toNat = a := by
  omega

/-- What `decTail?` does after the first neighbour. -/
def decRest? (c : Cfg) (hasW : Bool) (wE a n : Nat) (w pw : Int) (data : List Nat) :
    Option (List Nbr) :=
  if c.svb ∧ n ≥ svbThreshold then
    if hasW then
      (StreamVByte.decodePairs? .D2 (n * 2) data).map fun ps =>
        (a, w) :: ps.map fun p => (p.1, (BitVec.ofNat 32 p.2).toInt)
    else (StreamVByte.decode? .D1 n data).map fun xs => (a, w) :: xs.map fun x => (x, 1)
  else (decGaps? hasW wE n a (nextW hasW pw w) data).map ((a, w) :: ·)

theorem decTail_eq (c : Cfg) (hasW : Bool) (wE node remaining : Nat) (pw : Int)
    (data : List Nat) : decTail? c hasW wE node remaining pw data =
      (signedDecode 64 data).bind fun p => (decW? hasW wE pw p.2).bind fun q =>
        decRest? c hasW wE ((p.1 + node) % 2 ^ 32).toNat (subW 32 remaining 1) q.1 pw q.2 := by
  simp only [decTail?, decRest?, Option.bind_eq_bind, Option.pure_def, Option.map_eq_bind,
    Function.comp_def]

theorem decTail_head (c : Cfg) {hasW : Bool} {wE : Nat} (hw : 0 < wE) {node a : Nat}
    (hnodeid : node < 2 ^ 32) (ha : a < 2 ^ 32) {w pw : Int} (hwk : WOk wE w) (hpw : WOk wE pw)
    (n : Nat) (hn : n + 1 < 2 ^ 32) (data : List Nat) :
    decTail? c hasW wE node (n + 1) pw
        (signedEncode 64 ((a : Int) - node) ++ (encW hasW wE pw w ++ data)) =
      decRest? c hasW wE a n (rep hasW (a, w)).2 pw data := by
  have hsub : subW 32 (n + 1) 1 = n := by rw [subW_le hn (by omega)]; omega
  rw [decTail_eq, signedDecode_encode (by decide) (by omega) (by omega), Option.bind_some,
    decW_enc hw a hwk hpw, Option.bind_some, hsub, toNat_gap a node ha]

theorem encodeGaps_dec (c : Cfg) {hasW : Bool} {wE : Nat} (hw : 0 < wE) {node : Nat}
    (hnodeid : node < 2 ^ 32) (nb R : List Nbr) (pw : Int)
    (hR : nb.filter (fun x => decide (x.1 ≠ invalidNode)) = R) (hne : R ≠ [])
    (hlen : R.length < 2 ^ 32)
    (hnode : ∀ x ∈ R, x.1 < 2 ^ 32) (hok : ∀ x ∈ R, WOk wE x.2) (hpw : WOk wE pw)
    (hsvb : c.svb = true → hasW = true → ∀ x ∈ R, x.2 < 2 ^ 31) :
    ∃ b, encodeGaps? c hasW wE node R.length pw nb = some b ∧
      ∀ rest, (c.svb = true → 15 ≤ rest.length) →
        decTail? c hasW wE node R.length pw (b ++ rest) = some (R.map (rep hasW)) := by
  unfold encodeGaps?
  rw [if_neg (by simpa using hne), hR]
  cases R with
  | nil => exact absurd rfl hne
  | cons x R =>
    obtain ⟨a, w⟩ := x
    have ha : a < 2 ^ 32 := hnode (a, w) (by simp)
    have hwk : WOk wE w := hok (a, w) (by simp)
    simp only [List.length_cons, Nat.add_sub_cancel] at hlen ⊢
    have hrep : (a, (rep hasW (a, w)).2) = rep hasW (a, w) := rfl
    by_cases hs : c.svb ∧ R.length ≥ svbThreshold
    · rw [if_pos hs, if_neg (by simp)]
      cases hasW with
      | true =>
        refine ⟨_, if_pos rfl, ?_⟩
        intro rest hrest
        simp only [List.append_assoc]
        rw [decTail_head c hw hnodeid ha hwk hpw _ hlen, decRest?, if_pos hs, if_pos rfl]
        have hR31 : ∀ x ∈ R, x.2 < 2 ^ 31 := fun x hx =>
          hsvb hs.1 rfl x (List.mem_cons_of_mem _ hx)
        have := C07_streamvbyte_pairs_roundtrip .D2 (R.map fun x => (x.1, (x.2 % 2 ^ 32).toNat)) rest
          (by
            intro p hp
            obtain ⟨x, hx, rfl⟩ := List.mem_map.1 hp
            exact ⟨hnode x (List.mem_cons_of_mem _ hx), by simp only; omega⟩)
          (fun h => nomatch h) (hrest hs.1)
        rw [List.flatMap_map, List.length_map, Nat.mul_comm] at this
        have hmap : (R.map fun x => (x.1, (x.2 % 2 ^ 32).toNat)).map
            (fun p => (p.1, (BitVec.ofNat 32 p.2).toInt)) = R.map (rep true) := by
          rw [List.map_map]
          apply List.map_congr_left
          intro x hx
          have hx0 := (hok x (List.mem_cons_of_mem _ hx)).1
          simp only [Function.comp, rep, pair_rep hx0 (hR31 x hx), if_true]
        rw [this, Option.map_some, hmap, hrep, List.map_cons]
      | false =>
        refine ⟨_, if_neg (by simp), ?_⟩
        intro rest hrest
        simp only [List.append_assoc]
        rw [decTail_head c hw hnodeid ha hwk hpw _ hlen, decRest?, if_pos hs, if_neg (by simp)]
        have := C07_streamvbyte_roundtrip .D1 (R.map (·.1)) rest
          (by
            intro p hp
            obtain ⟨x, hx, rfl⟩ := List.mem_map.1 hp
            exact hnode x (List.mem_cons_of_mem _ hx))
          (fun h => nomatch h) (hrest hs.1)
        rw [List.length_map] at this
        rw [this, Option.map_some, hrep, List.map_cons, List.map_map]
        rfl
    · rw [if_neg hs]
      refine ⟨_, rfl, ?_⟩
      intro rest _
      simp only [List.append_assoc]
      rw [decTail_head c hw hnodeid ha hwk hpw _ hlen, decRest?, if_neg hs, nextW_rep]
      simp only
      rw [decGaps_enc hw R a _ rest ha (nextW_ok hwk hpw)
        (fun x h => hnode x (List.mem_cons_of_mem _ h))
        (fun x h => hok x (List.mem_cons_of_mem _ h)), Option.map_some, hrep, List.map_cons]

end Verif.Compression

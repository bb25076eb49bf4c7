import Verif.Compression.Lemmas

namespace Verif.Compression

open Verif.Math (subW)
open Verif.Varint
open Verif.StreamVByte

/-- The inputs the encoder is used with. -/
structure NbOk (c : Cfg) (hasW : Bool) (wE : Nat) (nb : List Nbr) : Prop where
  node : ∀ x ∈ nb, x.1 < 2 ^ 32 - 1
  weight : ∀ x ∈ nb, WOk wE x.2
  svb : c.svb = true → hasW = true → ∀ x ∈ nb, x.2 < 2 ^ 31

theorem NbOk.mono {c : Cfg} {hasW : Bool} {wE : Nat} {nb nb' : List Nbr}
    (h : NbOk c hasW wE nb) (hs : ∀ x ∈ nb', x ∈ nb) : NbOk c hasW wE nb' :=
  ⟨fun x hx => h.node x (hs x hx), fun x hx => h.weight x (hs x hx),
    fun a b x hx => h.svb a b x (hs x hx)⟩

theorem decodeEdges_eq (c : Cfg) (hasW : Bool) (wE node degree : Nat) (hi : Bool)
    (data : List Nat) : decodeEdges? c hasW wE node degree hi data =
      (if c.interval ∧ hi then
        (varintDecode 32 data).bind fun p => decIntervals? hasW wE (p.1 + 1) 0 degree 0 p.2
      else some ([], degree, 0, data)).bind fun t =>
        if c.interval ∧ hi ∧ t.2.1 = 0 then some t.1
        else (decTail? c hasW wE node t.2.1 t.2.2.1 t.2.2.2).map (t.1 ++ ·) := by
  unfold decodeEdges? decTail?
  simp only [Option.bind_eq_bind, Option.pure_def, Option.map_eq_bind, Function.comp_def]
  by_cases hc : c.interval = true ∧ hi = true
  · rw [if_pos hc, if_pos hc, Option.bind_assoc]
    congr 1
    funext p
    congr 1
    funext t
    split
    · rfl
    · simp only [Option.bind_assoc]
      congr 1
      funext p
      congr 1
      funext q
      split
      · split <;> simp [Option.bind_assoc]
      · simp [Option.bind_assoc]
  · rw [if_neg hc, if_neg hc, Option.bind_some, Option.bind_some]
    split
    · rfl
    · simp only [Option.bind_assoc]
      congr 1
      funext p
      congr 1
      funext q
      split
      · split <;> simp
      · simp

theorem mem_of_remOf {nb : List Nbr} {ivs : List Interval} (h : IvOK (nb.map (·.1)) 0 ivs) :
    ∀ x ∈ remOf nb 0 ivs, x ∈ nb := by
  intro x hx
  have := (segs_rem_perm nb ivs 0 h).subset (List.mem_append_right _ hx)
  simpa using this

theorem mem_of_segsOf {nb : List Nbr} {ivs : List Interval} (h : IvOK (nb.map (·.1)) 0 ivs) :
    ∀ x ∈ segsOf nb ivs, x ∈ nb := by
  intro x hx
  have := (segs_rem_perm nb ivs 0 h).subset (List.mem_append_left _ hx)
  simpa using this

theorem encodeGaps_nil (c : Cfg) (hasW : Bool) (wE node : Nat) (pw : Int) (nb : List Nbr) :
    encodeGaps? c hasW wE node 0 pw nb = some [] := by simp [encodeGaps?]

theorem wok_zero {wE : Nat} : WOk wE 0 := by
  refine ⟨Int.le_refl _, ?_⟩
  exact Int.pow_pos (by decide)

/-- The order in which one part is reported: first the intervals, then the other neighbours. -/
def partOrder (c : Cfg) (nb : List Nbr) : List Nbr :=
  if c.interval then
    segsOf nb (parseIntervals (nb.map (·.1))) ++ remOf nb 0 (parseIntervals (nb.map (·.1)))
  else nb

/-- The order in which a neighbourhood is reported. -/
def nodeOrder (c : Cfg) (nb : List Nbr) : List Nbr :=
  if c.highDegree ∧ nb.length ≥ highDegreeThreshold then (partsOf nb).flatMap (partOrder c)
  else partOrder c nb

theorem partOrder_noIntervals (c : Cfg) (nb : List Nbr) (h : ¬ (c.interval = true ∧ countIntervals nb > 0)) :
    partOrder c nb = nb := by
  unfold partOrder
  by_cases hi : c.interval = true
  · have h0 : parseIntervals (nb.map (·.1)) = [] := by
      have : ¬ (parseIntervals (nb.map (·.1))).length > 0 := fun h' => h ⟨hi, h'⟩
      exact List.eq_nil_of_length_eq_zero (by omega)
    rw [if_pos hi, h0]
    simp [segsOf, remOf]
  · rw [if_neg hi]

theorem partOrder_perm (c : Cfg) (nb : List Nbr) (hv : ∀ x ∈ nb, x.1 < 2 ^ 32 - 1) : (partOrder c nb).Perm nb := by
  unfold partOrder
  by_cases hi : c.interval = true
  · rw [if_pos hi]
    have := segs_rem_perm nb (parseIntervals (nb.map (·.1))) 0 (parseIntervals_ok _ (by
        intro x hx
        obtain ⟨y, hy, rfl⟩ := List.mem_map.1 hx
        exact hv y hy))
    simpa using this
  · rw [if_neg hi]

theorem addEdges_dec (c : Cfg) {hasW : Bool} {wE : Nat} (hw : 0 < wE) {node : Nat}
    (hnodeid : node < 2 ^ 32) (nb : List Nbr) (hne : nb ≠ []) (hlen : nb.length < 2 ^ 32)
    (hok : NbOk c hasW wE nb) (flag : Bool)
    (hflag : c.interval = true → flag = decide (countIntervals nb > 0)) :
    ∃ b, addEdges? c hasW wE node nb = some b ∧
      ∀ rest, (c.svb = true → 15 ≤ rest.length) →
        ∃ out, decodeEdges? c hasW wE node nb.length flag (b ++ rest) = some out ∧
          out = (partOrder c nb).map (rep hasW) := by
  have hvalid : ∀ l : List Nbr, (∀ x ∈ l, x ∈ nb) →
      l.filter (fun x => decide (x.1 ≠ invalidNode)) = l := by
    intro l hl
    apply List.filter_eq_self.2
    intro x hx
    have h1 := hok.node x (hl x hx)
    have h2 : x.1 ≠ invalidNode := by simp only [invalidNode]; omega
    simp [h2]
  by_cases hi : c.interval = true ∧ countIntervals nb > 0
  · -- with intervals
    obtain ⟨hi, hcount⟩ := hi
    have hf : flag = true := by rw [hflag hi]; simp [hcount]
    subst hf
    have hiv : IvOK (nb.map (·.1)) 0 (parseIntervals (nb.map (·.1))) :=
      parseIntervals_ok _ (by
        intro x hx
        obtain ⟨y, hy, rfl⟩ := List.mem_map.1 hx
        exact hok.node y hy)
    have hcl : 3 * (parseIntervals (nb.map (·.1))).length ≤ nb.length := by
      have := hiv.length_le (Nat.zero_le _)
      simpa using this
    have hcount' : 0 < (parseIntervals (nb.map (·.1))).length := hcount
    generalize hivs : parseIntervals (nb.map (·.1)) = ivs at hiv hcl hcount'
    have hlenEq := segs_rem_length nb ivs hiv
    have hcnt : countIntervals nb = ivs.length := by rw [countIntervals, hivs]
    have fold := fold_ivStep hasW wE nb hlen ivs 0
      { bytes := varintEncode (ivs.length - 1), prevRight := 0, prevW := 0, nb := nb,
        remaining := nb.length } rfl hiv (by simp only; omega) hlen
    have hst : encodeIntervals hasW wE 0 nb = ivs.foldl (ivStep hasW wE)
      { bytes := varintEncode (ivs.length - 1), prevRight := 0, prevW := 0, nb := nb,
        remaining := nb.length } := by
      simp only [encodeIntervals]
      rw [if_pos hcount, hcnt, hivs]
    rw [← hst] at fold
    obtain ⟨f1, f2, f3, f4⟩ := fold
    simp only at f1 f2 f3 f4
    have hrem : (encodeIntervals hasW wE 0 nb).remaining = (remOf nb 0 ivs).length := by
      rw [f4]; omega
    have hfilter : (encodeIntervals hasW wE 0 nb).nb.filter
        (fun x => decide (x.1 ≠ invalidNode)) = remOf nb 0 ivs := by
      rw [f3]
      have := filter_markAll nb (fun x hx => by
        have := hok.node x hx; simp only [invalidNode]; omega) ivs nb 0 rfl rfl hiv
      rw [show (fun x : Nbr => decide (x.1 ≠ invalidNode)) = valid from rfl, this]
      simp
    have hpwok : WOk wE (encodeIntervals hasW wE 0 nb).prevW := by
      rw [f2]
      refine lastW_ok _ ?_ wok_zero
      intro w hw'
      obtain ⟨x, hx, rfl⟩ := List.mem_map.1 hw'
      exact hok.weight x (mem_of_segsOf hiv x hx)
    have hdecI : ∀ rest, (varintDecode 32 (varintEncode (ivs.length - 1) ++
        (ivBytes hasW wE nb 0 0 ivs ++ rest))).bind
          (fun p => decIntervals? hasW wE (p.1 + 1) 0 nb.length 0 p.2) =
        some ((segsOf nb ivs).map (rep hasW), (remOf nb 0 ivs).length,
          lastW hasW 0 ((segsOf nb ivs).map (·.2)), rest) := by
      intro rest
      rw [varintDecode_encode (by decide) (show ivs.length - 1 < 2 ^ 32 by omega), Option.bind_some]
      have e : ivs.length - 1 + 1 = ivs.length := by omega
      simp only [e]
      rw [decIntervals_enc hw nb hok.node hok.weight hlen ivs 0 0 nb.length 0 rest hiv (by decide)
        wok_zero (by omega) hlen]
      have e' : nb.length - (segsOf nb ivs).length = (remOf nb 0 ivs).length := by omega
      rw [e']
    have hperm : (segsOf nb ivs).map (rep hasW) ++ (remOf nb 0 ivs).map (rep hasW) =
        (partOrder c nb).map (rep hasW) := by
      rw [← List.map_append]
      unfold partOrder
      rw [if_pos hi, hivs]
    unfold addEdges?
    rw [if_pos hi]
    simp only
    rw [hrem]
    by_cases hR : remOf nb 0 ivs = []
    · rw [hR]
      simp only [List.length_nil, encodeGaps_nil, Option.map_some, List.append_nil]
      refine ⟨_, rfl, ?_⟩
      intro rest _
      refine ⟨(segsOf nb ivs).map (rep hasW), ?_, by simpa [hR] using hperm⟩
      rw [decodeEdges_eq, if_pos ⟨hi, rfl⟩, f1, List.append_assoc, hdecI, Option.bind_some, hR]
      simp [hi]
    · obtain ⟨b, hb, hdec⟩ := encodeGaps_dec c hw hnodeid (encodeIntervals hasW wE 0 nb).nb
        (remOf nb 0 ivs) (encodeIntervals hasW wE 0 nb).prevW hfilter hR (by omega)
        (fun x hx => by have := hok.node x (mem_of_remOf hiv x hx); omega)
        (fun x hx => hok.weight x (mem_of_remOf hiv x hx)) hpwok
        (fun h1 h2 x hx => hok.svb h1 h2 x (mem_of_remOf hiv x hx))
      rw [hb, Option.map_some]
      refine ⟨_, rfl, ?_⟩
      intro rest hrest
      refine ⟨_, ?_, hperm⟩
      rw [decodeEdges_eq, if_pos ⟨hi, rfl⟩, f1, List.append_assoc, List.append_assoc, hdecI,
        Option.bind_some]
      have hRl : (remOf nb 0 ivs).length ≠ 0 := by simpa using hR
      simp only
      rw [if_neg (fun h => hRl h.2.2), ← f2, hdec rest hrest, Option.map_some]
  · -- without intervals
    have hn : ¬ (c.interval = true ∧ flag = true) := by
      intro h
      apply hi
      refine ⟨h.1, ?_⟩
      have := hflag h.1
      rw [h.2] at this
      simpa using this.symm
    have hadd : addEdges? c hasW wE node nb = encodeGaps? c hasW wE node nb.length 0 nb := by
      unfold addEdges?
      by_cases h : c.interval = true
      · rw [if_pos h]
        have hc : ¬ countIntervals nb > 0 := fun h' => hi ⟨h, h'⟩
        simp only [encodeIntervals]
        rw [if_neg hc]
        simp
      · rw [if_neg h]
    obtain ⟨b, hb, hdec⟩ := encodeGaps_dec c hw hnodeid nb nb 0 (hvalid nb (fun x h => h)) hne hlen
      (fun x hx => by have := hok.node x hx; omega) hok.weight wok_zero hok.svb
    refine ⟨b, by rw [hadd, hb], ?_⟩
    intro rest hrest
    refine ⟨nb.map (rep hasW), ?_, by rw [partOrder_noIntervals c nb hi]⟩
    rw [decodeEdges_eq, if_neg hn, Option.bind_some]
    simp only
    rw [if_neg (fun h => hn ⟨h.1, h.2.1⟩), hdec rest hrest]
    simp

/-! ### Parts -/

theorem length_le32 (v : Nat) : (le32 v).length = 4 := rfl

theorem load_le32 (v : Nat) (hv : v < 2 ^ 32) (rest : List Nat) :
    load? 4 (le32 v ++ rest) = some v := by
  simp only [load?, le32, List.length_append, List.length_cons, List.length_nil]
  rw [if_pos (by omega)]
  simp only [List.cons_append, List.nil_append, List.take_succ_cons, List.take_zero, loadLE,
    Option.some.injEq]
  omega

theorem length_partTable (c : Cfg) : ∀ (ps : List (List Nbr)) (bs : List (List Nat)) (off : Nat),
    ps.length = bs.length → (partTable c off ps bs).length = 4 * bs.length
  | [], [], _, _ => rfl
  | p :: ps, b :: bs, off, h => by
    simp only [partTable, List.length_append, length_le32, List.length_cons]
    rw [length_partTable c ps bs _ (by simpa using h)]
    omega

/-- Entry `i` of the table. -/
theorem partTable_drop (c : Cfg) : ∀ (ps : List (List Nbr)) (bs : List (List Nat)) (off i : Nat)
    (p : List Nbr), ps.length = bs.length → ps[i]? = some p →
    ∃ t, (partTable c off ps bs).drop (4 * i) =
      le32 (((off + (bs.take i).flatten.length) % 2 ^ 32) |||
        (if c.interval ∧ countIntervals p > 0 then 2 ^ 31 else 0)) ++ t
  | [], [], _, _, _, _, h => by simp at h
  | p :: ps, b :: bs, off, 0, q, hl, h => by
    simp only [List.getElem?_cons_zero, Option.some.injEq] at h
    subst h
    refine ⟨partTable c (off + b.length) ps bs, ?_⟩
    simp [partTable]
  | p :: ps, b :: bs, off, i + 1, q, hl, h => by
    simp only [List.getElem?_cons_succ] at h
    obtain ⟨t, ht⟩ := partTable_drop c ps bs (off + b.length) i q (by simpa using hl) h
    refine ⟨t, ?_⟩
    simp only [partTable]
    generalize hL : le32 ((off % 2 ^ 32) |||
      (if c.interval ∧ countIntervals p > 0 then 2 ^ 31 else 0)) = L
    have hL4 : L.length = 4 := by rw [← hL, length_le32]
    rw [show 4 * (i + 1) = L.length + 4 * i by omega, ← List.drop_drop, List.drop_left, ht]
    simp only [List.take_succ_cons, List.flatten_cons, List.length_append, Nat.add_assoc]

theorem or_msb {x : Nat} (h : x < 2 ^ 31) : x ||| 2 ^ 31 = x + 2 ^ 31 := by
  have := or_add (a := x) (k := 31) 1 h
  simpa using this

theorem divCeil_cases (n : Nat) (h : n ≠ 0) :
    1 ≤ numParts n ∧ (numParts n - 1) * partLength + lastPartLength n = n ∧
      1 ≤ lastPartLength n ∧ lastPartLength n ≤ partLength := by
  unfold numParts lastPartLength
  by_cases hm : n % partLength = 0
  · rw [if_pos hm, if_pos hm]; simp only [partLength] at *; omega
  · rw [if_neg hm, if_neg hm]; simp only [partLength] at *; omega

theorem partsOf_length (nb : List Nbr) : (partsOf nb).length = numParts nb.length := by
  simp [partsOf]

/-- Decoder's degree of a part is the part's length. -/
theorem partsOf_get (nb : List Nbr) (h : nb ≠ []) (i : Nat) (p : List Nbr)
    (hp : (partsOf nb)[i]? = some p) :
    p.length = (if i + 1 = (partsOf nb).length then nb.length - i * partLength else partLength) ∧
      p ≠ [] ∧ p = (nb.drop (i * partLength)).take partLength := by
  have hl := partsOf_length nb
  have hd := divCeil_cases nb.length (by simpa using h)
  have hi : i < (partsOf nb).length := by
    rcases Nat.lt_or_ge i (partsOf nb).length with h' | h'
    · exact h'
    · rw [List.getElem?_eq_none h'] at hp; cases hp
  rw [hl] at hi ⊢
  unfold partsOf at hp
  simp only [List.getElem?_map, List.getElem?_range hi, Option.map_some,
    Option.some.injEq] at hp
  generalize numParts nb.length = np at *
  generalize lastPartLength nb.length = ll at *
  simp only [partLength] at *
  subst hp
  have hlen : ∀ k, ((nb.drop (i * 1000)).take k).length = min k (nb.length - i * 1000) := by
    intro k; simp
  have heq : (nb.drop (i * 1000)).take (if i + 1 = np then ll else 1000) =
      (nb.drop (i * 1000)).take 1000 := by
    split
    · rw [List.take_of_length_le (i := ll) (by simp; omega),
        List.take_of_length_le (i := 1000) (by simp; omega)]
    · rfl
  refine ⟨?_, ?_, heq⟩
  · rw [hlen]
    split <;> omega
  · intro h0
    have := congrArg List.length h0
    rw [hlen] at this
    simp only [List.length_nil] at this
    split at this <;> omega

theorem partsOf_flatten_aux (nb : List Nbr) : ∀ (m : Nat), m ≤ (partsOf nb).length → nb ≠ [] →
    ((partsOf nb).take m).flatten = nb.take (m * partLength)
  | 0, _, _ => by simp
  | m + 1, hm, h => by
    have ih := partsOf_flatten_aux nb m (by omega) h
    have hg : (partsOf nb)[m]? = some ((partsOf nb)[m]'(by omega)) :=
      List.getElem?_eq_getElem (by omega)
    have := (partsOf_get nb h m _ hg).2.2
    rw [List.take_add_one, hg, List.flatten_append, ih, this]
    simp only [Option.toList_some, List.flatten_cons, List.flatten_nil, List.append_nil]
    rw [Nat.succ_mul, List.take_add]

theorem partsOf_flatten (nb : List Nbr) (h : nb ≠ []) : (partsOf nb).flatten = nb := by
  have := partsOf_flatten_aux nb (partsOf nb).length (Nat.le_refl _) h
  rw [List.take_length] at this
  rw [this, List.take_of_length_le]
  have hd := divCeil_cases nb.length (by simpa using h)
  rw [partsOf_length]
  generalize numParts nb.length = np at *
  generalize lastPartLength nb.length = ll at *
  simp only [partLength] at *
  omega

theorem encodeParts_dec (c : Cfg) {hasW : Bool} {wE : Nat} (hw : 0 < wE) {node : Nat}
    (hnodeid : node < 2 ^ 32) : ∀ (ps : List (List Nbr)), (∀ p ∈ ps, p ≠ [] ∧ p.length < 2 ^ 32 ∧
      NbOk c hasW wE p) →
    ∃ bs, encodeParts? c hasW wE node ps = some bs ∧ ps.length = bs.length ∧
      ∀ (i : Nat) (p : List Nbr), ps[i]? = some p →
      ∀ rest flag, (c.svb = true → 15 ≤ rest.length) →
        (c.interval = true → flag = decide (countIntervals p > 0)) →
        ∃ out, decodeEdges? c hasW wE node p.length flag ((bs.drop i).flatten ++ rest) = some out ∧
          out = (partOrder c p).map (rep hasW)
  | [], _ => ⟨[], rfl, rfl, fun i p h => by simp at h⟩
  | q :: ps, h => by
    obtain ⟨bs, hbs, hl, hdec⟩ := encodeParts_dec c hw hnodeid ps (fun p hp => h p (by simp [hp]))
    obtain ⟨h1, h2, h3⟩ := h q (by simp)
    obtain ⟨b, hb, hd⟩ := addEdges_dec c hw hnodeid q h1 h2 h3 (decide (countIntervals q > 0))
      (fun _ => rfl)
    refine ⟨b :: bs, by simp [encodeParts?, hb, hbs], by simp [hl], ?_⟩
    intro i p hp rest flag hrest hflag
    cases i with
    | zero =>
      simp only [List.getElem?_cons_zero, Option.some.injEq] at hp
      subst hp
      obtain ⟨b', hb', hd'⟩ := addEdges_dec c hw hnodeid q h1 h2 h3 flag hflag
      rw [hb] at hb'
      cases hb'
      obtain ⟨out, ho, hperm⟩ := hd' (bs.flatten ++ rest) (by
        intro hs; have := hrest hs; simp only [List.length_append]; omega)
      exact ⟨out, by simpa using ho, hperm⟩
    | succ i =>
      simp only [List.getElem?_cons_succ] at hp
      simpa using hdec i p hp rest flag hrest hflag

theorem decodePart_enc (c : Cfg) {hasW : Bool} {wE node : Nat} (nb : List Nbr) (hnb : nb ≠ [])
    (bs : List (List Nat)) (rest : List Nat)
    (hl : (partsOf nb).length = bs.length)
    (hsize : 4 * bs.length + bs.flatten.length < 2 ^ 31)
    (hdec : ∀ (i : Nat) (p : List Nbr), (partsOf nb)[i]? = some p → ∀ flag,
        (c.interval = true → flag = decide (countIntervals p > 0)) →
        ∃ out, decodeEdges? c hasW wE node p.length flag ((bs.drop i).flatten ++ rest) = some out ∧
          out = (partOrder c p).map (rep hasW))
    (i : Nat) (p : List Nbr) (hp : (partsOf nb)[i]? = some p) :
    ∃ out, decodePart? c hasW wE node nb.length (partsOf nb).length i
      (partTable c (4 * bs.length) (partsOf nb) bs ++ bs.flatten ++ rest) = some out ∧
      out = (partOrder c p).map (rep hasW) := by
  obtain ⟨t, ht⟩ := partTable_drop c (partsOf nb) bs (4 * bs.length) i p hl hp
  have hi : i < (partsOf nb).length := by
    rcases Nat.lt_or_ge i (partsOf nb).length with h' | h'
    · exact h'
    · rw [List.getElem?_eq_none h'] at hp; cases hp
  have hoff : (bs.take i).flatten.length + (bs.drop i).flatten.length = bs.flatten.length := by
    rw [← List.length_append, ← List.flatten_append, List.take_append_drop]
  generalize hO : 4 * bs.length + (bs.take i).flatten.length = O at ht
  have hO31 : O < 2 ^ 31 := by omega
  have hmod : O % 2 ^ 32 = O := by omega
  rw [hmod] at ht
  -- the raw entry
  have hload : ∀ v, v < 2 ^ 32 →
      (partTable c (4 * bs.length) (partsOf nb) bs).drop (4 * i) = le32 v ++ t →
      load? 4 ((partTable c (4 * bs.length) (partsOf nb) bs ++ bs.flatten ++ rest).drop (4 * i)) =
        some v := by
    intro v hv h
    rw [List.append_assoc, List.drop_append_of_le_length (by
      rw [length_partTable c _ _ _ hl]; omega), h, List.append_assoc, load_le32 v hv]
  have hdrop : (partTable c (4 * bs.length) (partsOf nb) bs ++ bs.flatten ++ rest).drop O =
      (bs.drop i).flatten ++ rest := by
    have htl := length_partTable c (partsOf nb) bs (4 * bs.length) hl
    rw [List.append_assoc, List.drop_append]
    rw [List.drop_eq_nil_of_le (by omega), List.nil_append, htl]
    have e : bs.flatten ++ rest = (bs.take i).flatten ++ ((bs.drop i).flatten ++ rest) := by
      rw [← List.append_assoc, ← List.flatten_append, List.take_append_drop]
    rw [e, List.drop_left' (by omega)]
  have hdeg := (partsOf_get nb hnb i p hp).1
  by_cases hf : c.interval = true ∧ countIntervals p > 0
  · rw [if_pos hf, or_msb hO31] at ht
    have hL := hload (O + 2 ^ 31) (by omega) ht
    obtain ⟨out, ho, hperm⟩ := hdec i p hp true (fun _ => by simp [hf.2])
    refine ⟨out, ?_, hperm⟩
    unfold decodePart?
    rw [hL]
    simp only [Option.bind_eq_bind, Option.bind_some]
    have e1 : (O + 2 ^ 31) / 2 ^ 31 % 2 = 1 := by omega
    have e2 : (O + 2 ^ 31) % 2 ^ 31 = O := by omega
    rw [e1, e2, if_pos hf.1, hdrop, ← hdeg]
    simpa [hf.1] using ho
  · rw [if_neg hf, Nat.or_zero] at ht
    have hL := hload O (by omega) ht
    obtain ⟨out, ho, hperm⟩ := hdec i p hp false (fun h => by
      have : ¬ countIntervals p > 0 := fun h' => hf ⟨h, h'⟩
      simp [this])
    refine ⟨out, ?_, hperm⟩
    unfold decodePart?
    rw [hL]
    simp only [Option.bind_eq_bind, Option.bind_some]
    have e1 : O / 2 ^ 31 % 2 = 0 := by omega
    have e2 : O % 2 ^ 31 = O := by omega
    rw [e1, e2, ite_self, hdrop, ← hdeg]
    simpa using ho

theorem decodeParts_perm {c : Cfg} {hasW : Bool} {wE node degree numParts : Nat}
    {data : List Nat} (ps : List (List Nbr)) : ∀ (is : List Nat) (k : Nat),
    is = List.range' k (ps.length - k) →
    (∀ i p, ps[i]? = some p → ∃ out,
      decodePart? c hasW wE node degree numParts i data = some out ∧ out = (partOrder c p).map (rep hasW)) →
    ∃ out, decodeParts? c hasW wE node degree numParts data is = some out ∧
      out = ((ps.drop k).flatMap (partOrder c)).map (rep hasW) := by
  intro is
  induction is with
  | nil =>
    intro k h _
    have hk : ps.length - k = 0 := by
      have := congrArg List.length h
      simpa using this.symm
    refine ⟨[], rfl, ?_⟩
    rw [List.drop_eq_nil_of_le (by omega)]
    simp
  | cons i is ih =>
    intro k h hd
    have hk : is.length + 1 = ps.length - k := by
      have := congrArg List.length h
      simpa using this
    have e : ps.length - k = (ps.length - (k + 1)) + 1 := by omega
    rw [e, List.range'_succ] at h
    obtain ⟨rfl, h⟩ := List.cons.inj h
    obtain ⟨out2, h2, p2⟩ := ih (i + 1) h hd
    have hg : ps[i]? = some (ps[i]'(by omega)) := List.getElem?_eq_getElem (by omega)
    obtain ⟨out1, h1, p1⟩ := hd i _ hg
    refine ⟨out1 ++ out2, by simp [decodeParts?, h1, h2], ?_⟩
    rw [List.drop_eq_getElem_cons (by omega), List.flatMap_cons, List.map_append, p1, p2]

/-! ### A whole neighbourhood -/

theorem decodeHeader_enc (c : Cfg) (d : Nat) (hd : d < 2 ^ 32) (m : Bool) (rest : List Nat) :
    ∃ fl, (c.interval = true → fl = m) ∧
      decodeHeader? c ((if c.interval = true then markedEncode d m else varintEncode d) ++ rest) =
        some ((d, fl), rest) := by
  unfold decodeHeader?
  by_cases h : c.interval = true
  · refine ⟨m, fun _ => rfl, ?_⟩
    rw [if_pos h, if_pos h, markedEncode_decode (by decide) hd]
  · refine ⟨false, fun h' => absurd h' h, ?_⟩
    rw [if_neg h, if_neg h, varintDecode_encode (by decide) hd, Option.map_some]

theorem header_length (c : Cfg) (d : Nat) (m : Bool) :
    1 ≤ (if c.interval = true then markedEncode d m else varintEncode d).length := by
  split
  · rw [length_markedEncode]; unfold markedLength; split <;> omega
  · rw [length_varintEncode]; exact varintLength_pos d

/-- Encoding a neighbourhood succeeds, and decoding it returns the neighbours and the degree. -/
theorem add_dec (c : Cfg) {hasW : Bool} {wE : Nat} (hw : 0 < wE) {node : Nat}
    (hnodeid : node < 2 ^ 32) (nb : List Nbr) (hne : nb ≠ []) (hlen : nb.length < 2 ^ 32)
    (hok : NbOk c hasW wE nb) :
    ∃ b, add? c hasW wE node nb = some b ∧ 1 ≤ b.length ∧
      ∀ rest, (∃ fl data, decodeHeader? c (b ++ rest) = some ((nb.length, fl), data)) ∧
        ((c.highDegree = true → highDegreeThreshold ≤ nb.length → b.length < 2 ^ 31) →
        (c.svb = true → 15 ≤ rest.length) →
        decodeNode? c hasW wE node (b ++ rest) = some ((nodeOrder c nb).map (rep hasW))) := by
  have hl0 : nb.length ≠ 0 := by simpa using hne
  unfold add?
  simp only
  rw [if_neg hl0]
  by_cases hs : c.highDegree = true ∧ nb.length ≥ highDegreeThreshold
  · simp only [if_pos hs]
    have hpok : ∀ p ∈ partsOf nb, p ≠ [] ∧ p.length < 2 ^ 32 ∧ NbOk c hasW wE p := by
      intro p hp
      obtain ⟨i, hi⟩ := List.getElem?_of_mem hp
      obtain ⟨h1, h2, h3⟩ := partsOf_get nb hne i p hi
      refine ⟨h2, ?_, hok.mono ?_⟩
      · rw [h3]; simp only [List.length_take, List.length_drop]; omega
      · intro x hx
        rw [h3] at hx
        exact List.mem_of_mem_drop (List.mem_of_mem_take hx)
    obtain ⟨bs, hbs, hbl, hdec⟩ := encodeParts_dec c hw hnodeid (partsOf nb) hpok
    rw [hbs, Option.map_some]
    refine ⟨_, rfl, ?_, ?_⟩
    · have := header_length c nb.length
        (decide (¬ (c.highDegree = true ∧ nb.length ≥ highDegreeThreshold) ∧ countIntervals nb > 0))
      simp only [List.length_append]
      omega
    · intro rest
      simp only [List.append_assoc]
      obtain ⟨fl, _, hhd⟩ := decodeHeader_enc c nb.length hlen
        (decide (¬ (c.highDegree = true ∧ nb.length ≥ highDegreeThreshold) ∧ countIntervals nb > 0))
        (partTable c (4 * bs.length) (partsOf nb) bs ++ (bs.flatten ++ rest))
      refine ⟨⟨fl, _, hhd⟩, ?_⟩
      intro hsize hrest
      have hsize' := hsize hs.1 hs.2
      rw [List.length_append, List.length_append, length_partTable c _ _ _ hbl] at hsize'
      have hparts : ∀ i p, (partsOf nb)[i]? = some p → ∃ out,
          decodePart? c hasW wE node nb.length (partsOf nb).length i
            (partTable c (4 * bs.length) (partsOf nb) bs ++ (bs.flatten ++ rest)) = some out ∧
          out = (partOrder c p).map (rep hasW) := by
        intro i p hp
        have := decodePart_enc c (hasW := hasW) (wE := wE) (node := node) nb hne bs rest hbl
          (by omega) (fun i p hp flag hflag => hdec i p hp rest flag hrest hflag) i p hp
        simpa only [List.append_assoc] using this
      obtain ⟨out, ho, hperm⟩ := decodeParts_perm (partsOf nb)
        (List.range (partsOf nb).length) 0 (by simp [List.range_eq_range']) hparts
      rw [List.drop_zero] at hperm
      unfold decodeNode? nodeOrder
      rw [hhd]
      simp only [Option.bind_eq_bind, Option.bind_some]
      rw [if_pos hs, if_pos hs, ← partsOf_length nb, ho, hperm]
  · simp only [if_neg hs]
    have hmark : decide (¬ (c.highDegree = true ∧ nb.length ≥ highDegreeThreshold) ∧
        countIntervals nb > 0) = decide (countIntervals nb > 0) := by simp [hs]
    obtain ⟨b0, hb0, _⟩ := addEdges_dec c hw hnodeid nb hne hlen hok
      (decide (countIntervals nb > 0)) (fun _ => rfl)
    rw [hb0, Option.map_some]
    refine ⟨_, rfl, ?_, ?_⟩
    · have := header_length c nb.length
        (decide (¬ (c.highDegree = true ∧ nb.length ≥ highDegreeThreshold) ∧ countIntervals nb > 0))
      simp only [List.length_append]
      omega
    · intro rest
      simp only [List.append_assoc]
      obtain ⟨fl, hfl, hhd⟩ := decodeHeader_enc c nb.length hlen
        (decide (¬ (c.highDegree = true ∧ nb.length ≥ highDegreeThreshold) ∧ countIntervals nb > 0))
        (b0 ++ rest)
      refine ⟨⟨fl, _, hhd⟩, ?_⟩
      intro _ hrest
      obtain ⟨b1, hb1, hdec⟩ := addEdges_dec c hw hnodeid nb hne hlen hok fl
        (fun h => by rw [hfl h, hmark])
      rw [hb0] at hb1
      cases hb1
      obtain ⟨out, ho, hperm⟩ := hdec rest hrest
      unfold decodeNode? nodeOrder
      rw [hhd]
      simp only [Option.bind_eq_bind, Option.bind_some]
      rw [if_neg hs, if_neg hs, ho, hperm]

theorem nodeOrder_perm (c : Cfg) (nb : List Nbr) (hv : ∀ x ∈ nb, x.1 < 2 ^ 32 - 1) : (nodeOrder c nb).Perm nb := by
  unfold nodeOrder
  by_cases hs : c.highDegree = true ∧ nb.length ≥ highDegreeThreshold
  · rw [if_pos hs]
    have hne : nb ≠ [] := by
      rintro rfl
      exact absurd hs.2 (by decide)
    have h1 : ∀ ps : List (List Nbr), (∀ p ∈ ps, ∀ x ∈ p, x ∈ nb) → (ps.flatMap (partOrder c)).Perm ps.flatten := by
      intro ps
      induction ps with
      | nil => intro _; exact List.Perm.refl _
      | cons p ps ih =>
        intro h
        rw [List.flatMap_cons, List.flatten_cons]
        exact (partOrder_perm c p fun x hx => hv x (h p (by simp) x hx)).append
          (ih fun q hq => h q (List.mem_cons_of_mem _ hq))
    have h2 := h1 (partsOf nb) fun p hp x hx => by
      rw [← partsOf_flatten nb hne]
      exact List.mem_flatten.2 ⟨p, hp, hx⟩
    rwa [partsOf_flatten nb hne] at h2
  · rw [if_neg hs]
    exact partOrder_perm c nb hv

/-! ### The whole graph -/

theorem addNodes_spec (c : Cfg) (hasW : Bool) (wE : Nat) : ∀ (g : List (List Nbr)) (node off : Nat),
    (∀ i nb, g[i]? = some nb → ∃ b, add? c hasW wE (node + i) nb = some b) →
    ∃ offs bs, addNodes? c hasW wE node off g = some (offs, bs) ∧ offs.length = g.length ∧
      (offs ++ [off + bs.length])[0]? = some off ∧
      ∀ i nb, g[i]? = some nb → ∃ b pre post, add? c hasW wE (node + i) nb = some b ∧
        bs = pre ++ b ++ post ∧ (offs ++ [off + bs.length])[i]? = some (off + pre.length) ∧
        (offs ++ [off + bs.length])[i + 1]? = some (off + pre.length + b.length)
  | [], node, off, _ => ⟨[], [], rfl, rfl, rfl, fun i nb h => by simp at h⟩
  | nb :: g, node, off, h => by
    obtain ⟨b, hb⟩ := h 0 nb rfl
    have h' : ∀ i nb', g[i]? = some nb' → ∃ b, add? c hasW wE (node + 1 + i) nb' = some b := by
      intro i nb' hi
      have := h (i + 1) nb' (by simpa using hi)
      rwa [show node + (i + 1) = node + 1 + i by omega] at this
    obtain ⟨offs, bs, h1, h2, h3, h4⟩ := addNodes_spec c hasW wE g (node + 1) (off + b.length) h'
    refine ⟨off :: offs, b ++ bs, by simp only [Nat.add_zero] at hb; simp [addNodes?, hb, h1],
      by simp [h2], rfl, ?_⟩
    have e : off + (b ++ bs).length = off + b.length + bs.length := by
      rw [List.length_append]; omega
    rw [e]
    intro i nb' hi
    cases i with
    | zero =>
      simp only [List.getElem?_cons_zero, Option.some.injEq] at hi
      subst hi
      exact ⟨b, [], bs, hb, rfl, rfl, by simpa using h3⟩
    | succ i =>
      obtain ⟨b', pre, post, q1, q2, q3, q4⟩ := h4 i nb' (by simpa using hi)
      refine ⟨b', b ++ pre, post, ?_, by simp [q2], ?_, ?_⟩
      · rwa [show node + (i + 1) = node + 1 + i by omega]
      · simpa [Nat.add_assoc] using q3
      · simpa [Nat.add_assoc] using q4

end Verif.Compression

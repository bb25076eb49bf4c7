import Verif.Contraction.Model
import Verif.Contraction.SpecLemmas

/-!
# From aggregated neighbourhoods to contracted graphs
-/

namespace Verif.Contraction
open Finset Verif.Maps

/-- `out` lists, for every key of the operations `ins`, the key once with its total weight. -/
def Collects (ins out : List (Nat × Int)) : Prop :=
  (out.map Prod.fst).Nodup ∧ ∀ k v, (k, v) ∈ out ↔
    k ∈ ins.map Prod.fst ∧ v = ((ins.filter fun e => e.1 = k).map Prod.snd).sum

theorem content_incs_from (ins : List (Nat × Int)) : ∀ (m : Content) (k : Nat),
    (incs ins).foldl (Content.step 0) m k =
      if k ∈ ins.map Prod.fst then some ((m k).getD 0 + ((ins.filter fun e => e.1 = k).map Prod.snd).sum)
      else m k := by
  induction ins with
  | nil => intro m k; rfl
  | cons a ins ih =>
    intro m k
    show (incs ins).foldl (Content.step 0) (Content.step 0 m (.inc a.1 a.2)) k = _
    rw [ih]
    simp only [Content.step, List.map_cons, List.mem_cons, List.filter_cons]
    by_cases hk : k = a.1
    · subst hk
      simp only [upd_same, true_or, if_true, decide_true, List.map_cons, List.sum_cons, Option.getD_some]
      by_cases hm : a.1 ∈ ins.map Prod.fst
      · rw [if_pos hm]; congr 1; ring
      · rw [if_neg hm]
        have : ins.filter (fun e => decide (e.1 = a.1)) = [] := by
          rw [List.filter_eq_nil_iff]
          intro e he h
          exact hm (List.mem_map.2 ⟨e, he, by simpa using h⟩)
        simp [this]
    · rw [upd_ne _ _ hk]
      have hk' : ¬ a.1 = k := fun e => hk e.symm
      simp only [hk', hk, decide_false, false_or, Bool.false_eq_true, if_false]

theorem content_incs (ins : List (Nat × Int)) (k : Nat) : content 0 (incs ins) k =
    if k ∈ ins.map Prod.fst then some ((ins.filter fun e => e.1 = k).map Prod.snd).sum else none := by
  rw [content, content_incs_from]
  simp

theorem collects_of_lists {ins out : List (Nat × Int)} (h : Lists out (content 0 (incs ins))) : Collects ins out := by
  refine ⟨h.1, fun k v => ?_⟩
  rw [h.2, content_incs]
  split
  · simp only [Option.some.injEq, *, true_and]; exact eq_comm
  · simp only [reduceCtorEq, false_iff, not_and]; intro h; contradiction

theorem Collects.perm {ins out out' : List (Nat × Int)} (h : Collects ins out) (h' : Collects ins out') :
    out.Perm out' := by
  rw [List.perm_ext_iff_of_nodup (nodup_of_map h.1) (nodup_of_map h'.1)]
  rintro ⟨k, v⟩
  rw [h.2, h'.2]

theorem Collects.weight {ins out : List (Nat × Int)} (h : Collects ins out) (k : Nat) :
    ((out.filter fun e => e.1 = k).map Prod.snd).sum = ((ins.filter fun e => e.1 = k).map Prod.snd).sum := by
  by_cases hk : k ∈ ins.map Prod.fst
  · exact wt_of_mem h.1 ((h.2 _ _).2 ⟨hk, rfl⟩)
  · have e1 : out.filter (fun e => decide (e.1 = k)) = [] := by
      rw [List.filter_eq_nil_iff]
      rintro ⟨a, b⟩ he hd
      exact hk ((by simpa using hd : a = k) ▸ ((h.2 _ _).1 he).1)
    have e2 : ins.filter (fun e => decide (e.1 = k)) = [] := by
      rw [List.filter_eq_nil_iff]
      intro e he hd
      exact hk (List.mem_map.2 ⟨e, he, by simpa using hd⟩)
    rw [e1, e2]

theorem mem_inputs {g : Graph} {mapping : Nat → Nat} {bucket : List Nat} {c : Nat} {x : Nat × Int} :
    x ∈ inputs g mapping bucket c ↔
      ∃ u ∈ bucket, ∃ e ∈ g.adj u, mapping e.1 ≠ c ∧ x = (mapping e.1, e.2) := by
  unfold inputs
  simp only [List.mem_flatMap, List.mem_filterMap]
  constructor
  · rintro ⟨u, hu, e, he, h⟩
    by_cases hc : c = mapping e.1
    · simp [hc] at h
    · simp only [ne_eq, hc, not_false_eq_true, if_true, Option.some.injEq] at h
      exact ⟨u, hu, e, he, Ne.symm hc, h.symm⟩
  · rintro ⟨u, hu, e, he, hc, rfl⟩
    exact ⟨u, hu, e, he, by simp [Ne.symm hc]⟩

theorem list_sum_filter_range (n : Nat) (p : Nat → Bool) (f : Nat → Int) :
    (((List.range n).filter p).map f).sum = ∑ u ∈ range n, if p u = true then f u else 0 := by
  induction n with
  | zero => rfl
  | succ n ih =>
    rw [List.range_succ, List.filter_append, List.map_append, List.sum_append, ih, Finset.sum_range_succ]
    congr 1
    by_cases hp : p n = true <;> simp [hp]

/-- The total weight of the operations on key `d`. -/
theorem inputs_weight {g : Graph} (hg : g.WF) {mapping : Nat → Nat} {bucket : List Nat} {c d : Nat} (hcd : c ≠ d)
    (hb : bucket.Perm ((List.range g.n).filter (mapping · = c))) :
    (((inputs g mapping bucket c).filter fun e => e.1 = d).map Prod.snd).sum =
      ∑ u ∈ range g.n, ∑ v ∈ range g.n, if mapping u = c ∧ mapping v = d then g.wt u v else 0 := by
  have h1 : ∀ b : List Nat, (((inputs g mapping b c).filter fun e => e.1 = d).map Prod.snd).sum =
      (b.map fun u => g.conn u (mapping · = d)).sum := by
    intro b
    induction b with
    | nil => rfl
    | cons u b ih =>
      have : inputs g mapping (u :: b) c = ((g.adj u).filterMap fun e =>
        if c ≠ mapping e.1 then some (mapping e.1, e.2) else none) ++ inputs g mapping b c := rfl
      rw [this, List.filter_append, List.map_append, List.sum_append, ih, List.map_cons, List.sum_cons]
      congr 1
      unfold Graph.conn
      induction g.adj u with
      | nil => rfl
      | cons e l ih =>
        rw [List.map_cons, List.sum_cons, ← ih, List.filterMap_cons]
        by_cases hc : c = mapping e.1
        · simp [← hc, hcd]
        · by_cases hd : mapping e.1 = d
          · simp [hcd, hd]
          · simp [hc, hd]
  rw [h1, (hb.map _).sum_eq, list_sum_filter_range]
  apply Finset.sum_congr rfl
  intro u hu
  by_cases huc : mapping u = c
  · simp only [huc, decide_true, if_true, true_and]
    exact g.conn_eq_sum hg (mem_range.1 hu) _
  · simp [huc]

theorem bucketWeight_eq {g : Graph} {mapping : Nat → Nat} {bucket : List Nat} {c : Nat}
    (hb : bucket.Perm ((List.range g.n).filter (mapping · = c))) :
    bucketWeight g bucket = ∑ u ∈ range g.n, if mapping u = c then g.w u else 0 := by
  have h1 : ∀ (b : List Nat) (s : Int), b.foldl (fun s u => s + g.w u) s = s + (b.map g.w).sum := by
    intro b
    induction b with
    | nil => intro s; simp
    | cons u b ih => intro s; rw [List.foldl_cons, ih, List.map_cons, List.sum_cons]; ring
  unfold bucketWeight
  rw [h1, (hb.map _).sum_eq, list_sum_filter_range]
  simp

/-- What the contraction algorithms start from. -/
structure Pre (g : Graph) (cn : Nat) (mapping : Nat → Nat) (bucket : Nat → List Nat) : Prop where
  wf : g.WF
  maps : ∀ u, u < g.n → mapping u < cn
  onto : ∀ c, c < cn → ∃ u, u < g.n ∧ mapping u = c
  bucket : ∀ c, c < cn → (bucket c).Perm ((List.range g.n).filter (mapping · = c))

theorem Pre.mem_bucket {g : Graph} {cn : Nat} {mapping : Nat → Nat} {bucket : Nat → List Nat}
    (hp : Pre g cn mapping bucket) {c u : Nat} (hc : c < cn) : u ∈ bucket c ↔ u < g.n ∧ mapping u = c := by
  rw [(hp.bucket c hc).mem_iff]; simp

/-- The rows of the coarse graph are the collected neighbourhoods, up to a renaming `σ` of the coarse nodes. -/
theorem contracted_of_rows {g h : Graph} {cn : Nat} {mapping : Nat → Nat} {bucket : Nat → List Nat}
    (hp : Pre g cn mapping bucket) {col : Nat → List (Nat × Int)}
    (hcol : ∀ c, c < cn → Collects (inputs g mapping (bucket c) c) (col c))
    (σ : Nat → Nat) (hσ : ∀ c, c < cn → σ c < cn) (hinj : ∀ c d, c < cn → d < cn → σ c = σ d → c = d)
    (hsurj : ∀ d, d < cn → ∃ c, c < cn ∧ σ c = d) (hn : h.n = cn)
    (hw : ∀ c, c < cn → h.w (σ c) = bucketWeight g (bucket c))
    (hadj : ∀ c, c < cn → h.adj (σ c) = (col c).map fun e => (σ e.1, e.2)) :
    Contracted g (fun u => σ (mapping u)) h := by
  have hkey : ∀ c, c < cn → ∀ d, d ∈ (col c).map Prod.fst ↔
      ∃ u, u < g.n ∧ mapping u = c ∧ ∃ e ∈ g.adj u, mapping e.1 = d ∧ d ≠ c := by
    intro c hc d
    constructor
    · intro hd
      obtain ⟨⟨d', w⟩, hm, rfl⟩ := List.mem_map.1 hd
      obtain ⟨x, hx, hxd⟩ := List.mem_map.1 (((hcol c hc).2 _ _).1 hm).1
      obtain ⟨u, hu, e, he, hne, rfl⟩ := mem_inputs.1 hx
      have := (hp.mem_bucket hc).1 hu
      refine ⟨u, this.1, this.2, e, he, hxd, ?_⟩
      rw [← hxd]; exact hne
    · rintro ⟨u, hu, huc, e, he, hed, hne⟩
      refine List.mem_map.2 ⟨(d, _), ((hcol c hc).2 d _).2 ⟨?_, rfl⟩, rfl⟩
      exact List.mem_map.2 ⟨(d, e.2), mem_inputs.2 ⟨u, (hp.mem_bucket hc).2 ⟨hu, huc⟩, e, he, by rw [hed]; exact hne,
        by rw [hed]⟩, rfl⟩
  have hlt : ∀ c, c < cn → ∀ e ∈ col c, e.1 < cn ∧ e.1 ≠ c := by
    intro c hc e he
    obtain ⟨u, hu, _, e', he', hd, hne⟩ := (hkey c hc e.1).1 (List.mem_map.2 ⟨e, he, rfl⟩)
    exact ⟨hd ▸ hp.maps _ (hp.wf u hu e' he'), hne⟩
  have hall : ∀ (P : Nat → Prop), (∀ c, c < cn → P (σ c)) → ∀ c, c < h.n → P c := by
    intro P hP c hc
    obtain ⟨c', hc', rfl⟩ := hsurj c (hn ▸ hc)
    exact hP c' hc'
  have hsum : ∀ c d, c < cn → d < cn → ((h.adj (σ c)).filter fun e => e.1 = σ d).map Prod.snd =
      ((col c).filter fun e => e.1 = d).map Prod.snd := by
    intro c d hc hd
    rw [hadj c hc, List.filter_map, List.map_map]
    have : (col c).filter ((fun e : Nat × Int => decide (e.1 = σ d)) ∘ fun e => (σ e.1, e.2)) =
        (col c).filter fun e => e.1 = d := by
      apply List.filter_congr
      intro e he
      simp only [Function.comp_apply, decide_eq_decide]
      exact ⟨fun h => hinj _ _ (hlt c hc e he).1 hd h, fun h => by rw [h]⟩
    rw [this]
    rfl
  refine ⟨?_, ?_, ?_, ?_, ?_, ?_, ?_, ?_⟩
  · intro u hu; rw [hn]; exact hσ _ (hp.maps u hu)
  · apply hall
    intro c hc
    obtain ⟨u, hu, rfl⟩ := hp.onto c hc
    exact ⟨u, hu, rfl⟩
  · apply hall
    intro c hc
    rw [hw c hc, bucketWeight_eq (hp.bucket c hc)]
    apply Finset.sum_congr rfl
    intro u hu
    have : mapping u = c ↔ σ (mapping u) = σ c :=
      ⟨fun h => by rw [h], fun h => hinj _ _ (hp.maps u (mem_range.1 hu)) hc h⟩
    simp only [this]
  · refine hall (fun c => ∀ e ∈ h.adj c, e.1 < h.n) ?_
    intro c hc e he
    rw [hadj c hc] at he
    obtain ⟨e', he', rfl⟩ := List.mem_map.1 he
    rw [hn]; exact hσ _ (hlt c hc e' he').1
  · refine hall (fun c => ∀ e ∈ h.adj c, e.1 ≠ c) ?_
    intro c hc e he
    rw [hadj c hc] at he
    obtain ⟨e', he', rfl⟩ := List.mem_map.1 he
    exact fun h => (hlt c hc e' he').2 (hinj _ _ (hlt c hc e' he').1 hc h)
  · apply hall
    intro c hc
    rw [hadj c hc, List.map_map]
    have : (Prod.fst ∘ fun e : Nat × Int => (σ e.1, e.2)) = σ ∘ Prod.fst := rfl
    rw [this, ← List.map_map]
    refine nodup_map_on (hcol c hc).1 ?_
    intro a ha b hb
    obtain ⟨x, hx, rfl⟩ := List.mem_map.1 ha
    obtain ⟨y, hy, rfl⟩ := List.mem_map.1 hb
    exact hinj _ _ (hlt c hc x hx).1 (hlt c hc y hy).1
  · intro c d hc hd
    obtain ⟨c, hc', rfl⟩ := hsurj c (hn ▸ hc)
    obtain ⟨d, hd', rfl⟩ := hsurj d (hn ▸ hd)
    intro hne
    have hne' : c ≠ d := fun e => hne (e ▸ rfl)
    have : σ d ∈ (h.adj (σ c)).map Prod.fst ↔ d ∈ (col c).map Prod.fst := by
      rw [hadj c hc', List.map_map]
      constructor
      · intro hm
        obtain ⟨e, he, h'⟩ := List.mem_map.1 hm
        exact List.mem_map.2 ⟨e, he, hinj _ _ (hlt c hc' e he).1 hd' h'⟩
      · intro hm
        obtain ⟨e, he, h'⟩ := List.mem_map.1 hm
        exact List.mem_map.2 ⟨e, he, by simp [h']⟩
    rw [this, hkey c hc' d]
    constructor
    · rintro ⟨u, hu, huc, e, he, hed, _⟩
      exact ⟨u, hu, by rw [huc], e, he, by rw [hed]⟩
    · rintro ⟨u, hu, huc, e, he, hed⟩
      exact ⟨u, hu, hinj _ _ (hp.maps u hu) hc' huc, e, he,
        hinj _ _ (hp.maps _ (hp.wf u hu e he)) hd' hed, Ne.symm hne'⟩
  · intro c d hc hd
    obtain ⟨c, hc', rfl⟩ := hsurj c (hn ▸ hc)
    obtain ⟨d, hd', rfl⟩ := hsurj d (hn ▸ hd)
    intro hne
    have hne' : c ≠ d := fun e => hne (e ▸ rfl)
    unfold Graph.wt
    rw [hsum c d hc' hd', (hcol c hc').weight d, inputs_weight hp.wf hne' (hp.bucket c hc')]
    apply Finset.sum_congr rfl
    intro u hu
    apply Finset.sum_congr rfl
    intro v hv
    have h1 : mapping u = c ↔ σ (mapping u) = σ c :=
      ⟨fun h => by rw [h], fun h => hinj _ _ (hp.maps u (mem_range.1 hu)) hc' h⟩
    have h2 : mapping v = d ↔ σ (mapping v) = σ d :=
      ⟨fun h => by rw [h], fun h => hinj _ _ (hp.maps v (mem_range.1 hv)) hd' h⟩
    simp only [h1, h2]
    rfl

end Verif.Contraction

import Verif.LP.Select
import Mathlib.Data.List.GetD

/-! Facts about the choice of a cluster: it is the best acceptable entry of the rating map. -/

namespace Verif.LP

/-- The acceptance condition of a rule. -/
def Rule.fits : Rule → Ctx → Entry → Bool
  | .refine _ => fitsRefine
  | .cluster _ comm => fun x => fitsCluster x comm

structure SelInv (rule : Rule) (x : Ctx) (es : List Entry) (s : Sel) : Prop where
  best : (s.best = x.own ∧ s.gain = 0) ∨ ∃ e ∈ es, e.c = s.best ∧ e.r = s.gain ∧ rule.fits x e = true
  nonneg : 0 ≤ s.gain
  max : ∀ e ∈ es, rule.fits x e = true → e.r ≤ s.gain
  ties : ∀ c ∈ s.ties, ∃ e ∈ es, e.c = c ∧ e.r = s.gain ∧ rule.fits x e = true

structure FavInv (x : Ctx) (es : List Entry) (s : Sel) : Prop where
  fav : (s.fav = x.own ∧ s.overall = 0) ∨ ∃ e ∈ es, e.c = s.fav ∧ e.r = s.overall
  nonneg : 0 ≤ s.overall
  max : x.storeFav = true → ∀ e ∈ es, e.r ≤ s.overall
  ties : ∀ c ∈ s.favTies, ∃ e ∈ es, e.c = c ∧ e.r = s.overall

theorem pick_mem {v : List Nat} {i c : Nat} : pick v i c = c ∨ pick v i c ∈ v := by
  unfold pick
  split
  · rename_i h
    right
    have : i % v.length < v.length := Nat.mod_lt _ (by omega)
    rw [List.getD_eq_getElem v c this]
    exact List.getElem_mem _
  · exact Or.inl rfl

/-- A step keeps the selection or replaces it by the entry, and never misses a better one. -/
structure StepOk (rule : Rule) (x : Ctx) (s s' : Sel) (e : Entry) : Prop where
  mono : s.gain ≤ s'.gain
  le : rule.fits x e = true → e.r ≤ s'.gain
  best : (s'.best = s.best ∧ s'.gain = s.gain) ∨ (s'.best = e.c ∧ s'.gain = e.r ∧ rule.fits x e = true)
  ties : ∀ c ∈ s'.ties, (c ∈ s.ties ∧ s'.gain = s.gain) ∨ (c = e.c ∧ s'.gain = e.r ∧ rule.fits x e = true)

theorem favUniform_same (x : Ctx) (s : Sel) (e : Entry) : (favUniform x s e).gain = s.gain ∧
    (favUniform x s e).best = s.best ∧ (favUniform x s e).ties = s.ties ∧
    (favUniform x s e).weight = s.weight := by
  unfold favUniform; split <;> (try split) <;> (try split) <;> exact ⟨rfl, rfl, rfl, rfl⟩

theorem favGeometric_same (x : Ctx) (s : Sel) (e : Entry) : (favGeometric x s e).gain = s.gain ∧
    (favGeometric x s e).best = s.best ∧ (favGeometric x s e).ties = s.ties ∧
    (favGeometric x s e).weight = s.weight := by
  unfold favGeometric; split <;> exact ⟨rfl, rfl, rfl, rfl⟩

theorem step_ok (rule : Rule) (x : Ctx) (s : Sel) (e : Entry) (h0 : rule.uniform = false → s.ties = []) :
    StepOk rule x s (rule.step x s e) e ∧ (rule.uniform = false → (rule.step x s e).ties = []) := by
  rcases rule with (_ | _) | ⟨_ | _, comm⟩
  · -- refine, geometric
    show StepOk _ x s (refineGeometric x s e) e ∧ (_ → (refineGeometric x s e).ties = [])
    obtain ⟨h1, h2, h3, h4⟩ := favGeometric_same x s e
    have h0 := h0 rfl
    unfold refineGeometric
    simp only [h1, h2, h4]
    split
    · rename_i h
      simp only [Bool.and_eq_true, Bool.or_eq_true, decide_eq_true_eq] at h
      obtain ⟨hg, hf⟩ := h
      have hle : s.gain ≤ e.r := by omega
      refine ⟨⟨hle, fun _ => Int.le_refl _, Or.inr ⟨rfl, rfl, hf⟩, fun c hc => ?_⟩, fun _ => ?_⟩
      · have hc' : c ∈ (favGeometric x s e).ties := hc
        rw [h3, h0] at hc'
        cases hc'
      · show (favGeometric x s e).ties = []
        rw [h3, h0]
    · rename_i h
      refine ⟨⟨by rw [h1]; exact Int.le_refl _, fun hf => ?_, Or.inl ⟨h2, h1⟩, fun c hc => ?_⟩, fun _ => ?_⟩
      · rw [h1]
        have hf : fitsRefine x e = true := hf
        rw [hf] at h
        simp only [Bool.and_true, Bool.or_eq_true, decide_eq_true_eq] at h
        omega
      · rw [h3, h0] at hc; cases hc
      · rw [h3, h0]
  · -- refine, uniform
    show StepOk _ x s (refineUniform x s e) e ∧ _
    refine ⟨?_, fun h => by cases h⟩
    obtain ⟨h1, h2, h3, h4⟩ := favUniform_same x s e
    unfold refineUniform
    simp only [h1, h2, h3, h4]
    have keep : (fitsRefine x e = true → e.r ≤ s.gain) →
        StepOk (.refine true) x s (favUniform x s e) e := fun hle =>
      ⟨by rw [h1]; exact Int.le_refl _, fun hf => by rw [h1]; exact hle hf, Or.inl ⟨h2, h1⟩,
        fun c hc => Or.inl ⟨by rw [h3] at hc; exact hc, h1⟩⟩
    split
    · rename_i hlt
      split
      · rename_i hf
        exact ⟨Int.le_of_lt hlt, fun _ => Int.le_refl _, Or.inr ⟨rfl, rfl, hf⟩,
          fun c hc => Or.inr ⟨List.mem_singleton.1 hc, rfl, hf⟩⟩
      · rename_i hf
        exact keep fun h => absurd h hf
    · rename_i hlt
      split
      · rename_i heq
        split
        · split
          · rename_i hf
            exact ⟨Int.le_refl _, fun _ => by simp only; omega,
              Or.inr ⟨rfl, by simp only; omega, hf⟩,
              fun c hc => Or.inr ⟨List.mem_singleton.1 hc, by simp only; omega, hf⟩⟩
          · rename_i hf
            exact keep fun h => absurd h hf
        · split
          · split
            · rename_i hf
              refine ⟨Int.le_refl _, fun _ => by simp only; omega,
                Or.inl ⟨rfl, rfl⟩, fun c hc => ?_⟩
              rcases List.mem_append.1 hc with hc | hc
              · exact Or.inl ⟨hc, rfl⟩
              · exact Or.inr ⟨List.mem_singleton.1 hc, by simp only; omega, hf⟩
            · rename_i hf
              exact keep fun h => absurd h hf
          · exact keep fun _ => by omega
      · exact keep fun _ => by omega
  · -- cluster, geometric
    show StepOk _ x s (clusterGeometric x comm s e) e ∧ (_ → (clusterGeometric x comm s e).ties = [])
    obtain ⟨h1, h2, h3, h4⟩ := favGeometric_same x s e
    have h0 := h0 rfl
    unfold clusterGeometric
    simp only [h1]
    split
    · rename_i h
      simp only [Bool.and_eq_true, Bool.or_eq_true, decide_eq_true_eq] at h
      obtain ⟨hg, hf⟩ := h
      have hle : s.gain ≤ e.r := by omega
      refine ⟨⟨hle, fun _ => Int.le_refl _, Or.inr ⟨rfl, rfl, hf⟩, fun c hc => ?_⟩, fun _ => ?_⟩
      · have hc' : c ∈ (favGeometric x s e).ties := hc
        rw [h3, h0] at hc'
        cases hc'
      · show (favGeometric x s e).ties = []
        rw [h3, h0]
    · rename_i h
      refine ⟨⟨by rw [h1]; exact Int.le_refl _, fun hf => ?_, Or.inl ⟨h2, h1⟩, fun c hc => ?_⟩, fun _ => ?_⟩
      · rw [h1]
        have hf : fitsCluster x comm e = true := hf
        rw [hf] at h
        simp only [Bool.and_true, Bool.or_eq_true, Bool.and_eq_true, decide_eq_true_eq] at h
        omega
      · rw [h3, h0] at hc; cases hc
      · rw [h3, h0]
  · -- cluster, uniform
    show StepOk _ x s (clusterUniform x comm s e) e ∧ _
    refine ⟨?_, fun h => by cases h⟩
    obtain ⟨h1, h2, h3, h4⟩ := favUniform_same x s e
    unfold clusterUniform
    simp only [h1, h3]
    have keep : (fitsCluster x comm e = true → e.r ≤ s.gain) →
        StepOk (.cluster true comm) x s (favUniform x s e) e := fun hle =>
      ⟨by rw [h1]; exact Int.le_refl _, fun hf => by rw [h1]; exact hle hf, Or.inl ⟨h2, h1⟩,
        fun c hc => Or.inl ⟨by rw [h3] at hc; exact hc, h1⟩⟩
    split
    · rename_i hlt
      split
      · rename_i hf
        exact ⟨Int.le_of_lt hlt, fun _ => Int.le_refl _, Or.inr ⟨rfl, rfl, hf⟩,
          fun c hc => Or.inr ⟨List.mem_singleton.1 hc, rfl, hf⟩⟩
      · rename_i hf
        exact keep fun h => absurd h hf
    · rename_i hlt
      split
      · rename_i heq
        split
        · rename_i hf
          refine ⟨Int.le_refl _, fun _ => by simp only; omega,
            Or.inl ⟨by simp only [h2], rfl⟩, fun c hc => ?_⟩
          rcases List.mem_append.1 hc with hc | hc
          · exact Or.inl ⟨hc, rfl⟩
          · exact Or.inr ⟨List.mem_singleton.1 hc, by simp only; omega, hf⟩
        · rename_i hf
          exact keep fun h => absurd h hf
      · exact keep fun _ => by omega

theorem SelInv.step {rule : Rule} {x : Ctx} {es : List Entry} {s : Sel} (h : SelInv rule x es s)
    (h0 : rule.uniform = false → s.ties = []) (e : Entry) :
    SelInv rule x (es ++ [e]) (rule.step x s e) := by
  have ho := (step_ok rule x s e h0).1
  have old : ∀ {P : Entry → Prop}, (∃ e' ∈ es, P e') → ∃ e' ∈ es ++ [e], P e' :=
    fun ⟨e', he, hp⟩ => ⟨e', List.mem_append_left _ he, hp⟩
  have new : e ∈ es ++ [e] := List.mem_append_right _ List.mem_cons_self
  refine ⟨?_, Int.le_trans h.nonneg ho.mono, fun e' he' hf => ?_, fun c hc => ?_⟩
  · rcases ho.best with ⟨h1, h2⟩ | ⟨h1, h2, h3⟩
    · rw [h1, h2]
      exact h.best.imp_right old
    · exact Or.inr ⟨e, new, h1.symm, h2.symm, h3⟩
  · rcases List.mem_append.1 he' with he' | he'
    · exact Int.le_trans (h.max e' he' hf) ho.mono
    · rw [List.mem_singleton.1 he'] at hf ⊢
      exact ho.le hf
  · rcases ho.ties c hc with ⟨h1, h2⟩ | ⟨h1, h2, h3⟩
    · rw [h2]
      exact old (h.ties c h1)
    · exact ⟨e, new, h1.symm, h2.symm, h3⟩

theorem sel_inv_fold (rule : Rule) (x : Ctx) : ∀ (es done : List Entry) (s : Sel), SelInv rule x done s →
    (rule.uniform = false → s.ties = []) → SelInv rule x (done ++ es) (es.foldl (rule.step x) s)
  | [], done, s, h, _ => by rw [List.append_nil]; exact h
  | e :: es, done, s, h, h0 => by
    have := sel_inv_fold rule x es (done ++ [e]) _ (h.step h0 e) (step_ok rule x s e h0).2
    rw [List.append_assoc] at this
    exact this

/-- The selected cluster: the own cluster with gain 0, or an acceptable entry with its rating; no
acceptable entry has a higher rating. -/
theorem select_spec (rule : Rule) (x : Ctx) (es : List Entry) (i j : Nat) :
    (((select rule x es i j).best = x.own ∧ (select rule x es i j).gain = 0) ∨
      ∃ e ∈ es, e.c = (select rule x es i j).best ∧ e.r = (select rule x es i j).gain ∧
        rule.fits x e = true) ∧
    0 ≤ (select rule x es i j).gain ∧
    ∀ e ∈ es, rule.fits x e = true → e.r ≤ (select rule x es i j).gain := by
  have h := sel_inv_fold rule x es [] (Sel.init x)
    ⟨Or.inl ⟨rfl, rfl⟩, Int.le_refl _, fun _ he => (nomatch he), fun _ hc => (nomatch hc)⟩ (fun _ => rfl)
  rw [List.nil_append] at h
  refine ⟨?_, h.nonneg, h.max⟩
  rcases pick_mem (v := (es.foldl (rule.step x) (Sel.init x)).ties) (i := i)
      (c := (es.foldl (rule.step x) (Sel.init x)).best) with hp | hp
  · show (pick _ _ _ = _ ∧ _) ∨ ∃ e ∈ es, e.c = pick _ _ _ ∧ _
    rw [hp]
    exact h.best
  · exact Or.inr (h.ties _ hp)

/-! ## The favored cluster -/

/-- The part of the state that concerns the favored cluster. -/
def Sel.favPart (s : Sel) : Int × Nat × List Nat := (s.overall, s.fav, s.favTies)

theorem step_favPart (rule : Rule) (x : Ctx) (s : Sel) (e : Entry) : (rule.step x s e).favPart =
    (if rule.uniform then favUniform x s e else favGeometric x s e).favPart := by
  rcases rule with (_ | _) | ⟨_ | _, comm⟩
  · show (refineGeometric x s e).favPart = (favGeometric x s e).favPart
    unfold refineGeometric
    simp only
    split <;> rfl
  · show (refineUniform x s e).favPart = (favUniform x s e).favPart
    unfold refineUniform
    simp only
    repeat' split
    all_goals rfl
  · show (clusterGeometric x comm s e).favPart = (favGeometric x s e).favPart
    unfold clusterGeometric
    simp only
    split <;> rfl
  · show (clusterUniform x comm s e).favPart = (favUniform x s e).favPart
    unfold clusterUniform
    simp only
    repeat' split
    all_goals rfl

theorem FavInv.congr {x : Ctx} {es : List Entry} {s s' : Sel} (h : FavInv x es s)
    (he : s'.favPart = s.favPart) : FavInv x es s' := by
  simp only [Sel.favPart, Prod.mk.injEq] at he
  obtain ⟨h1, h2, h3⟩ := he
  exact ⟨by rw [h1, h2]; exact h.fav, by rw [h1]; exact h.nonneg, by rw [h1]; exact h.max,
    by rw [h1, h3]; exact h.ties⟩

theorem FavInv.step {rule : Rule} {x : Ctx} {es : List Entry} {s : Sel} (h : FavInv x es s)
    (h0 : rule.uniform = false → s.favTies = []) (e : Entry) :
    FavInv x (es ++ [e]) (rule.step x s e) ∧ (rule.uniform = false → (rule.step x s e).favTies = []) := by
  have old : ∀ {P : Entry → Prop}, (∃ e' ∈ es, P e') → ∃ e' ∈ es ++ [e], P e' :=
    fun ⟨e', he, hp⟩ => ⟨e', List.mem_append_left _ he, hp⟩
  have new : e ∈ es ++ [e] := List.mem_append_right _ List.mem_cons_self
  have hmax : ∀ (M : Int), s.overall ≤ M → (x.storeFav = true → e.r ≤ M) →
      x.storeFav = true → ∀ e' ∈ es ++ [e], e'.r ≤ M := by
    intro M h1 h2 hs e' he'
    rcases List.mem_append.1 he' with he' | he'
    · exact Int.le_trans (h.max hs e' he') h1
    · rw [List.mem_singleton.1 he']; exact h2 hs
  have key : FavInv x (es ++ [e]) (if rule.uniform then favUniform x s e else favGeometric x s e) ∧
      (rule.uniform = false →
        (if rule.uniform then favUniform x s e else favGeometric x s e).favTies = []) := by
    by_cases hu : rule.uniform = true
    · rw [if_pos hu]
      refine ⟨?_, fun hf => by rw [hu] at hf; cases hf⟩
      unfold favUniform
      split
      · rename_i hsf
        split
        · rename_i hlt
          exact ⟨Or.inr ⟨e, new, rfl, rfl⟩, Int.le_of_lt (Int.lt_of_le_of_lt h.nonneg hlt),
            hmax _ (Int.le_of_lt hlt) fun _ => Int.le_refl _,
            fun c hc => ⟨e, new, (List.mem_singleton.1 hc).symm, rfl⟩⟩
        · rename_i hlt
          split
          · rename_i heq
            refine ⟨h.fav.imp_right old, h.nonneg, hmax _ (Int.le_refl _) fun _ => Int.le_of_eq heq, fun c hc => ?_⟩
            rcases List.mem_append.1 hc with hc | hc
            · exact old (h.ties c hc)
            · exact ⟨e, new, (List.mem_singleton.1 hc).symm, heq⟩
          · exact ⟨h.fav.imp_right old, h.nonneg, hmax _ (Int.le_refl _) fun _ => by omega,
              fun c hc => old (h.ties c hc)⟩
      · rename_i hsf
        exact ⟨h.fav.imp_right old, h.nonneg, fun hs => absurd hs hsf, fun c hc => old (h.ties c hc)⟩
    · rw [if_neg hu]
      have h0 := h0 (by simpa using hu)
      unfold favGeometric
      split
      · rename_i hc
        simp only [Bool.and_eq_true, decide_eq_true_eq] at hc
        exact ⟨⟨Or.inr ⟨e, new, rfl, rfl⟩, Int.le_of_lt (Int.lt_of_le_of_lt h.nonneg hc.2),
          hmax _ (Int.le_of_lt hc.2) fun _ => Int.le_refl _, fun c hc => by rw [h0] at hc; cases hc⟩,
          fun _ => h0⟩
      · rename_i hc
        simp only [Bool.and_eq_true, decide_eq_true_eq, not_and] at hc
        exact ⟨⟨h.fav.imp_right old, h.nonneg,
          hmax _ (Int.le_refl _) fun hs => by have := hc hs; omega, fun c hc => old (h.ties c hc)⟩,
          fun _ => h0⟩
  have hp := step_favPart rule x s e
  refine ⟨key.1.congr hp, fun hu => ?_⟩
  simp only [Sel.favPart, Prod.mk.injEq] at hp
  rw [hp.2.2]
  exact key.2 hu

theorem fav_inv_fold (rule : Rule) (x : Ctx) : ∀ (es done : List Entry) (s : Sel), FavInv x done s →
    (rule.uniform = false → s.favTies = []) → FavInv x (done ++ es) (es.foldl (rule.step x) s)
  | [], done, s, h, _ => by rw [List.append_nil]; exact h
  | e :: es, done, s, h, h0 => by
    have hs := h.step h0 e
    have := fav_inv_fold rule x es (done ++ [e]) _ hs.1 hs.2
    rw [List.append_assoc] at this
    exact this

/-- The favored cluster is the own cluster or an entry; if it is to be stored, no entry has a higher
rating. -/
theorem select_fav_spec (rule : Rule) (x : Ctx) (es : List Entry) (i j : Nat) :
    (select rule x es i j).fav = x.own ∧ (x.storeFav = true → ∀ e ∈ es, e.r ≤ 0) ∨
      ∃ e ∈ es, e.c = (select rule x es i j).fav ∧ (x.storeFav = true → ∀ e' ∈ es, e'.r ≤ e.r) := by
  have h := fav_inv_fold rule x es [] (Sel.init x)
    ⟨Or.inl ⟨rfl, rfl⟩, Int.le_refl _, fun _ _ he => (nomatch he), fun _ hc => (nomatch hc)⟩ (fun _ => rfl)
  rw [List.nil_append] at h
  have fin : ∀ e ∈ es, e.r = (es.foldl (rule.step x) (Sel.init x)).overall →
      x.storeFav = true → ∀ e' ∈ es, e'.r ≤ e.r := fun e _ hr hs e' he' => by
    rw [hr]; exact h.max hs e' he'
  show pick _ _ _ = _ ∧ _ ∨ ∃ e ∈ es, e.c = pick _ _ _ ∧ _
  rcases pick_mem (v := (es.foldl (rule.step x) (Sel.init x)).favTies) (i := j)
      (c := (es.foldl (rule.step x) (Sel.init x)).fav) with hp | hp
  · rw [hp]
    rcases h.fav with ⟨h1, h2⟩ | ⟨e, he, h1, h2⟩
    · exact Or.inl ⟨h1, fun hs e he => h2 ▸ h.max hs e he⟩
    · exact Or.inr ⟨e, he, h1, fin e he h2⟩
  · obtain ⟨e, he, h1, h2⟩ := h.ties _ hp
    exact Or.inr ⟨e, he, h1, fin e he h2⟩

/-! ## The second phase -/

structure CombInv (own : Nat) (ls : List Local) (s : Comb) : Prop where
  best : (s.best = own ∧ s.gain = 0) ∨ ∃ l ∈ ls, l.best = s.best ∧ l.gain = s.gain
  nonneg : 0 ≤ s.gain
  max : ∀ l ∈ ls, l.gain ≤ s.gain
  ties : ∀ c ∈ s.ties, ∃ l ∈ ls, l.best = c ∧ l.gain = s.gain

theorem CombInv.step (uniform storeFav : Bool) {own : Nat} {ls : List Local} {s : Comb}
    (h : CombInv own ls s) (h0 : uniform = false → s.ties = []) (l : Local) :
    CombInv own (ls ++ [l]) ((if uniform then combUniform else combGeometric) storeFav s l) ∧
      (uniform = false → ((if uniform then combUniform else combGeometric) storeFav s l).ties = []) := by
  have old : ∀ {P : Local → Prop}, (∃ e' ∈ ls, P e') → ∃ e' ∈ ls ++ [l], P e' :=
    fun ⟨e', he, hp⟩ => ⟨e', List.mem_append_left _ he, hp⟩
  have new : l ∈ ls ++ [l] := List.mem_append_right _ List.mem_cons_self
  have hmax : ∀ (M : Int), s.gain ≤ M → l.gain ≤ M → ∀ e' ∈ ls ++ [l], e'.gain ≤ M := by
    intro M h1 h2 e' he'
    rcases List.mem_append.1 he' with he' | he'
    · exact Int.le_trans (h.max e' he') h1
    · rw [List.mem_singleton.1 he']; exact h2
  have mk : ∀ s' : Comb, CombInv own (ls ++ [l]) s' → ∀ s'' : Comb,
      (s''.best = s'.best ∧ s''.gain = s'.gain ∧ s''.ties = s'.ties) → CombInv own (ls ++ [l]) s'' := by
    intro s' h s'' ⟨h1, h2, h3⟩
    exact ⟨by rw [h1, h2]; exact h.best, by rw [h2]; exact h.nonneg, by rw [h2]; exact h.max,
      by rw [h2, h3]; exact h.ties⟩
  cases uniform with
  | true =>
    refine ⟨?_, fun hf => by cases hf⟩
    show CombInv own (ls ++ [l]) (combUniform storeFav s l)
    unfold combUniform
    simp only
    refine mk (if s.gain < l.gain then { s with gain := l.gain, best := l.best, ties := [l.best] }
      else if l.gain = s.gain then { s with ties := s.ties ++ [l.best] } else s) ?_ _ ?_
    · split
      · rename_i hlt
        exact ⟨Or.inr ⟨l, new, rfl, rfl⟩, Int.le_of_lt (Int.lt_of_le_of_lt h.nonneg hlt),
          hmax _ (Int.le_of_lt hlt) (Int.le_refl _),
          fun c hc => ⟨l, new, (List.mem_singleton.1 hc).symm, rfl⟩⟩
      · split
        · rename_i heq
          refine ⟨h.best.imp_right old, h.nonneg, hmax _ (Int.le_refl _) (by show l.gain ≤ s.gain; omega),
            fun c hc => ?_⟩
          rcases List.mem_append.1 hc with hc | hc
          · exact old (h.ties c hc)
          · exact ⟨l, new, (List.mem_singleton.1 hc).symm, heq⟩
        · exact ⟨h.best.imp_right old, h.nonneg, hmax _ (Int.le_refl _) (by omega),
            fun c hc => old (h.ties c hc)⟩
    · generalize (if s.gain < l.gain then _ else _ : Comb) = s'
      repeat' split
      all_goals exact ⟨rfl, rfl, rfl⟩
  | false =>
    have h0 := h0 rfl
    show CombInv own (ls ++ [l]) (combGeometric storeFav s l) ∧
      (_ → (combGeometric storeFav s l).ties = [])
    unfold combGeometric
    simp only
    have hs' : CombInv own (ls ++ [l]) (if s.gain < l.gain then { s with gain := l.gain, best := l.best }
        else s) ∧ (if s.gain < l.gain then { s with gain := l.gain, best := l.best } else s).ties = [] := by
      split
      · rename_i hlt
        exact ⟨⟨Or.inr ⟨l, new, rfl, rfl⟩, Int.le_of_lt (Int.lt_of_le_of_lt h.nonneg hlt),
          hmax _ (Int.le_of_lt hlt) (Int.le_refl _), fun c hc => by rw [h0] at hc; cases hc⟩, h0⟩
      · exact ⟨⟨h.best.imp_right old, h.nonneg, hmax _ (Int.le_refl _) (by omega),
          fun c hc => old (h.ties c hc)⟩, h0⟩
    generalize (if s.gain < l.gain then _ else _ : Comb) = s' at hs'
    split
    · exact ⟨mk s' hs'.1 _ ⟨rfl, rfl, rfl⟩, fun _ => hs'.2⟩
    · exact ⟨hs'.1, fun _ => hs'.2⟩

theorem comb_inv_fold (uniform storeFav : Bool) (own : Nat) : ∀ (ls done : List Local) (s : Comb),
    CombInv own done s → (uniform = false → s.ties = []) →
    CombInv own (done ++ ls) (ls.foldl ((if uniform then combUniform else combGeometric) storeFav) s)
  | [], done, s, h, _ => by rw [List.append_nil]; exact h
  | l :: ls, done, s, h, h0 => by
    have hs := h.step uniform storeFav h0 l
    have := comb_inv_fold uniform storeFav own ls (done ++ [l]) _ hs.1 hs.2
    rw [List.append_assoc] at this
    exact this

theorem combine_spec (uniform storeFav : Bool) (own : Nat) (ls : List Local) (i j : Nat) :
    (((combine uniform storeFav own ls i j).best = own ∧ (combine uniform storeFav own ls i j).gain = 0) ∨
      ∃ l ∈ ls, l.best = (combine uniform storeFav own ls i j).best ∧
        l.gain = (combine uniform storeFav own ls i j).gain) ∧
    0 ≤ (combine uniform storeFav own ls i j).gain ∧
    ∀ l ∈ ls, l.gain ≤ (combine uniform storeFav own ls i j).gain := by
  have h := comb_inv_fold uniform storeFav own ls [] ⟨own, 0, own, 0, [], []⟩
    ⟨Or.inl ⟨rfl, rfl⟩, Int.le_refl _, fun _ he => (nomatch he), fun _ hc => (nomatch hc)⟩ (fun _ => rfl)
  rw [List.nil_append] at h
  refine ⟨?_, h.nonneg, h.max⟩
  show (pick _ _ _ = _ ∧ _) ∨ ∃ l ∈ ls, l.best = pick _ _ _ ∧ _
  rcases pick_mem (v := (ls.foldl ((if uniform then combUniform else combGeometric) storeFav)
      ⟨own, 0, own, 0, [], []⟩).ties) (i := i)
      (c := (ls.foldl ((if uniform then combUniform else combGeometric) storeFav)
        ⟨own, 0, own, 0, [], []⟩).best) with hp | hp
  · rw [hp]
    exact h.best
  · exact Or.inr (h.ties _ hp)

/-- The second phase selects like a single task that sees the entries of all groups. -/
theorem selectGroups_spec (rule : Rule) (x : Ctx) (ratingOf : Nat → Int)
    (gs : List (Option (List Entry × Nat × Nat))) (i j : Nat) :
    let r := selectGroups rule x ratingOf gs i j
    let es := gs.flatMap fun g => match g with | none => [] | some (es, _, _) => es
    ((r.best = x.own ∧ r.gain = 0) ∨ ∃ e ∈ es, e.c = r.best ∧ e.r = r.gain ∧ rule.fits x e = true) ∧
    0 ≤ r.gain ∧ ∀ e ∈ es, rule.fits x e = true → e.r ≤ r.gain := by
  intro r es
  obtain ⟨h1, h2, h3⟩ := combine_spec rule.uniform x.storeFav x.own (gs.map fun g => match g with
      | none => (⟨-1, 0, -1, 0⟩ : Local)
      | some (es, i, j) =>
        let r := select rule x es i j
        ⟨r.gain, r.best, ratingOf r.fav, r.fav⟩) i j
  refine ⟨?_, h2, fun e he hf => ?_⟩
  · rcases h1 with h1 | ⟨l, hl, hb, hg⟩
    · exact Or.inl h1
    · obtain ⟨g, hg', rfl⟩ := List.mem_map.1 hl
      rcases g with _ | ⟨es', i', j'⟩
      · have hg : (-1 : Int) = r.gain := hg
        have h2 : 0 ≤ r.gain := h2
        omega
      · have hb : (select rule x es' i' j').best = r.best := hb
        have hg : (select rule x es' i' j').gain = r.gain := hg
        rcases (select_spec rule x es' i' j').1 with ⟨a, b⟩ | ⟨e, he, a, b, c⟩
        · exact Or.inl ⟨by rw [← hb, a], by rw [← hg, b]⟩
        · exact Or.inr ⟨e, List.mem_flatMap.2 ⟨_, hg', he⟩, by rw [a, hb], by rw [b, hg], c⟩
  · obtain ⟨g, hg', he⟩ := List.mem_flatMap.1 he
    rcases g with _ | ⟨es', i', j'⟩
    · cases he
    · exact Int.le_trans ((select_spec rule x es' i' j').2.2 e he hf)
        (h3 _ (List.mem_map.2 ⟨_, hg', rfl⟩))

end Verif.LP

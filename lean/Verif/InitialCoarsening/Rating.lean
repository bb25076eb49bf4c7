import Verif.InitialCoarsening.Model
import Verif.Contraction.Rows

/-!
# The rating map
-/

namespace Verif.InitialCoarsening
open Verif.Maps (FastResetArray)
open Verif.Contraction

/-- The total weight of the operations on key `k`. -/
def total (ins : List (Nat × Int)) (k : Nat) : Int := ((ins.filter fun e => e.1 = k).map Prod.snd).sum

/-- All weights are positive. -/
def Positive (ins : List (Nat × Int)) : Prop := ∀ e ∈ ins, 0 < e.2

theorem total_append (ins : List (Nat × Int)) (k k' : Nat) (w : Int) :
    total (ins ++ [(k, w)]) k' = total ins k' + if k = k' then w else 0 := by
  unfold total
  rw [List.filter_append, List.map_append, List.sum_append]
  congr 1
  by_cases h : k = k' <;> simp [h]

theorem total_zero {ins : List (Nat × Int)} {k : Nat} (h : k ∉ ins.map Prod.fst) : total ins k = 0 := by
  unfold total
  have : ins.filter (fun e => decide (e.1 = k)) = [] := by
    rw [List.filter_eq_nil_iff]
    intro e he hd
    exact h (List.mem_map.2 ⟨e, he, by simpa using hd⟩)
  rw [this]; rfl

theorem total_nonneg {ins : List (Nat × Int)} (hp : Positive ins) (k : Nat) : 0 ≤ total ins k := by
  unfold total
  apply List.sum_nonneg
  intro x hx
  obtain ⟨e, he, rfl⟩ := List.mem_map.1 hx
  exact (hp e (List.mem_of_mem_filter he)).le

theorem total_pos {ins : List (Nat × Int)} (hp : Positive ins) {k : Nat} (h : k ∈ ins.map Prod.fst) : 0 < total ins k := by
  induction ins with
  | nil => simp at h
  | cons a ins ih =>
    have hp' : Positive ins := fun e he => hp e (List.mem_cons_of_mem _ he)
    have hn := total_nonneg hp' k
    unfold total at hn ih ⊢
    rw [List.filter_cons]
    by_cases ha : a.1 = k
    · have := hp a List.mem_cons_self
      simp only [ha, decide_true, if_true, List.map_cons, List.sum_cons]
      omega
    · simp only [ha, decide_false, Bool.false_eq_true, if_false]
      rcases List.mem_cons.1 h with h | h
      · exact absurd h.symm ha
      · exact ih hp' h

/-- The map holds the total weights of the operations `ins`. -/
structure Holds (s : FastResetArray) (ins : List (Nat × Int)) : Prop where
  nodup : s.used.Nodup
  used : ∀ k, k ∈ s.used ↔ k ∈ ins.map Prod.fst
  data : ∀ k, s.data k = total ins k

theorem holds_new (cap : Nat) : Holds (FastResetArray.new cap) [] :=
  ⟨List.nodup_nil, fun k => by simp [FastResetArray.new], fun k => rfl⟩

theorem holds_add {s : FastResetArray} {ins : List (Nat × Int)} (h : Holds s ins) (hp : Positive ins) {k : Nat}
    (hk : k < s.cap) (w : Int) :
    ∃ s', s.modify? k (· + w) = some s' ∧ s'.cap = s.cap ∧ Holds s' (ins ++ [(k, w)]) := by
  unfold FastResetArray.modify?
  rw [if_neg (by omega)]
  refine ⟨_, rfl, rfl, ?_, ?_, ?_⟩
  · show (if s.data k = 0 then s.used ++ [k] else s.used).Nodup
    split
    · rename_i h0
      have : k ∉ s.used := by
        intro hc
        have := total_pos hp ((h.used k).1 hc)
        rw [← h.data] at this
        omega
      rw [List.nodup_append]
      exact ⟨h.nodup, by simp, fun a ha b hb => by rw [List.mem_singleton.1 hb]; rintro rfl; exact this ha⟩
    · exact h.nodup
  · intro k'
    show k' ∈ (if s.data k = 0 then s.used ++ [k] else s.used) ↔ _
    rw [List.map_append, List.mem_append]
    have h1 := h.used k'
    split
    · rw [List.mem_append, h1]; simp
    · rename_i h0
      rw [h1]
      constructor
      · exact Or.inl
      · rintro (hm | hm)
        · exact hm
        · have : k' = k := by simpa using hm
          by_contra hc
          rw [this] at hc
          exact h0 (by rw [h.data]; exact total_zero hc)
  · intro k'
    show upd s.data k (s.data k + w) k' = _
    rw [total_append]
    by_cases hk' : k' = k
    · subst hk'; rw [upd_same, h.data]; simp
    · rw [upd_ne _ _ hk', h.data, if_neg (Ne.symm hk')]; simp

theorem holds_clear {s : FastResetArray} {ins : List (Nat × Int)} (h : Holds s ins) :
    s.clear = FastResetArray.new s.cap := by
  unfold FastResetArray.clear FastResetArray.new
  congr 1
  funext k
  rw [FastResetArray.foldl_upd]
  split
  · rfl
  · rename_i hn
    rw [h.data]
    exact total_zero fun hc => hn ((h.used k).2 hc)

theorem holds_collects {s : FastResetArray} {ins : List (Nat × Int)} (h : Holds s ins) : Collects ins s.entries := by
  refine ⟨?_, fun k v => ?_⟩
  · unfold FastResetArray.entries
    rw [List.map_map]
    simpa [Function.comp_def] using h.nodup
  · unfold FastResetArray.entries
    rw [List.mem_map]
    constructor
    · rintro ⟨k', hk', he⟩
      have h1 : k' = k := congrArg Prod.fst he
      have h2 : s.data k' = v := congrArg Prod.snd he
      subst h1
      exact ⟨(h.used _).1 hk', by rw [← h2, h.data]; rfl⟩
    · rintro ⟨hk, rfl⟩
      exact ⟨k, (h.used _).2 hk, by rw [h.data]; rfl⟩

theorem pickLoop_ok (max uw : Int) (weight : Nat → Int) (coin : Nat → Bool) : ∀ (l : List Nat) (best : Nat) (gain : Int)
    (data : Nat → Int), l.Nodup → (∀ c ∈ l, data c ≠ 0) →
    ∃ b d G, pickLoop? max uw weight coin l best gain data = some (b, d) ∧ (∀ k, d k = if k ∈ l then 0 else data k) ∧
      ((b = best ∧ G = gain) ∨ (b ∈ l ∧ weight b + uw ≤ max ∧ G = data b)) ∧
      gain ≤ G ∧ (∀ c ∈ l, weight c + uw ≤ max → data c ≤ G)
  | [], best, gain, data, _, _ =>
    ⟨best, data, gain, rfl, fun k => by simp, Or.inl ⟨rfl, rfl⟩, le_refl _, fun c hc => absurd hc (by simp)⟩
  | c :: l, best, gain, data, hn, hz => by
    have hcl : c ∉ l := (List.nodup_cons.1 hn).1
    have hz' : ∀ c' ∈ l, upd data c 0 c' ≠ 0 := by
      intro c' hc'
      rw [upd_ne _ _ (fun h : c' = c => hcl (h ▸ hc'))]
      exact hz c' (List.mem_cons_of_mem _ hc')
    have hd : ∀ {d : Nat → Int}, (∀ k, d k = if k ∈ l then 0 else upd data c 0 k) →
        ∀ k, d k = if k ∈ c :: l then 0 else data k := by
      intro d h k
      rw [h]
      by_cases hk : k = c
      · subst hk; simp [hcl]
      · simp [hk, upd_ne]
    have hupd : ∀ c' ∈ l, upd data c 0 c' = data c' := fun c' hc' => upd_ne _ _ (fun h : c' = c => hcl (h ▸ hc'))
    unfold pickLoop?
    rw [if_neg (hz c List.mem_cons_self)]
    simp only
    split
    · rename_i hc
      obtain ⟨b, d, G, h1, h2, h3, h4, h5⟩ := pickLoop_ok max uw weight coin l c (data c) (upd data c 0)
        (List.nodup_cons.1 hn).2 hz'
      refine ⟨b, d, G, h1, hd h2, Or.inr ?_, ?_, ?_⟩
      · rcases h3 with ⟨rfl, rfl⟩ | ⟨h, h', h''⟩
        · exact ⟨List.mem_cons_self, hc.2, rfl⟩
        · exact ⟨List.mem_cons_of_mem _ h, h', by rw [h'', hupd _ h]⟩
      · rcases hc.1 with h | h <;> omega
      · intro c' hc' hf
        rcases List.mem_cons.1 hc' with rfl | hc'
        · exact h4
        · rw [← hupd c' hc']; exact h5 c' hc' hf
    · rename_i hc
      obtain ⟨b, d, G, h1, h2, h3, h4, h5⟩ := pickLoop_ok max uw weight coin l best gain (upd data c 0)
        (List.nodup_cons.1 hn).2 hz'
      refine ⟨b, d, G, h1, hd h2, ?_, h4, ?_⟩
      · rcases h3 with h | ⟨h, h', h''⟩
        · exact Or.inl h
        · exact Or.inr ⟨List.mem_cons_of_mem _ h, h', by rw [h'', hupd _ h]⟩
      · intro c' hc' hf
        rcases List.mem_cons.1 hc' with rfl | hc'
        · by_contra hlt
          exact hc ⟨Or.inl (by omega), hf⟩
        · rw [← hupd c' hc']; exact h5 c' hc' hf

/-- The chosen cluster is the own one or one that fits, no cluster that fits has a larger rating, and the map is empty
afterwards. -/
theorem pick_ok {max uw : Int} {coin : Nat → Bool} {cl : Clus} {r : FastResetArray} {u : Nat} {ins : List (Nat × Int)}
    (h : Holds r ins) (hp : Positive ins) :
    ∃ best, pick? max uw coin cl r u = some (best, FastResetArray.new r.cap) ∧
      (best = u ∨ (best ∈ ins.map Prod.fst ∧ cl.weight best + uw ≤ max)) ∧
      (∀ c ∈ ins.map Prod.fst, cl.weight c + uw ≤ max →
        best ∈ ins.map Prod.fst ∧ cl.weight best + uw ≤ max ∧ total ins c ≤ total ins best) := by
  have hz : ∀ c ∈ r.used, r.data c ≠ 0 := by
    intro c hc
    rw [h.data]
    exact (total_pos hp ((h.used c).1 hc)).ne'
  obtain ⟨b, d, G, h1, h2, h3, h4, h5⟩ := pickLoop_ok max uw cl.weight coin r.used u 0 r.data h.nodup hz
  have hd : d = fun _ => 0 := by
    funext k
    rw [h2]
    split
    · rfl
    · rename_i hn
      rw [h.data]
      exact total_zero fun hc => hn ((h.used k).2 hc)
  refine ⟨b, ?_, ?_, ?_⟩
  · unfold pick?
    rw [h1, hd]
    rfl
  · rcases h3 with h3 | h3
    · exact Or.inl h3.1
    · exact Or.inr ⟨(h.used _).1 h3.1, h3.2.1⟩
  · intro c hc hf
    have h6 := h5 c ((h.used c).2 hc) hf
    rw [h.data] at h6
    have h7 := total_pos hp hc
    rcases h3 with h3 | h3
    · omega
    · refine ⟨(h.used _).1 h3.1, h3.2.1, ?_⟩
      rw [h3.2.2, h.data] at h6
      exact h6

end Verif.InitialCoarsening

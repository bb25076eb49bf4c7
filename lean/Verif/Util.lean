/-! Small general-purpose list lemmas used across the development. -/

namespace Verif

theorem filterMap_congr' {α β : Type _} {f g : α → Option β} :
    ∀ {l : List α}, (∀ x ∈ l, f x = g x) → l.filterMap f = l.filterMap g
  | [], _ => rfl
  | a :: l, h => by
    rw [List.filterMap_cons, List.filterMap_cons, h a (List.mem_cons_self ..),
      filterMap_congr' (fun x hx => h x (List.mem_cons_of_mem _ hx))]

theorem nodup_length_le {α : Type _} [DecidableEq α] : ∀ {l m : List α}, l.Nodup → l ⊆ m →
    l.length ≤ m.length
  | [], _, _, _ => Nat.zero_le _
  | a :: l, m, hn, hs => by
    obtain ⟨ha, hn⟩ := List.nodup_cons.1 hn
    have ham : a ∈ m := hs (List.mem_cons_self ..)
    have hsub : l ⊆ m.erase a := by
      intro x hx
      have hxa : x ≠ a := fun e => ha (e ▸ hx)
      exact (List.mem_erase_of_ne hxa).2 (hs (List.mem_cons_of_mem _ hx))
    have := nodup_length_le hn hsub
    rw [List.length_erase_of_mem ham] at this
    have hpos : 0 < m.length := List.length_pos_of_mem ham
    simp only [List.length_cons]
    omega

/-- Pointwise update of a function. -/
def upd {α β : Type _} [DecidableEq α] (f : α → β) (a : α) (b : β) : α → β :=
  fun x => if x = a then b else f x

@[simp] theorem upd_same {α β : Type _} [DecidableEq α] (f : α → β) (a : α) (b : β) :
    upd f a b a = b := if_pos rfl

theorem upd_ne {α β : Type _} [DecidableEq α] (f : α → β) {a x : α} (b : β) (h : x ≠ a) :
    upd f a b x = f x := if_neg h

theorem nodup_map_on {α β : Type} {f : α → β} {l : List α} (hl : l.Nodup)
    (hf : ∀ a ∈ l, ∀ b ∈ l, f a = f b → a = b) : (l.map f).Nodup := by
  unfold List.Nodup at *
  rw [List.pairwise_map]
  exact hl.imp_of_mem fun ha hb hne h => hne (hf _ ha _ hb h)

theorem nodup_of_map {α β : Type} {f : α → β} {l : List α} (h : (l.map f).Nodup) : l.Nodup :=
  List.Pairwise.of_map f (fun _ _ hne he => hne (congrArg f he)) h

theorem forall_prefix_cons {α : Type _} {P : List α → Prop} {a : α} {l : List α} (h0 : P [])
    (h : ∀ pre, pre <+: l → P (a :: pre)) : ∀ pre, pre <+: a :: l → P pre := by
  intro pre hp
  cases pre with
  | nil => exact h0
  | cons b pre =>
    obtain ⟨rfl, hp'⟩ := List.cons_prefix_cons.1 hp
    exact h pre hp'

theorem forall_prefix_nil {α : Type _} {P : List α → Prop} (h0 : P []) :
    ∀ pre, pre <+: [] → P pre := by
  intro pre hp
  rw [List.prefix_nil.1 hp]
  exact h0

/-- Executing operations that change disjoint parts of an array: each part is changed once. -/
theorem foldl_disjoint {X α : Type} {op : (Nat → α) → X → Nat → α} {W : X → Nat → Prop}
    {g : X → Nat → α → α} : ∀ {l : List X},
    (∀ m x, x ∈ l → ∀ q, (W x q → op m x q = g x q (m q)) ∧ (¬ W x q → op m x q = m q)) →
    l.Pairwise (fun x y => ∀ q, W x q → ¬ W y q) → ∀ (m : Nat → α) (q : Nat),
    (∀ x ∈ l, W x q → l.foldl op m q = g x q (m q)) ∧ ((∀ x ∈ l, ¬ W x q) → l.foldl op m q = m q)
  | [], _, _, m, q => ⟨fun x hx => absurd hx List.not_mem_nil, fun _ => rfl⟩
  | y :: l, hop, hd, m, q => by
    have hd' := List.pairwise_cons.1 hd
    have ih := foldl_disjoint (fun m x hx => hop m x (List.mem_cons_of_mem _ hx)) hd'.2 (op m y) q
    have hy := hop m y List.mem_cons_self q
    rw [List.foldl_cons]
    constructor
    · intro x hx hxq
      rcases List.mem_cons.1 hx with rfl | hx
      · rw [ih.2 fun z hz => hd'.1 z hz q hxq, hy.1 hxq]
      · rw [ih.1 x hx hxq, hy.2 fun h => hd'.1 x hx q h hxq]
    · intro h
      rw [ih.2 fun x hx => h x (List.mem_cons_of_mem _ hx), hy.2 (h y List.mem_cons_self)]

/-- Executing operations that read and write disjoint parts of an array: each works as if it were the only
one. -/
theorem foldl_disjoint_local {X I α : Type} {op : (I → α) → X → I → α} {W : X → I → Prop} :
    ∀ {l : List X},
    (∀ m m' x, x ∈ l → (∀ q, W x q → m q = m' q) → ∀ q, W x q → op m x q = op m' x q) →
    (∀ m x, x ∈ l → ∀ q, ¬ W x q → op m x q = m q) →
    l.Pairwise (fun x y => ∀ q, W x q → ¬ W y q) → ∀ (m : I → α) (q : I),
    (∀ x ∈ l, W x q → l.foldl op m q = op m x q) ∧ ((∀ x ∈ l, ¬ W x q) → l.foldl op m q = m q)
  | [], _, _, _, m, q => ⟨fun x hx => absurd hx List.not_mem_nil, fun _ => rfl⟩
  | y :: l, hloc, hout, hd, m, q => by
    have hd' := List.pairwise_cons.1 hd
    have ih := foldl_disjoint_local (fun m m' x hx => hloc m m' x (List.mem_cons_of_mem _ hx))
      (fun m x hx => hout m x (List.mem_cons_of_mem _ hx)) hd'.2 (op m y) q
    rw [List.foldl_cons]
    constructor
    · intro x hx hxq
      rcases List.mem_cons.1 hx with rfl | hx
      · exact ih.2 fun z hz => hd'.1 z hz q hxq
      · rw [ih.1 x hx hxq]
        refine hloc _ _ x (List.mem_cons_of_mem _ hx) (fun q' hq' => ?_) q hxq
        exact hout m y List.mem_cons_self q' fun h => hd'.1 x hx q' h hq'
    · intro h
      rw [ih.2 fun x hx => h x (List.mem_cons_of_mem _ hx), hout m y List.mem_cons_self q (h y List.mem_cons_self)]

end Verif

import Verif.DynMaps.Model
import Verif.Maps.Lemmas

namespace Verif.DynMaps

open Verif.Maps

def Table.start (t : Table) (k : Nat) : Nat := murmur64 k % t.cap

/-- Everything about the slots; `used` enumerates the used ones. -/
structure Core (t : Table) (used : List Nat) : Prop where
  pos : 0 < t.cap
  probing : Probing t.slot t.cap t.start
  stamp : ∀ p, (t.elems p).stamp ≤ t.stamp
  nodup : used.Nodup
  used_iff : ∀ p, p ∈ used ↔ p < t.cap ∧ t.slot p ≠ none

theorem Table.slot_eq_some {t : Table} {p k : Nat} :
    t.slot p = some k ↔ (t.elems p).stamp = t.stamp ∧ (t.elems p).key = k := by
  unfold Table.slot
  split <;> simp [*]

theorem Table.slot_ne_none {t : Table} {p : Nat} :
    t.slot p ≠ none ↔ (t.elems p).stamp = t.stamp := by
  unfold Table.slot
  split <;> simp [*]

/-- What the table contains. -/
def Table.abs (t : Table) : Content := fun k =>
  ((List.range t.cap).find? fun p => t.slot p == some k).map fun p => (t.elems p).value

theorem Core.abs_iff {t : Table} {used : List Nat} (h : Core t used) (k : Nat) (v : Int) :
    t.abs k = some v ↔ ∃ p, p < t.cap ∧ t.slot p = some k ∧ (t.elems p).value = v := by
  unfold Table.abs
  rw [Option.map_eq_some_iff]
  constructor
  · rintro ⟨p, hp, hv⟩
    have h1 := List.find?_some hp
    have h2 := List.mem_of_find?_eq_some hp
    exact ⟨p, List.mem_range.1 h2, by simpa using h1, hv⟩
  · rintro ⟨p, hp, hs, hv⟩
    cases hf : (List.range t.cap).find? fun p => t.slot p == some k with
    | none =>
      have := List.find?_eq_none.1 hf p (List.mem_range.2 hp)
      simp [hs] at this
    | some q =>
      have h1 := List.find?_some hf
      have h2 := List.mem_of_find?_eq_some hf
      have : q = p := h.probing.uniq q p k (List.mem_range.1 h2) hp (by simpa using h1) hs
      subst this
      exact ⟨q, rfl, hv⟩

theorem Core.abs_none {t : Table} {used : List Nat} (h : Core t used) (k : Nat) :
    t.abs k = none ↔ ∀ p, p < t.cap → t.slot p ≠ some k := by
  constructor
  · intro ha p hp hs
    rw [(h.abs_iff k _).2 ⟨p, hp, hs, rfl⟩] at ha
    cases ha
  · intro hn
    cases ha : t.abs k with
    | none => rfl
    | some v =>
      obtain ⟨p, hp, hs, _⟩ := (h.abs_iff k v).1 ha
      exact absurd hs (hn p hp)

theorem Core.has_empty {t : Table} {used : List Nat} (h : Core t used) (hl : used.length < t.cap) :
    ∃ p, p < t.cap ∧ t.slot p = none := by
  refine exists_empty (fun p => used.idxOf p) hl ?_ ?_
  · intro p hp hs
    exact List.idxOf_lt_length_iff.2 ((h.used_iff p).2 ⟨hp, hs⟩)
  · intro p q hp hq h1 h2 he
    have h3 := List.idxOf_lt_length_iff.2 ((h.used_iff p).2 ⟨hp, h1⟩)
    have h4 := List.idxOf_lt_length_iff.2 ((h.used_iff q).2 ⟨hq, h2⟩)
    have h5 := List.getElem_idxOf h3
    have h6 := List.getElem_idxOf h4
    have he' : used.idxOf p = used.idxOf q := he
    rw [← h5, ← h6]
    congr 1

theorem Core.find_spec {t : Table} {used : List Nat} (h : Core t used) (hl : used.length < t.cap)
    (k : Nat) : ∃ p b, t.find? k = some (p, b) ∧ p < t.cap ∧
      (b = true → t.slot p = some k ∧ t.abs k = some (t.elems p).value) ∧
      (b = false → t.slot p = none ∧ t.abs k = none) := by
  obtain ⟨p, b, h1, h2, h3, h4⟩ := h.probing.probe_iff (h.has_empty hl) k
  refine ⟨p, b, h1, h2, ?_, ?_⟩
  · intro hb
    exact ⟨h3 hb, (h.abs_iff _ _).2 ⟨p, h2, h3 hb, rfl⟩⟩
  · intro hb
    exact ⟨(h4 hb).1, (h.abs_none k).2 (h4 hb).2⟩

theorem Table.write_slot {t : Table} {p k : Nat} {v : Int} (i : Nat) :
    (t.write p k v).slot i = upd t.slot p (some k) i := by
  unfold Table.write Table.slot
  by_cases hip : i = p
  · subst hip; simp [upd_same]
  · simp only [upd_ne _ _ hip]

/-- Writing a new key where the search ended. -/
theorem Core.write {t : Table} {used : List Nat} (h : Core t used) (hl : used.length < t.cap)
    {p k : Nat} (v : Int) (hf : t.find? k = some (p, false)) :
    Core (t.write p k v) (used ++ [p]) ∧ (t.write p k v).abs = upd t.abs k (some v) := by
  obtain ⟨p', b, h1, h2, _, h4⟩ := h.find_spec hl k
  rw [hf] at h1
  cases h1
  obtain ⟨h5, h6⟩ := h4 rfl
  have hc : Core (t.write p k v) (used ++ [p]) := by
    refine ⟨h.pos, (h.probing.insert (h.has_empty hl) hf).congr fun i _ => Table.write_slot i, ?_,
      ?_, ?_⟩
    · intro i
      show (upd t.elems p ⟨k, v, t.stamp⟩ i).stamp ≤ t.stamp
      by_cases hip : i = p
      · subst hip; rw [upd_same]; exact Nat.le_refl _
      · rw [upd_ne _ _ hip]; exact h.stamp i
    · rw [List.nodup_append]
      refine ⟨h.nodup, by simp, ?_⟩
      intro a ha b hb hab
      simp only [List.mem_singleton] at hb
      rw [hab, hb] at ha
      exact ((h.used_iff p).1 ha).2 h5
    · intro i
      rw [List.mem_append, List.mem_singleton, h.used_iff, Table.write_slot]
      show _ ↔ i < t.cap ∧ _
      by_cases hip : i = p
      · subst hip; rw [upd_same]; simp [h2]
      · rw [upd_ne _ _ hip]; simp [hip]
  refine ⟨hc, ?_⟩
  funext k'
  apply option_int_ext
  intro v'
  rw [hc.abs_iff]
  have hval : ∀ i, ((t.write p k v).elems i).value = if i = p then v else (t.elems i).value := by
    intro i
    show (upd t.elems p ⟨k, v, t.stamp⟩ i).value = _
    by_cases hip : i = p
    · subst hip; rw [upd_same, if_pos rfl]
    · rw [upd_ne _ _ hip, if_neg hip]
  by_cases hkk : k' = k
  · subst hkk
    rw [upd_same]
    constructor
    · rintro ⟨i, hi, hs, hv⟩
      rw [Table.write_slot] at hs
      by_cases hip : i = p
      · rw [hval, if_pos hip] at hv; rw [hv]
      · rw [upd_ne _ _ hip] at hs
        exact absurd hs ((h.abs_none k').1 h6 i hi)
    · intro he
      cases he
      exact ⟨p, h2, by rw [Table.write_slot, upd_same], by rw [hval, if_pos rfl]⟩
  · rw [upd_ne _ _ hkk, h.abs_iff]
    constructor
    · rintro ⟨i, hi, hs, hv⟩
      rw [Table.write_slot] at hs
      have hip : i ≠ p := by
        rintro rfl
        rw [upd_same] at hs
        cases hs
        exact hkk rfl
      rw [upd_ne _ _ hip] at hs
      rw [hval, if_neg hip] at hv
      exact ⟨i, hi, hs, hv⟩
    · rintro ⟨i, hi, hs, hv⟩
      have hip : i ≠ p := by
        rintro rfl
        rw [h5] at hs
        cases hs
      exact ⟨i, hi, by rw [Table.write_slot, upd_ne _ _ hip, hs], by rw [hval, if_neg hip, hv]⟩

/-- Changing the value of a key. -/
theorem Core.modifyAt {t : Table} {used : List Nat} (h : Core t used) {p k : Nat} (hp : p < t.cap)
    (hs : t.slot p = some k) (f : Int → Int) :
    Core (t.modifyAt p f) used ∧
      (t.modifyAt p f).abs = upd t.abs k (some (f (t.elems p).value)) := by
  have hslot : ∀ i, (t.modifyAt p f).slot i = t.slot i := by
    intro i
    unfold Table.modifyAt Table.slot
    by_cases hip : i = p
    · subst hip; simp [upd_same]
    · simp only [upd_ne _ _ hip]
  have hc : Core (t.modifyAt p f) used := by
    refine ⟨h.pos, h.probing.congr fun i _ => hslot i, ?_, h.nodup, ?_⟩
    · intro i
      show (upd t.elems p { t.elems p with value := f (t.elems p).value } i).stamp ≤ t.stamp
      by_cases hip : i = p
      · subst hip; rw [upd_same]; exact h.stamp i
      · rw [upd_ne _ _ hip]; exact h.stamp i
    · intro i
      rw [h.used_iff, hslot]
      exact Iff.rfl
  refine ⟨hc, ?_⟩
  funext k'
  apply option_int_ext
  intro v'
  rw [hc.abs_iff]
  have hval : ∀ i, ((t.modifyAt p f).elems i).value =
      if i = p then f (t.elems p).value else (t.elems i).value := by
    intro i
    show (upd t.elems p { t.elems p with value := f (t.elems p).value } i).value = _
    by_cases hip : i = p
    · subst hip; rw [upd_same, if_pos rfl]
    · rw [upd_ne _ _ hip, if_neg hip]
  by_cases hkk : k' = k
  · subst hkk
    rw [upd_same]
    constructor
    · rintro ⟨i, hi, hs', hv⟩
      rw [hslot] at hs'
      have hip := h.probing.uniq i p k' hi hp hs' hs
      rw [hval, if_pos hip] at hv
      rw [hv]
    · intro he
      cases he
      exact ⟨p, hp, by rw [hslot, hs], by rw [hval, if_pos rfl]⟩
  · rw [upd_ne _ _ hkk, h.abs_iff]
    have hip : ∀ i, t.slot i = some k' → i ≠ p := by
      rintro i hi rfl
      rw [hs] at hi
      cases hi
      exact hkk rfl
    constructor
    · rintro ⟨i, hi, hs', hv⟩
      rw [hslot] at hs'
      rw [hval, if_neg (hip i hs')] at hv
      exact ⟨i, hi, hs', hv⟩
    · rintro ⟨i, hi, hs', hv⟩
      exact ⟨i, hi, by rw [hslot, hs'], by rw [hval, if_neg (hip i hs'), hv]⟩

/-- The size field does not matter for the slots. -/
theorem Core.setSize {t : Table} {used : List Nat} (h : Core t used) (n : Nat) :
    Core { t with size := n } used :=
  ⟨h.pos, h.probing, h.stamp, h.nodup, h.used_iff⟩

theorem Core.new {cap : Nat} (hc : 0 < cap) : Core (Table.new cap) [] ∧
    (Table.new cap).abs = fun _ => none := by
  have hs : ∀ p, (Table.new cap).slot p = none := fun p => rfl
  have hcore : Core (Table.new cap) [] := by
    refine ⟨hc, (Probing.empty cap _ fun k => Nat.mod_lt _ hc).congr fun i _ => hs i, ?_,
      List.nodup_nil, ?_⟩
    · intro p; exact Nat.zero_le _
    · intro p; simp [hs]
  refine ⟨hcore, ?_⟩
  funext k
  rw [hcore.abs_none]
  intro p _
  rw [hs]; simp

theorem Core.clear {t : Table} {used : List Nat} (h : Core t used) {w : Nat}
    (hw : t.stamp + 1 < 2 ^ w) :
    Core { t with size := 0, stamp := nextStamp w t.stamp } [] ∧
      Table.abs { t with size := 0, stamp := nextStamp w t.stamp } = fun _ => none := by
  have hn : nextStamp w t.stamp = t.stamp + 1 := Nat.mod_eq_of_lt hw
  rw [hn]
  have hs : ∀ p, Table.slot { t with size := 0, stamp := t.stamp + 1 } p = none := by
    intro p
    unfold Table.slot
    have := h.stamp p
    rw [if_neg (show ¬ (t.elems p).stamp = t.stamp + 1 by omega)]
  have hcore : Core { t with size := 0, stamp := t.stamp + 1 } [] := by
    refine ⟨h.pos, (Probing.empty t.cap t.start h.probing.start).congr fun i _ => hs i, ?_,
      List.nodup_nil, ?_⟩
    · intro p; exact Nat.le_succ_of_le (h.stamp p)
    · intro p; simp [hs]
  refine ⟨hcore, ?_⟩
  funext k
  rw [hcore.abs_none]
  intro p _
  rw [hs]; simp

/-! ## Rehashing -/

/-- Inserting key-value pairs one by one. -/
def reinsert (s : Table × List Nat) (kv : Nat × Int) : Option (Table × List Nat) := do
  let (p, _) ← s.1.find? kv.1
  some (s.1.write p kv.1 kv.2, s.2 ++ [p])

theorem reinsert_all : ∀ (kvs : List (Nat × Int)) (t : Table) (used : List Nat), Core t used →
    used.length + kvs.length < t.cap → (kvs.map Prod.fst).Nodup →
    (∀ kv ∈ kvs, t.abs kv.1 = none) →
    ∃ t' used', kvs.foldlM reinsert (t, used) = some (t', used') ∧ Core t' used' ∧
      used'.length = used.length + kvs.length ∧ t'.cap = t.cap ∧ t'.size = t.size ∧
      t'.stamp = t.stamp ∧
      (∀ k v, t'.abs k = some v ↔ t.abs k = some v ∨ (k, v) ∈ kvs)
  | [], t, used, h, _, _, _ => ⟨t, used, rfl, h, by simp, rfl, rfl, rfl, by simp⟩
  | kv :: kvs, t, used, h, hl, hn, ha => by
    have hl' : used.length < t.cap := by simp only [List.length_cons] at hl; omega
    obtain ⟨p, b, h1, h2, h3, _⟩ := h.find_spec hl' kv.1
    have hb : b = false := by
      cases b with
      | false => rfl
      | true =>
        have := (h3 rfl).2
        rw [ha kv (List.mem_cons_self ..)] at this
        cases this
    subst hb
    obtain ⟨h5, h6⟩ := h.write hl' kv.2 h1
    obtain ⟨hn1, hn2⟩ := List.nodup_cons.1 hn
    obtain ⟨t', used', a, b, c, d, e, f, g⟩ := reinsert_all kvs (t.write p kv.1 kv.2) (used ++ [p]) h5
      (by
        simp only [List.length_append, List.length_cons, List.length_nil] at hl ⊢
        show _ < t.cap
        omega) hn2 (by
        intro kv' hkv'
        rw [h6, upd_ne, ha kv' (List.mem_cons_of_mem _ hkv')]
        intro he
        exact hn1 (List.mem_map.2 ⟨kv', hkv', he⟩))
    refine ⟨t', used', ?_, b, ?_, d, e, f, ?_⟩
    · rw [List.foldlM_cons]
      unfold reinsert
      simp only [h1, Option.bind_eq_bind, Option.bind_some]
      exact a
    · rw [c]
      simp only [List.length_append, List.length_cons, List.length_nil]
      omega
    · intro k v
      rw [g, h6, List.mem_cons]
      by_cases hk : k = kv.1
      · subst hk
        rw [upd_same, ha kv (List.mem_cons_self ..)]
        constructor
        · rintro (h | h)
          · exact Or.inr (Or.inl (by cases h; rfl))
          · exact Or.inr (Or.inr h)
        · rintro (h | h | h)
          · cases h
          · exact Or.inl (by rw [← h])
          · exact Or.inr h
      · rw [upd_ne _ _ hk]
        constructor
        · rintro (h | h)
          · exact Or.inl h
          · exact Or.inr (Or.inr h)
        · rintro (h | h | h)
          · exact Or.inl h
          · rw [← h] at hk; exact absurd rfl hk
          · exact Or.inr h

/-- The pairs stored in the used slots list the content. -/
theorem Core.lists {t : Table} {used : List Nat} (h : Core t used) :
    Lists (used.map fun p => ((t.elems p).key, (t.elems p).value)) t.abs := by
  refine ⟨?_, ?_⟩
  · rw [List.map_map]
    refine nodup_map_on h.nodup ?_
    intro a ha b hb hab
    obtain ⟨a1, a2⟩ := (h.used_iff a).1 ha
    obtain ⟨b1, b2⟩ := (h.used_iff b).1 hb
    rw [Table.slot_ne_none] at a2 b2
    exact h.probing.uniq a b _ a1 b1 (Table.slot_eq_some.2 ⟨a2, rfl⟩)
      (Table.slot_eq_some.2 ⟨b2, hab.symm⟩)
  · intro k v
    rw [h.abs_iff, List.mem_map]
    constructor
    · rintro ⟨p, hp, he⟩
      cases he
      obtain ⟨h1, h2⟩ := (h.used_iff p).1 hp
      exact ⟨p, h1, Table.slot_eq_some.2 ⟨Table.slot_ne_none.1 h2, rfl⟩, rfl⟩
    · rintro ⟨p, hp, hs, hv⟩
      refine ⟨p, (h.used_iff p).2 ⟨hp, by rw [hs]; simp⟩, ?_⟩
      rw [hv, (Table.slot_eq_some.1 hs).2]

theorem lists_abs_ext {kvs : List (Nat × Int)} {m m' : Content} (h : Lists kvs m)
    (h' : ∀ k v, m' k = some v ↔ (k, v) ∈ kvs) : m' = m := by
  funext k
  apply option_int_ext
  intro v
  rw [h', h.2]

/-- Rehashing the old content into an empty table of twice the capacity. -/
theorem rehash_ok {t : Table} {used : List Nat} (h : Core t used) (hl : used.length ≤ t.cap)
    (order : List Nat) (hp : order.Perm used) (n : Nat) :
    ∃ t' used', (order.map fun p => ((t.elems p).key, (t.elems p).value)).foldlM reinsert
        ({ Table.new (2 * t.cap) with size := n }, []) = some (t', used') ∧ Core t' used' ∧
      used'.length = used.length ∧ t'.cap = 2 * t.cap ∧ t'.size = n ∧ t'.stamp = 1 ∧
      t'.abs = t.abs := by
  have hcore : Core t order := ⟨h.pos, h.probing, h.stamp, (hp.nodup_iff).2 h.nodup, fun p => by
    rw [hp.mem_iff]; exact h.used_iff p⟩
  have hpos := h.pos
  have hnew := Core.new (cap := 2 * t.cap) (by omega)
  have hlists := hcore.lists
  obtain ⟨t', used', a, b, c, d, e, f, g⟩ := reinsert_all
    (order.map fun p => ((t.elems p).key, (t.elems p).value))
    { Table.new (2 * t.cap) with size := n } [] (hnew.1.setSize n) (by
      rw [List.length_map, hp.length_eq]
      simp only [List.length_nil, Table.new]
      omega) hlists.1 (by
      intro kv _
      exact congrFun hnew.2 kv.1)
  refine ⟨t', used', a, b, by rw [c, List.length_map, hp.length_eq]; simp, d, e, f, ?_⟩
  refine lists_abs_ext hlists ?_
  intro k v
  rw [g]
  constructor
  · rintro (h | h)
    · have hh : (Table.new (2 * t.cap)).abs k = some v := h
      rw [congrFun hnew.2 k] at hh
      cases hh
    · exact h
  · exact Or.inr

/-! ## DynamicFlatMap -/

/-- The size field does not influence the reinsertion. -/
theorem reinsert_size : ∀ (kvs : List (Nat × Int)) (t : Table) (u : List Nat) (n : Nat),
    kvs.foldlM reinsert ({ t with size := n }, u) =
      (kvs.foldlM reinsert (t, u)).map fun s => ({ s.1 with size := n }, s.2)
  | [], _, _, _ => rfl
  | kv :: kvs, t, u, n => by
    rw [List.foldlM_cons, List.foldlM_cons]
    have hf' : Table.find? { t with size := n } kv.1 = t.find? kv.1 := rfl
    cases hf : t.find? kv.1 with
    | none =>
      have h1 : reinsert (t, u) kv = none := by unfold reinsert; simp only [hf]; rfl
      have h2 : reinsert ({ t with size := n }, u) kv = none := by
        unfold reinsert; simp only [hf', hf]; rfl
      rw [h1, h2]; rfl
    | some q =>
      have h1 : reinsert (t, u) kv = some (t.write q.1 kv.1 kv.2, u ++ [q.1]) := by
        unfold reinsert; simp only [hf]; rfl
      have h2 : reinsert ({ t with size := n }, u) kv =
          some ({ t.write q.1 kv.1 kv.2 with size := n }, u ++ [q.1]) := by
        unfold reinsert; simp only [hf', hf]; rfl
      rw [h1, h2]
      exact reinsert_size kvs (t.write q.1 kv.1 kv.2) (u ++ [q.1]) n

theorem Flat.rehash_eq (old : Table) : ∀ (l : List Nat) (t : Table) (used : List Nat),
    l.foldlM (Flat.rehashStep old) t =
      (((l.filter fun p => (old.elems p).stamp == old.stamp).map fun p =>
        ((old.elems p).key, (old.elems p).value)).foldlM reinsert (t, used)).map fun s =>
          { s.1 with size := t.size + (l.filter fun p => (old.elems p).stamp == old.stamp).length }
  | [], t, used => by simp
  | p :: l, t, used => by
    rw [List.foldlM_cons]
    by_cases hs : (old.elems p).stamp = old.stamp
    · rw [List.filter_cons_of_pos (by simpa using hs), List.map_cons, List.foldlM_cons]
      cases hf : t.find? (old.elems p).key with
      | none =>
        have h1 : Flat.rehashStep old t p = none := by
          unfold Flat.rehashStep; rw [if_pos hs, hf]; rfl
        have h2 : reinsert (t, used) ((old.elems p).key, (old.elems p).value) = none := by
          unfold reinsert; simp only [hf]; rfl
        rw [h1, h2]; rfl
      | some q =>
        obtain ⟨q, b⟩ := q
        have h1 : Flat.rehashStep old t p =
            some { t.write q (old.elems p).key (old.elems p).value with size := t.size + 1 } := by
          unfold Flat.rehashStep; rw [if_pos hs, hf]; rfl
        have h2 : reinsert (t, used) ((old.elems p).key, (old.elems p).value) =
            some (t.write q (old.elems p).key (old.elems p).value, used ++ [q]) := by
          unfold reinsert; simp only [hf]; rfl
        rw [h1, h2]
        simp only [Option.bind_eq_bind, Option.bind_some]
        have ih := Flat.rehash_eq old l { t.write q (old.elems p).key (old.elems p).value with
          size := t.size + 1 } (used ++ [q])
        refine ih.trans ?_
        rw [reinsert_size, Option.map_map]
        congr 1
        funext s
        simp only [Function.comp, List.length_cons]
        congr 1
        omega
    · have h1 : Flat.rehashStep old t p = some t := by
        unfold Flat.rehashStep; rw [if_neg hs]
      rw [h1, List.filter_cons_of_neg (by simpa using hs)]
      simp only [Option.bind_eq_bind, Option.bind_some]
      exact Flat.rehash_eq old l t used

/-- The invariant of both maps. -/
structure Good (t : Table) (used : List Nat) : Prop where
  core : Core t used
  size : t.size = used.length
  cap : 16 ≤ t.cap
  load : t.size ≤ t.cap * 2 / 5

theorem Good.lt {t : Table} {used : List Nat} (h : Good t used) : used.length < t.cap := by
  have h1 := h.size
  have h2 := h.load
  have h3 := h.cap
  omega

theorem Flat.grow_ok {t : Table} {used : List Nat} (h : Good t used) :
    ∃ t' used', Flat.grow? t = some t' ∧ Core t' used' ∧ used'.length = used.length ∧
      t'.cap = 2 * t.cap ∧ t'.size = t.size ∧ t'.stamp = 1 ∧ t'.abs = t.abs := by
  have hp : ((List.range t.cap).filter fun p => (t.elems p).stamp == t.stamp).Perm used := by
    rw [List.perm_ext_iff_of_nodup (List.nodup_range.filter _) h.core.nodup]
    intro p
    rw [h.core.used_iff, List.mem_filter, List.mem_range, Table.slot_ne_none]
    simp
  obtain ⟨t', used', a, b, c, d, e, f, g⟩ := rehash_ok h.core (Nat.le_of_lt h.lt) _ hp 0
  refine ⟨{ t' with size := t.size }, used', ?_, b.setSize _, c, d, rfl, f, g⟩
  unfold Flat.grow?
  rw [Flat.rehash_eq t _ _ []]
  change (List.foldlM reinsert (Table.new (2 * t.cap), []) _) = _ at a
  rw [a, hp.length_eq, ← h.size]
  simp [Table.new]

theorem write_modifyAt_ok {t : Table} {used : List Nat} (h : Core t used)
    (hl : used.length < t.cap) {p k : Nat} (f : Int → Int) (hf : t.find? k = some (p, false))
    (n : Nat) :
    Core (Table.modifyAt { t.write p k 0 with size := n } p f) (used ++ [p]) ∧
      (Table.modifyAt { t.write p k 0 with size := n } p f).abs = upd t.abs k (some (f 0)) := by
  obtain ⟨h1, h2⟩ := h.write hl 0 hf
  obtain ⟨p', b, g1, g2, _, _⟩ := h.find_spec hl k
  rw [hf] at g1
  cases g1
  have hs : (t.write p k 0).slot p = some k := by rw [Table.write_slot, upd_same]
  obtain ⟨h3, h4⟩ := (h1.setSize n).modifyAt g2 hs f
  refine ⟨h3, ?_⟩
  rw [h4]
  have hv : ((t.write p k 0).elems p).value = 0 := by
    show (upd t.elems p ⟨k, 0, t.stamp⟩ p).value = 0
    rw [upd_same]
  have ha : Table.abs { t.write p k 0 with size := n } = (t.write p k 0).abs := rfl
  rw [ha, h2]
  funext k'
  by_cases hkk : k' = k
  · subst hkk
    rw [upd_same, upd_same]
    show some (f ((t.write p k' 0).elems p).value) = _
    rw [hv]
  · rw [upd_ne _ _ hkk, upd_ne _ _ hkk, upd_ne _ _ hkk]

theorem Flat.modify_ok {t : Table} {used : List Nat} (h : Good t used) (k : Nat) (f : Int → Int) :
    ∃ t' used', Flat.modify? t k f = some t' ∧ Good t' used' ∧
      (t'.stamp = t.stamp ∨ t'.stamp = 1) ∧
      t'.abs = upd t.abs k (some (f ((t.abs k).getD 0))) := by
  obtain ⟨p, b, h1, h2, h3, h4⟩ := h.core.find_spec h.lt k
  unfold Flat.modify?
  rw [h1]
  simp only [Option.bind_eq_bind, Option.bind_some]
  cases b with
  | true =>
    obtain ⟨h5, h6⟩ := h3 rfl
    rw [if_pos rfl]
    obtain ⟨h7, h8⟩ := h.core.modifyAt h2 h5 f
    refine ⟨_, used, rfl, ⟨h7, h.size, h.cap, h.load⟩, Or.inl rfl, ?_⟩
    rw [h8, h6]; rfl
  | false =>
    obtain ⟨h5, h6⟩ := h4 rfl
    rw [if_neg (by simp), h6]
    have hcap := h.cap
    have hload := h.load
    by_cases hg : t.mustGrow = true
    · rw [if_pos hg]
      obtain ⟨t', used', a, b, c, d, e, fs, g⟩ := Flat.grow_ok h
      rw [a]
      have hl' : used'.length < t'.cap := by rw [c, d]; have := h.lt; omega
      obtain ⟨q, b', q1, q2, q3, q4⟩ := b.find_spec hl' k
      have hb' : b' = false := by
        cases b' with
        | false => rfl
        | true =>
          have := (q3 rfl).2
          rw [g, h6] at this
          cases this
      subst hb'
      simp only [Option.bind_some, q1]
      obtain ⟨w1, w2⟩ := write_modifyAt_ok b hl' f q1 (t'.size + 1)
      refine ⟨_, _, rfl, ⟨w1, ?_, ?_, ?_⟩, Or.inr fs, ?_⟩
      · show t'.size + 1 = _
        rw [List.length_append, c, e, h.size]; rfl
      · show 16 ≤ t'.cap
        omega
      · show t'.size + 1 ≤ t'.cap * 2 / 5
        rw [d, e]
        omega
      · rw [g] at w2
        exact w2
    · rw [if_neg hg]
      obtain ⟨w1, w2⟩ := write_modifyAt_ok h.core h.lt f h1 (t.size + 1)
      refine ⟨_, _, rfl, ⟨w1, ?_, hcap, ?_⟩, Or.inl rfl, w2⟩
      · show t.size + 1 = _
        rw [List.length_append, h.size]; rfl
      · show t.size + 1 ≤ t.cap * 2 / 5
        unfold Table.mustGrow at hg
        simp only [gt_iff_lt, decide_eq_true_eq] at hg
        omega

theorem Flat.clear_ok {t : Table} {used : List Nat} (h : Good t used) (hw : t.stamp + 1 < 2 ^ 64) :
    Good (Flat.clear t) [] ∧ (Flat.clear t).abs = (fun _ => none) ∧
      (Flat.clear t).stamp = t.stamp + 1 := by
  obtain ⟨h1, h2⟩ := h.core.clear hw
  exact ⟨⟨h1, rfl, h.cap, Nat.zero_le _⟩, h2, Nat.mod_eq_of_lt hw⟩

theorem Flat.lists {t : Table} {used : List Nat} (h : Good t used) :
    Lists (Flat.forEach t) t.abs := by
  have hp : ((List.range t.cap).filter fun p => (t.elems p).stamp == t.stamp).Perm used := by
    rw [List.perm_ext_iff_of_nodup (List.nodup_range.filter _) h.core.nodup]
    intro p
    rw [h.core.used_iff, List.mem_filter, List.mem_range, Table.slot_ne_none]
    simp
  have hcore : Core t ((List.range t.cap).filter fun p => (t.elems p).stamp == t.stamp) :=
    ⟨h.core.pos, h.core.probing, h.core.stamp, (hp.nodup_iff).2 h.core.nodup, fun p => by
      rw [hp.mem_iff]; exact h.core.used_iff p⟩
  have := hcore.lists
  have he : Flat.forEach t = ((List.range t.cap).filter fun p =>
      (t.elems p).stamp == t.stamp).map fun p => ((t.elems p).key, (t.elems p).value) := by
    unfold Flat.forEach
    generalize List.range t.cap = l
    induction l with
    | nil => rfl
    | cons a l ih =>
      by_cases hs : (t.elems a).stamp = t.stamp
      · rw [List.filterMap_cons_some (by rw [if_pos hs]),
          List.filter_cons_of_pos (by simpa using hs), List.map_cons, ih]
      · rw [List.filterMap_cons_none (by rw [if_neg hs]),
          List.filter_cons_of_neg (by simpa using hs), ih]
  rw [he]
  exact this

theorem Good.get_ok {t : Table} {used : List Nat} (h : Good t used) (k : Nat) :
    t.contains? k = some (t.abs k).isSome ∧ t.getIfContained? k = some (t.abs k) := by
  obtain ⟨p, b, h1, _, h3, h4⟩ := h.core.find_spec h.lt k
  unfold Table.contains? Table.getIfContained?
  rw [h1]
  cases b with
  | true =>
    rw [(h3 rfl).2]
    exact ⟨rfl, rfl⟩
  | false =>
    rw [(h4 rfl).2]
    exact ⟨rfl, rfl⟩

/-! ## DynamicRememberingFlatMap -/

theorem Rem.rehash_eq (old : Table) : ∀ (l : List Nat) (s : Rem),
    l.foldlM (Rem.rehashStep old) s =
      ((l.map fun p => ((old.elems p).key, (old.elems p).value)).foldlM reinsert
        (s.table, s.used)).map fun x => ⟨x.1, x.2⟩
  | [], s => by simp
  | p :: l, s => by
    rw [List.foldlM_cons, List.map_cons, List.foldlM_cons]
    unfold Rem.rehashStep
    conv => rhs; arg 2; arg 1; unfold reinsert
    simp only
    cases s.table.find? (old.elems p).key with
    | none => simp
    | some q =>
      simp only [Option.bind_eq_bind, Option.bind_some]
      exact Rem.rehash_eq old l _

theorem Rem.grow_ok {s : Rem} (h : Good s.table s.used) :
    ∃ s', s.grow? = some s' ∧ Core s'.table s'.used ∧ s'.used.length = s.used.length ∧
      s'.table.cap = 2 * s.table.cap ∧ s'.table.size = s.table.size ∧ s'.table.stamp = 1 ∧
      s'.table.abs = s.table.abs := by
  obtain ⟨t', used', a, b⟩ := rehash_ok h.core (Nat.le_of_lt h.lt) s.used (List.Perm.refl _)
    s.table.size
  refine ⟨⟨t', used'⟩, ?_, b⟩
  unfold Rem.grow?
  rw [h.size, List.take_length, Rem.rehash_eq, ← h.size]
  simp only
  rw [a]
  rfl

theorem Rem.modify_ok {s : Rem} (h : Good s.table s.used) (k : Nat) (f : Int → Int) :
    ∃ s', s.modify? k f = some s' ∧ Good s'.table s'.used ∧
      (s'.table.stamp = s.table.stamp ∨ s'.table.stamp = 1) ∧
      s'.table.abs = upd s.table.abs k (some (f ((s.table.abs k).getD 0))) := by
  obtain ⟨p, b, h1, h2, h3, h4⟩ := h.core.find_spec h.lt k
  unfold Rem.modify?
  rw [h1]
  simp only [Option.bind_eq_bind, Option.bind_some]
  cases b with
  | true =>
    obtain ⟨h5, h6⟩ := h3 rfl
    rw [if_pos rfl]
    obtain ⟨h7, h8⟩ := h.core.modifyAt h2 h5 f
    refine ⟨_, rfl, ⟨h7, h.size, h.cap, h.load⟩, Or.inl rfl, ?_⟩
    show (s.table.modifyAt p f).abs = _
    rw [h8, h6]; rfl
  | false =>
    obtain ⟨h5, h6⟩ := h4 rfl
    rw [if_neg (by simp), h6]
    have hcap := h.cap
    have hload := h.load
    by_cases hg : s.table.mustGrow = true
    · rw [if_pos hg]
      obtain ⟨s', a, b, c, d, e, fs, g⟩ := Rem.grow_ok h
      rw [a]
      have hl' : s'.used.length < s'.table.cap := by rw [c, d]; have := h.lt; omega
      obtain ⟨q, b', q1, q2, q3, q4⟩ := b.find_spec hl' k
      have hb' : b' = false := by
        cases b' with
        | false => rfl
        | true =>
          have := (q3 rfl).2
          rw [g, h6] at this
          cases this
      subst hb'
      simp only [Option.bind_some, q1]
      obtain ⟨w1, w2⟩ := write_modifyAt_ok b hl' f q1 (s'.table.size + 1)
      refine ⟨_, rfl, ⟨w1, ?_, ?_, ?_⟩, Or.inr fs, ?_⟩
      · show s'.table.size + 1 = _
        rw [List.length_append, c, e, h.size]; rfl
      · show 16 ≤ s'.table.cap
        omega
      · show s'.table.size + 1 ≤ s'.table.cap * 2 / 5
        rw [d, e]
        omega
      · rw [g] at w2
        exact w2
    · rw [if_neg hg]
      obtain ⟨w1, w2⟩ := write_modifyAt_ok h.core h.lt f h1 (s.table.size + 1)
      refine ⟨_, rfl, ⟨w1, ?_, hcap, ?_⟩, Or.inl rfl, w2⟩
      · show s.table.size + 1 = _
        rw [List.length_append, h.size]; rfl
      · show s.table.size + 1 ≤ s.table.cap * 2 / 5
        unfold Table.mustGrow at hg
        simp only [gt_iff_lt, decide_eq_true_eq] at hg
        omega

theorem Rem.clear_ok {s : Rem} {w : Nat} (h : Good s.table s.used)
    (hw : s.table.stamp + 1 < 2 ^ w) :
    Good (s.clear w).table (s.clear w).used ∧ (s.clear w).table.abs = (fun _ => none) ∧
      (s.clear w).table.stamp = s.table.stamp + 1 := by
  obtain ⟨h1, h2⟩ := h.core.clear hw
  exact ⟨⟨h1, rfl, h.cap, Nat.zero_le _⟩, h2, Nat.mod_eq_of_lt hw⟩

theorem Rem.entries_eq {s : Rem} (h : Good s.table s.used) : s.entries? = some s.forEach := by
  unfold Rem.entries? Rem.forEach
  rw [h.size]
  have key : ∀ (u : List Nat) (g : Nat → Nat × Int),
      (List.range u.length).mapM (fun i => (u[i]?).map g) = some (u.map g) := by
    intro u g
    induction u with
    | nil => rfl
    | cons a u ih =>
      rw [List.length_cons, List.range_succ_eq_map, List.mapM_cons, List.mapM_map]
      have : (List.range u.length).mapM ((fun i => ((a :: u)[i]?).map g) ∘ Nat.succ) =
          some (u.map g) := by
        rw [← ih]
        rfl
      rw [this]
      rfl
  exact key _ _

end Verif.DynMaps

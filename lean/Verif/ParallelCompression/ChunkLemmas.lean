import Verif.ParallelCompression.MutexLemmas

namespace Verif.ParallelCompression

open Verif.Compression

/-! ### Chunks tile the nodes -/

/-- Chunks from node `a` to node `b`, one behind the other. -/
def Tiles (P : Nat × Nat × Nat → Prop) : Nat → List (Nat × Nat × Nat) → Nat → Prop
  | a, [], b => a = b
  | a, ch :: cs, b => ch.1 = a ∧ ch.1 < ch.2.1 ∧ P ch ∧ Tiles P ch.2.1 cs b

theorem Tiles.le {P : Nat × Nat × Nat → Prop} : ∀ {a : Nat} {cs : List (Nat × Nat × Nat)} {b : Nat},
    Tiles P a cs b → a ≤ b
  | _, [], _, h => Nat.le_of_eq h
  | _, _ :: _, _, ⟨h1, h2, _, h4⟩ => by have := Tiles.le h4; omega

theorem Tiles.snoc {P : Nat × Nat × Nat → Prop} : ∀ {a : Nat} {cs : List (Nat × Nat × Nat)} {b : Nat}
    {ch : Nat × Nat × Nat}, Tiles P a cs b → ch.1 = b → ch.1 < ch.2.1 → P ch →
    Tiles P a (cs ++ [ch]) ch.2.1
  | _, [], _, _, h, h1, h2, h3 => ⟨by rw [h1]; exact h.symm, h2, h3, rfl⟩
  | _, _ :: _, _, _, ⟨h1, h2, h3, h4⟩, g1, g2, g3 => ⟨h1, h2, h3, Tiles.snoc h4 g1 g2 g3⟩

theorem Tiles.mono {P Q : Nat × Nat × Nat → Prop} : ∀ {a : Nat} {cs : List (Nat × Nat × Nat)}
    {b : Nat}, Tiles P a cs b → (∀ ch, P ch → ch.2.1 ≤ b → Q ch) → Tiles Q a cs b
  | _, [], _, h, _ => h
  | _, _ :: _, _, ⟨h1, h2, h3, h4⟩, hq =>
    ⟨h1, h2, hq _ h3 (Tiles.le h4), Tiles.mono h4 hq⟩

theorem Tiles.mem {P : Nat × Nat × Nat → Prop} : ∀ {a : Nat} {cs : List (Nat × Nat × Nat)} {b : Nat},
    Tiles P a cs b → ∀ ch ∈ cs, ch.1 < ch.2.1 ∧ ch.2.1 ≤ b ∧ P ch
  | _, [], _, _, _, hm => by simp at hm
  | _, _ :: _, _, ⟨_, h2, h3, h4⟩, ch, hm => by
    rcases List.mem_cons.1 hm with rfl | hm
    · exact ⟨h2, Tiles.le h4, h3⟩
    · exact Tiles.mem h4 ch hm

theorem Tiles.flat {P : Nat × Nat × Nat → Prop} : ∀ {a : Nat} {cs : List (Nat × Nat × Nat)} {b : Nat},
    Tiles P a cs b → cs.flatMap (fun ch => List.range' ch.1 (ch.2.1 - ch.1)) =
      List.range' a (b - a)
  | _, [], _, h => by simp [Tiles] at h; simp [h]
  | a, ch :: cs, b, ⟨h1, h2, _, h4⟩ => by
    have hle := Tiles.le h4
    rw [List.flatMap_cons, Tiles.flat h4, h1]
    have e : a + 1 * (ch.2.1 - a) = ch.2.1 := by omega
    have := @List.range'_append a (ch.2.1 - a) (b - ch.2.1) 1
    rw [e] at this
    rw [this]
    congr 1
    omega

/-- What holds of each chunk: the first edge, and the number of edges. -/
def ChunkOk (maxOrder : Nat) (degs : List Nat) (ch : Nat × Nat × Nat) : Prop :=
  ch.2.2 = (degs.take ch.1).sum ∧
    (ch.2.1 = ch.1 + 1 ∨ ((degs.take ch.2.1).drop ch.1).sum < maxOrder)

structure ChInv (maxOrder : Nat) (done : List Nat) (s : ChunkSt) : Prop where
  i : s.i = done.length
  le : s.start ≤ done.length
  tiles : Tiles (ChunkOk maxOrder done) 0 s.chunks s.start
  first : s.firstEdge = (done.take s.start).sum
  order : s.order = (done.drop s.start).sum
  small : s.start = done.length ∨ done.length = s.start + 1 ∨ s.order < maxOrder

theorem ChunkOk.append {maxOrder : Nat} {done : List Nat} {ch : Nat × Nat × Nat} (xs : List Nat)
    (h : ChunkOk maxOrder done ch) (h1 : ch.1 < ch.2.1) (h2 : ch.2.1 ≤ done.length) :
    ChunkOk maxOrder (done ++ xs) ch := by
  obtain ⟨a, b⟩ := h
  refine ⟨?_, ?_⟩
  · rw [List.take_append_of_le_length (by omega)]; exact a
  · rw [List.take_append_of_le_length h2]; exact b

theorem tiles_append {maxOrder : Nat} {done : List Nat} (xs : List Nat) :
    ∀ {a : Nat} {cs : List (Nat × Nat × Nat)} {b : Nat}, Tiles (ChunkOk maxOrder done) a cs b →
    b ≤ done.length → Tiles (ChunkOk maxOrder (done ++ xs)) a cs b
  | _, [], _, h, _ => h
  | _, _ :: _, _, ⟨h1, h2, h3, h4⟩, hb =>
    ⟨h1, h2, h3.append xs h2 (Nat.le_trans (Tiles.le h4) hb), tiles_append xs h4 hb⟩

theorem ChInv.step {maxOrder : Nat} {done : List Nat} {s : ChunkSt} (h : ChInv maxOrder done s)
    (x : Nat) : ChInv maxOrder (done ++ [x]) (chunkStep maxOrder s x) := by
  obtain ⟨h1, h2, h3, h4, h5, h6⟩ := h
  have ht : Tiles (ChunkOk maxOrder (done ++ [x])) 0 s.chunks s.start := tiles_append [x] h3 h2
  have hf : s.firstEdge = ((done ++ [x]).take s.start).sum := by
    rw [List.take_append_of_le_length h2]; exact h4
  have ho : s.order + x = ((done ++ [x]).drop s.start).sum := by
    rw [List.drop_append_of_le_length h2, List.sum_append, h5]; simp
  have hall : (done ++ [x]).take (done.length + 1) = done ++ [x] :=
    List.take_of_length_le (by simp)
  unfold chunkStep
  simp only
  split
  · split
    · rename_i hs
      have hsl : s.start = done.length := by omega
      have hlast : (done ++ [x]).sum = (done.take s.start).sum + x := by
        rw [List.sum_append, hsl, List.take_length]; simp
      refine ⟨by simp [h1], by simp [h1], ?_, ?_, ?_, by simp [h1]⟩
      · exact Tiles.snoc (ch := (s.start, s.i + 1, s.firstEdge)) ht rfl (by simp only; omega)
          ⟨hf, Or.inl (by simp only; omega)⟩
      · simp only [h1, hall, hlast, h4]
      · simp [h1]
    · rename_i hs
      refine ⟨by simp [h1], by simp [h1], ?_, ?_, ?_, by simp [h1]⟩
      · refine Tiles.snoc (ch := (s.start, s.i, s.firstEdge)) ht rfl (by simp only; omega) ⟨hf, ?_⟩
        simp only [h1]
        rcases h6 with h6 | h6 | h6
        · omega
        · exact Or.inl h6
        · right
          rw [List.take_left, ← h5]
          exact h6
      · simp only [h1, List.take_left, Nat.add_sub_cancel, h4, h5]
        rw [← List.sum_append, List.take_append_drop]
      · simp only [h1, List.drop_left]; simp
  · rename_i ho'
    refine ⟨by simp [h1], by simp; omega, ht, hf, ho, Or.inr (Or.inr ?_)⟩
    simp only
    omega

theorem ChInv.foldl {maxOrder : Nat} : ∀ (l done : List Nat) (s : ChunkSt), ChInv maxOrder done s →
    ChInv maxOrder (done ++ l) (l.foldl (chunkStep maxOrder) s)
  | [], done, s, h => by simpa using h
  | x :: l, done, s, h => by
    have := ChInv.foldl l (done ++ [x]) _ (h.step x)
    simpa using this

theorem computeChunks_tiles (maxOrder : Nat) (degs : List Nat) :
    Tiles (ChunkOk maxOrder degs) 0 (computeChunks maxOrder degs) degs.length := by
  have h := ChInv.foldl degs [] {} (maxOrder := maxOrder)
    ⟨rfl, Nat.le_refl _, rfl, rfl, rfl, Or.inl rfl⟩
  rw [List.nil_append] at h
  obtain ⟨h1, h2, h3, h4, h5, h6⟩ := h
  unfold computeChunks
  simp only
  split
  · rename_i hs
    refine Tiles.snoc (ch := (_, degs.length, _)) h3 rfl (by simp only; omega) ⟨h4, ?_⟩
    simp only [List.take_length]
    rcases h6 with h6 | h6 | h6
    · omega
    · exact Or.inl h6
    · right; rw [← h5]; exact h6
  · rename_i hs
    have : (List.foldl (chunkStep maxOrder) {} degs).start = degs.length := by omega
    rw [← this]; exact h3

/-! ### Chunked compression is sequential compression -/

theorem addNodes_append (c : Cfg) (hasW : Bool) (wE : Nat) : ∀ (a b : List (List Nbr))
    (node off : Nat), addNodes? c hasW wE node off (a ++ b) =
      (addNodes? c hasW wE node off a).bind fun p =>
        (addNodes? c hasW wE (node + a.length) (off + p.2.length) b).map fun q =>
          (p.1 ++ q.1, p.2 ++ q.2)
  | [], b, node, off => by
    simp only [List.nil_append, addNodes?, List.length_nil, Nat.add_zero, Option.bind_some]
    cases addNodes? c hasW wE node off b <;> rfl
  | x :: a, b, node, off => by
    simp only [List.cons_append, addNodes?, Option.bind_eq_bind, List.length_cons]
    cases add? c hasW wE node x with
    | none => rfl
    | some y =>
      simp only [Option.bind_some]
      rw [addNodes_append c hasW wE a b]
      cases addNodes? c hasW wE (node + 1) (off + y.length) a with
      | none => rfl
      | some p =>
        simp only [Option.bind_some, Option.pure_def, List.length_append]
        rw [show node + (a.length + 1) = node + 1 + a.length by omega,
          show off + (y.length + p.2.length) = off + y.length + p.2.length by omega]
        cases addNodes? c hasW wE (node + 1 + a.length) (off + y.length + p.2.length) b with
        | none => rfl
        | some q => simp

theorem addNodes_shift (c : Cfg) (hasW : Bool) (wE : Nat) : ∀ (a : List (List Nbr))
    (node off k : Nat), addNodes? c hasW wE node (k + off) a =
      (addNodes? c hasW wE node off a).map fun p => (p.1.map (k + ·), p.2)
  | [], node, off, k => rfl
  | x :: a, node, off, k => by
    simp only [addNodes?, Option.bind_eq_bind]
    cases add? c hasW wE node x with
    | none => rfl
    | some y =>
      simp only [Option.bind_some]
      rw [show k + off + y.length = k + (off + y.length) by omega, addNodes_shift c hasW wE a]
      cases addNodes? c hasW wE (node + 1) (off + y.length) a with
      | none => rfl
      | some p => simp

theorem addNodes_length (c : Cfg) (hasW : Bool) (wE : Nat) : ∀ (a : List (List Nbr))
    (node off : Nat) (p : List Nat × List Nat), addNodes? c hasW wE node off a = some p →
    p.1.length = a.length
  | [], _, _, p, h => by simp [addNodes?] at h; subst h; rfl
  | x :: a, node, off, p, h => by
    simp only [addNodes?, Option.bind_eq_bind] at h
    cases hx : add? c hasW wE node x with
    | none => simp [hx] at h
    | some y =>
      rw [hx, Option.bind_some] at h
      cases hq : addNodes? c hasW wE (node + 1) (off + y.length) a with
      | none => rw [hq] at h; simp at h
      | some q =>
        rw [hq] at h
        simp at h
        subst h
        simp [addNodes_length c hasW wE a _ _ q hq]

/-- The offsets of chunk outputs placed one behind the other. -/
def placed : Nat → List (List Nat × List Nat) → List Nat
  | _, [] => []
  | off, o :: os => o.1.map (off + ·) ++ placed (off + o.2.length) os

theorem chunks_seq (c : Cfg) (hasW : Bool) (wE : Nat) (g : List (List Nbr))
    (P : Nat × Nat × Nat → Prop) : ∀ (cs : List (Nat × Nat × Nat)) (a b off : Nat)
    (p : List Nat × List Nat), Tiles P a cs b → b ≤ g.length →
    addNodes? c hasW wE a off ((g.drop a).take (b - a)) = some p →
    ∃ outs, cs.mapM (compressChunk? c hasW wE g) = some outs ∧
      p.2 = outs.flatMap (·.2) ∧ p.1 = placed off outs ∧
      outs.map (·.1.length) = cs.map fun ch => ch.2.1 - ch.1
  | [], a, b, off, p, ht, hb, h => by
    simp only [Tiles] at ht
    subst ht
    simp [addNodes?] at h
    subst h
    exact ⟨[], rfl, rfl, rfl, rfl⟩
  | ch :: cs, a, b, off, p, ⟨h1, h2, h3, h4⟩, hb, h => by
    have hle := Tiles.le h4
    subst h1
    have hsplit : (g.drop ch.1).take (b - ch.1) =
        (g.drop ch.1).take (ch.2.1 - ch.1) ++ (g.drop ch.2.1).take (b - ch.2.1) := by
      rw [show b - ch.1 = (ch.2.1 - ch.1) + (b - ch.2.1) by omega, List.take_add, List.drop_drop,
        show ch.1 + (ch.2.1 - ch.1) = ch.2.1 by omega]
    have hlen : ((g.drop ch.1).take (ch.2.1 - ch.1)).length = ch.2.1 - ch.1 := by
      rw [List.length_take, List.length_drop]; omega
    rw [hsplit, addNodes_append, hlen, show ch.1 + (ch.2.1 - ch.1) = ch.2.1 by omega] at h
    have hsh := addNodes_shift c hasW wE ((g.drop ch.1).take (ch.2.1 - ch.1)) ch.1 0 off
    rw [Nat.add_zero] at hsh
    rw [hsh] at h
    cases hq : addNodes? c hasW wE ch.1 0 ((g.drop ch.1).take (ch.2.1 - ch.1)) with
    | none => rw [hq] at h; simp at h
    | some q =>
      rw [hq] at h
      simp only [Option.map_some, Option.bind_some] at h
      cases hr : addNodes? c hasW wE ch.2.1 (off + q.2.length) ((g.drop ch.2.1).take (b - ch.2.1)) with
      | none => rw [hr] at h; simp at h
      | some r =>
        rw [hr] at h
        simp at h
        subst h
        obtain ⟨outs, g1, g2, g3, g4⟩ := chunks_seq c hasW wE g P cs ch.2.1 b (off + q.2.length) r h4
          hb hr
        have hch : compressChunk? c hasW wE g ch = some q := hq
        refine ⟨q :: outs, by rw [List.mapM_cons, hch, g1]; rfl, by simp [g2], ?_, ?_⟩
        · simp only [placed, g3]
        · simp only [List.map_cons, g4, addNodes_length c hasW wE _ _ _ q hq, hlen]

/-! ### Writes -/

theorem writes_append (off : Nat) (a b : List Nat) :
    writes off (a ++ b) = writes off a ++ writes (off + a.length) b := by
  have : (fun i (x : Nat) => (off + (i + a.length), x)) = fun i x => (off + a.length + i, x) := by
    funext i x; rw [show off + (i + a.length) = off + a.length + i by omega]
  simp only [writes, List.mapIdx_append, this]

theorem writeAll_notin : ∀ (ws : List (Nat × Nat)) (m : Nat → Option Nat) (k : Nat),
    (∀ w ∈ ws, w.1 ≠ k) → ws.foldl (fun m w => upd m w.1 (some w.2)) m k = m k
  | [], _, _, _ => rfl
  | w :: ws, m, k, h => by
    rw [List.foldl_cons, writeAll_notin ws _ k fun w' hw => h w' (List.mem_cons_of_mem _ hw)]
    exact upd_ne _ _ (h w List.mem_cons_self).symm

theorem writeAll_mem : ∀ (ws : List (Nat × Nat)) (m : Nat → Option Nat) (k v : Nat),
    (ws.map (·.1)).Nodup → (k, v) ∈ ws →
    ws.foldl (fun m w => upd m w.1 (some w.2)) m k = some v
  | [], _, _, _, _, h => by simp at h
  | w :: ws, m, k, v, hn, h => by
    rw [List.map_cons, List.nodup_cons] at hn
    rw [List.foldl_cons]
    rcases List.mem_cons.1 h with h | h
    · subst h
      rw [writeAll_notin ws _ k]
      · simp
      · intro w' hw' he
        exact hn.1 (List.mem_map.2 ⟨w', hw', he⟩)
    · exact writeAll_mem ws _ k v hn.2 h

theorem writes_keys (xs : List Nat) : (writes 0 xs).map (·.1) = List.range xs.length := by
  apply List.ext_getElem <;> simp [writes]

/-- Carrying out the writes of a list in any order stores the list. -/
theorem readAll_writes {xs : List Nat} {ws : List (Nat × Nat)} (h : ws.Perm (writes 0 xs)) :
    readAll? (writeAll ws) xs.length = some xs := by
  have hn : (ws.map (·.1)).Nodup := by
    rw [(h.map _).nodup_iff, writes_keys]
    exact List.nodup_range
  have hget : ∀ i (hi : i < xs.length), writeAll ws i = some xs[i] := by
    intro i hi
    refine writeAll_mem ws _ i _ hn (h.symm.subset ?_)
    simp only [writes, List.mem_mapIdx]
    exact ⟨i, hi, by simp⟩
  unfold readAll?
  have : ∀ (l : List Nat) (f : Nat → Nat), (∀ i ∈ l, writeAll ws i = some (f i)) →
      l.mapM (writeAll ws) = some (l.map f) := by
    intro l f
    induction l with
    | nil => intro _; rfl
    | cons a l ih =>
      intro hl
      rw [List.mapM_cons, hl a List.mem_cons_self, ih fun i hi => hl i (List.mem_cons_of_mem _ hi)]
      rfl
  rw [this (List.range xs.length) (fun i => xs.getD i 0)]
  · congr 1
    apply List.ext_getElem
    · simp
    · intro i h1 h2
      simp [h2]
  · intro i hi
    rw [List.mem_range] at hi
    rw [hget i hi]
    simp [hi]

/-- Lists stored one behind the other are the concatenated list. -/
theorem flatMap_writes (L : Nat → List Nat) (start : Nat → Nat) : ∀ n,
    (∀ e, e < n → start e = ((List.range e).flatMap L).length) →
    (List.range n).flatMap (fun e => writes (start e) (L e)) =
      writes 0 ((List.range n).flatMap L)
  | 0, _ => rfl
  | n + 1, h => by
    rw [List.range_succ, List.flatMap_append, List.flatMap_append,
      flatMap_writes L start n fun e he => h e (by omega), writes_append]
    simp [h n (by omega)]

theorem pre_length (L : Nat → List Nat) (e : Nat) :
    ((List.range e).flatMap L).length = pre (fun e => (L e).length) e := by
  simp [pre, List.length_flatMap]

theorem getD_range_flatMap {α β : Type} (d : α) (f : α → List β) (l : List α) :
    (List.range l.length).flatMap (fun e => f (l.getD e d)) = l.flatMap f := by
  have : l = (List.range l.length).map fun e => l.getD e d := by
    apply List.ext_getElem
    · simp
    · intro i h1 h2; simp [h1]
  conv => rhs; rw [this]
  rw [List.flatMap_map]

theorem placed_snoc : ∀ (outs : List (List Nat × List Nat)) (off : Nat) (o : List Nat × List Nat),
    placed off (outs ++ [o]) =
      placed off outs ++ o.1.map ((off + (outs.map (·.2.length)).sum) + ·)
  | [], off, o => by simp [placed]
  | x :: outs, off, o => by
    simp only [List.cons_append, placed, placed_snoc outs, List.map_cons, List.sum_cons,
      List.append_assoc]
    rw [show off + x.2.length + (outs.map (·.2.length)).sum =
      off + (x.2.length + (outs.map (·.2.length)).sum) by omega]

theorem placed_range (d : List Nat × List Nat) (outs : List (List Nat × List Nat)) :
    ∀ n, n ≤ outs.length → (List.range n).flatMap (fun e =>
      (outs.getD e d).1.map (pre (fun e => (outs.getD e d).2.length) e + ·)) =
        placed 0 (outs.take n)
  | 0, _ => by simp [placed]
  | n + 1, h => by
    rw [List.range_succ, List.flatMap_append, placed_range d outs n (by omega),
      List.take_add_one]
    have hn : n < outs.length := by omega
    simp only [List.flatMap_cons, List.flatMap_nil, List.append_nil, List.getElem?_eq_getElem hn,
      Option.toList_some, placed_snoc, Nat.zero_add]
    have hp : ∀ m, m ≤ outs.length → pre (fun e => (outs.getD e d).2.length) m =
        ((outs.take m).map (·.2.length)).sum := by
      intro m
      induction m with
      | zero => intro _; rfl
      | succ m ih =>
        intro hm
        have hm' : m < outs.length := by omega
        rw [pre_succ, ih (by omega), List.take_add_one, List.getElem?_eq_getElem hm',
          List.map_append, List.sum_append, List.getD_eq_getElem?_getD,
          List.getElem?_eq_getElem hm']
        simp only [Option.getD_some, Option.toList_some, List.map_cons, List.map_nil, List.sum_cons,
          List.sum_nil, Nat.add_zero]
    rw [hp n (by omega)]
    simp [hn]

end Verif.ParallelCompression

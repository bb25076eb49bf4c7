import Verif.Contraction.Rows
import Mathlib.Data.List.Perm.Basic

/-!
# The rating maps collect neighbourhoods
-/

namespace Verif.Contraction
open Verif.Maps

/-- At most `n` different keys occur. -/
def Keys (n : Nat) (l : List (Nat × Int)) : Prop := ∃ keys : List Nat, keys.length ≤ n ∧ ∀ e ∈ l, e.1 ∈ keys

theorem Keys.mono {n n' : Nat} {l l' : List (Nat × Int)} (h : Keys n l) (hn : n ≤ n') (hl : ∀ e ∈ l', e ∈ l) :
    Keys n' l' := by
  obtain ⟨ks, h1, h2⟩ := h
  exact ⟨ks, by omega, fun e he => h2 e (hl e he)⟩

theorem keys_length (l : List (Nat × Int)) : Keys l.length l :=
  ⟨l.map Prod.fst, by simp, fun e he => List.mem_map.2 ⟨e, he, rfl⟩⟩

theorem content_clear (A B : List Op) : content 0 (A ++ .clear :: B) = content 0 B := by
  unfold content
  rw [List.foldl_append]
  rfl

theorem incs_append (a b : List (Nat × Int)) : incs (a ++ b) = incs a ++ incs b := by simp [incs]

theorem session_cons (l : List (Nat × Int)) (earlier : List (List (Nat × Int))) (ins : List (Nat × Int)) :
    session (l :: earlier) ins = incs l ++ .clear :: session earlier ins := by
  simp [session]

theorem content_session (earlier : List (List (Nat × Int))) (ins : List (Nat × Int)) :
    content 0 (session earlier ins) = content 0 (incs ins) := by
  induction earlier with
  | nil => rfl
  | cons l earlier ih => rw [session_cons, content_clear, ih]

theorem prefix_incs {pre : List Op} {l : List (Nat × Int)} (h : pre <+: incs l) : ∃ p, p <+: l ∧ pre = incs p := by
  have := List.prefix_iff_eq_take.1 h
  refine ⟨l.take pre.length, List.take_prefix _ _, ?_⟩
  rw [incs, List.map_take]
  exact this

/-- At any time during a session the content is that of the beginning of one of the uses. -/
theorem prefix_session : ∀ (earlier : List (List (Nat × Int))) (ins : List (Nat × Int)) (pre : List Op),
    pre <+: session earlier ins → ∃ l ∈ earlier ++ [ins], ∃ p, p <+: l ∧ content 0 pre = content 0 (incs p)
  | [], ins, pre, h => by
    obtain ⟨p, hp, rfl⟩ := prefix_incs (show pre <+: incs ins from h)
    exact ⟨ins, by simp, p, hp, rfl⟩
  | l :: earlier, ins, pre, h => by
    rw [session_cons] at h
    rcases List.prefix_or_prefix_of_prefix h (List.prefix_append (incs l) _) with h' | h'
    · obtain ⟨p, hp, rfl⟩ := prefix_incs h'
      exact ⟨l, by simp, p, hp, rfl⟩
    · obtain ⟨q, rfl⟩ := h'
      have hq := (List.prefix_append_right_inj _).1 h
      cases q with
      | nil => exact ⟨l, by simp, l, List.prefix_refl _, by simp⟩
      | cons a q =>
        obtain ⟨rfl, hq'⟩ := List.cons_prefix_cons.1 hq
        obtain ⟨l', hl', p, hp, he⟩ := prefix_session earlier ins q hq'
        refine ⟨l', ?_, p, hp, by rw [content_clear, he]⟩
        rcases List.mem_append.1 hl' with h | h
        · exact List.mem_append_left _ (List.mem_cons_of_mem _ h)
        · exact List.mem_append_right _ h

theorem atMost_incs {n : Nat} {l p : List (Nat × Int)} (h : Keys n l) (hp : p <+: l) :
    AtMost n (content 0 (incs p)) := by
  obtain ⟨ks, h1, h2⟩ := h
  refine ⟨ks, h1, fun k hk => ?_⟩
  rw [content_incs] at hk
  by_cases hm : k ∈ p.map Prod.fst
  · obtain ⟨e, he, rfl⟩ := List.mem_map.1 hm
    exact h2 e (hp.subset he)
  · simp [hm] at hk

theorem basic_session {earlier : List (List (Nat × Int))} {ins : List (Nat × Int)} :
    ∀ op ∈ session earlier ins, op.basic = true := by
  intro op h
  unfold session incs at h
  simp only [List.mem_append, List.mem_flatMap, List.mem_map, List.mem_singleton] at h
  rcases h with ⟨l, _, ⟨e, _, rfl⟩ | rfl⟩ | ⟨e, _, rfl⟩ <;> rfl

theorem key_session {cap : Nat} {earlier : List (List (Nat × Int))} {ins : List (Nat × Int)}
    (h : ∀ l ∈ earlier ++ [ins], ∀ e ∈ l, e.1 < cap) :
    ∀ op ∈ session earlier ins, ∀ k, op.key? = some k → k < cap := by
  intro op ho k hk
  unfold session incs at ho
  simp only [List.mem_append, List.mem_flatMap, List.mem_map, List.mem_singleton] at ho
  rcases ho with ⟨l, hl, ⟨e, he, rfl⟩ | rfl⟩ | ⟨e, he, rfl⟩
  · simp [Op.key?] at hk; subst hk; exact h l (by simp [hl]) e he
  · simp [Op.key?] at hk
  · simp [Op.key?] at hk; subst hk; exact h ins (by simp) e he

theorem fixed_collects {M : Nat} (hM : 0 < M) {earlier : List (List (Nat × Int))} {ins : List (Nat × Int)}
    (hk : ∀ l ∈ earlier ++ [ins], Keys (M - 1) l) :
    ∃ s, run (FixedMap.op 0) (FixedMap.new M) (session earlier ins) = some s ∧ Collects ins s.entries ∧
      s.size = s.entries.length := by
  obtain ⟨s, h1, _, _, h4, h5⟩ := C10_fixed_size_map 0 M hM (session earlier ins) basic_session (by
    intro pre hpre
    obtain ⟨l, hl, p, hp, he⟩ := prefix_session _ _ _ hpre
    rw [he]
    exact atMost_incs (hk l hl) hp)
  rw [content_session] at h4
  exact ⟨s, h1, collects_of_lists h4, h5⟩

theorem sum_pos {l : List Int} (h : ∀ x ∈ l, 0 < x) (hne : l ≠ []) : 0 < l.sum := by
  induction l with
  | nil => exact absurd rfl hne
  | cons a l ih =>
    rw [List.sum_cons]
    have h1 := h a List.mem_cons_self
    rcases l with _ | ⟨b, l⟩
    · simpa using h1
    · have := ih (fun x hx => h x (List.mem_cons_of_mem _ hx)) (by simp)
      omega

theorem key_sum_pos {l : List (Nat × Int)} (hpos : ∀ e ∈ l, 0 < e.2) {k : Nat} (hk : k ∈ l.map Prod.fst) :
    0 < ((l.filter fun e => e.1 = k).map Prod.snd).sum := by
  apply sum_pos
  · intro x hx
    obtain ⟨e, he, rfl⟩ := List.mem_map.1 hx
    exact hpos e (List.mem_filter.1 he).1
  · obtain ⟨e, he, rfl⟩ := List.mem_map.1 hk
    intro h
    have : e.2 ∈ ((l.filter fun e' => e'.1 = e.1).map Prod.snd) :=
      List.mem_map.2 ⟨e, List.mem_filter.2 ⟨he, by simp⟩, rfl⟩
    rw [h] at this
    exact absurd this List.not_mem_nil

theorem large_collects {cap : Nat} {earlier : List (List (Nat × Int))} {ins : List (Nat × Int)}
    (hk : ∀ l ∈ earlier ++ [ins], ∀ e ∈ l, e.1 < cap ∧ 0 < e.2) :
    ∃ s, run FastResetArray.op (FastResetArray.new cap) (session earlier ins) = some s ∧ Collects ins s.entries := by
  obtain ⟨s, h1, h2⟩ := C10_fast_reset_array_entries_partial cap (session earlier ins)
    (fun op ho => ⟨basic_session op ho, key_session (fun l hl e he => (hk l hl e he).1) op ho⟩) (by
      intro pre hpre k
      obtain ⟨l, hl, p, hp, he⟩ := prefix_session _ _ _ hpre
      rw [he, content_incs]
      split
      · rename_i hm
        have := key_sum_pos (l := p) (fun e he => (hk l hl e (hp.subset he)).2) hm
        intro h
        rw [Option.some.injEq] at h
        omega
      · simp)
  rw [content_session] at h2
  exact ⟨s, h1, collects_of_lists h2⟩

/-- A bound on the number of keys for which `select_map` chooses the given map. -/
def Selected (cn : Nat) (kind : Kind) (l : List (Nat × Int)) : Prop :=
  ∃ upper, Keys upper l ∧ selectMap cn upper = kind

theorem Selected.keys {cn : Nat} {kind : Kind} {l : List (Nat × Int)} (h : Selected cn kind l) :
    match kind with
    | .superSmall => Keys (128 - 1) l
    | .small => Keys (32768 - 1) l
    | .large => True := by
  obtain ⟨upper, hk, hs⟩ := h
  unfold selectMap at hs
  split at hs
  · rename_i h
    subst hs
    exact hk.mono (by omega) fun _ h => h
  · split at hs
    · subst hs; trivial
    · rename_i h
      subst hs
      exact hk.mono (by omega) fun _ h => h

/-- Whatever the thread's map was used for before, it lists every adjacent cluster once with the total weight. -/
theorem ratingMap_collects {cn : Nat} {kind : Kind} {earlier : List (List (Nat × Int))} {ins : List (Nat × Int)}
    (hsel : ∀ l ∈ earlier ++ [ins], Selected cn kind l)
    (hk : ∀ l ∈ earlier ++ [ins], ∀ e ∈ l, e.1 < cn ∧ 0 < e.2) :
    ∃ out, ratingMap kind cn earlier ins = some out ∧ Collects ins out := by
  cases kind with
  | superSmall =>
    obtain ⟨s, h1, h2, _⟩ := fixed_collects (M := 128) (by omega) fun l hl => (hsel l hl).keys
    exact ⟨_, by simp only [ratingMap, h1, Option.map_some], h2⟩
  | small =>
    obtain ⟨s, h1, h2, _⟩ := fixed_collects (M := 32768) (by omega) fun l hl => (hsel l hl).keys
    exact ⟨_, by simp only [ratingMap, h1, Option.map_some], h2⟩
  | large =>
    obtain ⟨s, h1, h2⟩ := large_collects hk
    exact ⟨_, by simp only [ratingMap, h1, Option.map_some], h2⟩

theorem clears_session (earlier : List (List (Nat × Int))) (ins : List (Nat × Int)) :
    DynMaps.clears (session earlier ins) = earlier.length := by
  have h0 : ∀ l, DynMaps.clears (incs l) = 0 := by
    intro l
    unfold DynMaps.clears incs
    rw [List.countP_eq_zero]
    intro op h
    obtain ⟨e, _, rfl⟩ := List.mem_map.1 h
    simp
  induction earlier with
  | nil => exact h0 ins
  | cons l earlier ih =>
    rw [session_cons]
    unfold DynMaps.clears at *
    rw [List.countP_append, List.countP_cons, ih, h0]
    simp

theorem growingMap_collects {earlier : List (List (Nat × Int))} {ins : List (Nat × Int)}
    (hl : earlier.length + 1 < 2 ^ 32) : ∃ out, growingMap earlier ins = some out ∧ Collects ins out := by
  obtain ⟨s, out, h1, _, _, _, h5, h6, _⟩ := DynMaps.C12_remembering_map 32 (session earlier ins) basic_session
    (by rw [clears_session]; exact hl)
  rw [content_session] at h6
  exact ⟨out, by rw [growingMap, h1]; exact h5, collects_of_lists h6⟩

/-! ## Two phases -/

theorem run_append {σ : Type} (step : σ → Op → Option σ) (s : σ) (a b : List Op) :
    run step s (a ++ b) = (run step s a).bind fun s' => run step s' b := by
  induction a generalizing s with
  | nil => rfl
  | cons x a ih =>
    simp only [List.cons_append, run]
    cases step s x with
    | none => rfl
    | some s' => simp only [Option.bind_some]; exact ih s'

theorem collects_keys {ins out : List (Nat × Int)} (h : Collects ins out) : Keys out.length ins := by
  refine ⟨out.map Prod.fst, by simp, fun e he => ?_⟩
  exact List.mem_map.2 ⟨_, (h.2 e.1 _).2 ⟨List.mem_map.2 ⟨e, he, rfl⟩, rfl⟩, rfl⟩

theorem firstPhase_from {M thr : Nat} (hM : thr < M) (hM2 : 1 < M) (earlier : List (List (Nat × Int)))
    (hk : ∀ l ∈ earlier, Keys (M - 1) l) : ∀ (ins p : List (Nat × Int)) (s : FixedMap),
    run (FixedMap.op 0) (FixedMap.new M) (session earlier p) = some s → (p = [] ∨ s.size < thr) →
    Keys (M - 1) p →
    ∃ r, firstPhase thr s ins = some r ∧ ∀ out, r = some out → Collects (p ++ ins) out
  | [], p, s, hs, _, hp => by
    obtain ⟨s', h1, h2, _⟩ := fixed_collects (M := M) (by omega) (earlier := earlier) (ins := p) (by
      intro l hl
      rcases List.mem_append.1 hl with h | h
      · exact hk l h
      · rw [List.mem_singleton.1 h]; exact hp)
    rw [hs] at h1
    obtain rfl := Option.some.inj h1
    refine ⟨some s.entries, rfl, fun out ho => ?_⟩
    obtain rfl := Option.some.inj ho
    rw [List.append_nil]; exact h2
  | e :: ins, p, s, hs, hlt, hp => by
    have hpe : Keys (M - 1) (p ++ [e]) := by
      rcases hlt with rfl | hlt
      · exact (keys_length [e]).mono (by simp; omega) (by simp)
      · obtain ⟨s', h1, h2, h3⟩ := fixed_collects (M := M) (by omega) (earlier := earlier) (ins := p) (by
          intro l hl
          rcases List.mem_append.1 hl with h | h
          · exact hk l h
          · rw [List.mem_singleton.1 h]; exact hp)
        rw [hs] at h1
        obtain rfl := Option.some.inj h1
        obtain ⟨ks, hk1, hk2⟩ := collects_keys h2
        refine ⟨e.1 :: ks, by simp; omega, fun x hx => ?_⟩
        rcases List.mem_append.1 hx with h | h
        · exact List.mem_cons_of_mem _ (hk2 x h)
        · rw [List.mem_singleton.1 h]; exact List.mem_cons_self
    obtain ⟨s', h1, _, _⟩ := fixed_collects (M := M) (by omega) (earlier := earlier) (ins := p ++ [e]) (by
      intro l hl
      rcases List.mem_append.1 hl with h | h
      · exact hk l h
      · rw [List.mem_singleton.1 h]; exact hpe)
    have h1' := h1
    have hse : session earlier (p ++ [e]) = session earlier p ++ [.inc e.1 e.2] := by
      simp [session, incs]
    rw [hse, run_append, hs] at h1
    simp only [Option.bind_some, run] at h1
    have hop : s.op 0 (.inc e.1 e.2) = some s' := by
      cases h : s.op 0 (.inc e.1 e.2) with
      | none => simp [h] at h1
      | some x => simpa [h] using h1
    simp only [firstPhase, hop, Option.bind_some]
    by_cases ht : thr ≤ s'.size
    · rw [if_pos ht]
      exact ⟨none, rfl, fun out h => nomatch h⟩
    · rw [if_neg ht]
      have := firstPhase_from hM hM2 earlier hk ins (p ++ [e]) s' h1' (Or.inr (by omega)) hpe
      simpa using this

/-- First phase of the two-phase implementation: it never runs into undefined behaviour, and if it does not
postpone the coarse node, the neighbourhood is complete. -/
theorem firstPhase_collects {M thr : Nat} (hM : thr < M) (hM2 : 1 < M) {earlier : List (List (Nat × Int))}
    (hk : ∀ l ∈ earlier, Keys (M - 1) l) {ins : List (Nat × Int)} {s : FixedMap}
    (hs : run (FixedMap.op 0) (FixedMap.new M) (session earlier []) = some s) :
    ∃ r, firstPhase thr s ins = some r ∧ ∀ out, r = some out → Collects ins out :=
  firstPhase_from hM hM2 earlier hk ins [] s hs (Or.inl rfl) ⟨[], by simp, fun _ h => absurd h List.not_mem_nil⟩

/-! The concurrent second phase. -/

theorem flatMap_upd_append {threads : List Nat} (hn : threads.Nodup) {t : Nat} (ht : t ∈ threads)
    (f : Nat → List Nat) (k : Nat) :
    (threads.flatMap (upd f t (f t ++ [k]))).Perm (k :: threads.flatMap f) := by
  induction threads with
  | nil => simp at ht
  | cons a l ih =>
    obtain ⟨ha, hn⟩ := List.nodup_cons.1 hn
    rw [List.flatMap_cons, List.flatMap_cons]
    by_cases hat : a = t
    · subst hat
      rw [upd_same]
      have : l.flatMap (upd f a (f a ++ [k])) = l.flatMap f := by
        have : l.map (upd f a (f a ++ [k])) = l.map f :=
          List.map_congr_left fun x hx => upd_ne _ _ (show x ≠ a from fun e => ha (e ▸ hx))
        simp only [List.flatMap, this]
      rw [this, List.append_assoc]
      exact List.perm_middle
    · rw [upd_ne _ _ hat]
      have := ih hn ((List.mem_cons.1 ht).resolve_left (Ne.symm hat))
      exact (this.append_left _).trans List.perm_middle

structure CInv (threads : List Nat) (done : List (Nat × Nat × Int)) (s : Concurrent) : Prop where
  data : ∀ k, s.data k = (((done.map Prod.snd).filter fun e => e.1 = k).map Prod.snd).sum
  nodup : (threads.flatMap s.used).Nodup
  mem : ∀ k, k ∈ threads.flatMap s.used ↔ k ∈ (done.map Prod.snd).map Prod.fst

theorem cinv_step {threads : List Nat} (hn : threads.Nodup) {done : List (Nat × Nat × Int)} {s : Concurrent}
    (hi : CInv threads done s) (hpos : ∀ x ∈ done, 0 < x.2.2) {x : Nat × Nat × Int} (hx : x.1 ∈ threads) :
    CInv threads (done ++ [x]) (s.add x) := by
  obtain ⟨t, k, w⟩ := x
  have hzero : s.data k = 0 ↔ k ∉ (done.map Prod.snd).map Prod.fst := by
    constructor
    · intro h hk
      have := key_sum_pos (l := done.map Prod.snd) (by
        intro e he
        obtain ⟨y, hy, rfl⟩ := List.mem_map.1 he
        exact hpos y hy) hk
      rw [← hi.data] at this
      omega
    · intro h
      rw [hi.data]
      have : (done.map Prod.snd).filter (fun e => decide (e.1 = k)) = [] := by
        rw [List.filter_eq_nil_iff]
        intro e he hd
        exact h (List.mem_map.2 ⟨e, he, by simpa using hd⟩)
      rw [this]; rfl
  constructor
  · intro j
    show upd s.data k _ j = _
    rw [List.map_append, List.filter_append, List.map_append, List.sum_append, ← hi.data]
    by_cases hj : j = k
    · subst hj; simp
    · rw [upd_ne _ _ hj]
      simp [Ne.symm hj]
  · show (threads.flatMap (if s.data k = 0 then upd s.used t (s.used t ++ [k]) else s.used)).Nodup
    split
    · rename_i h
      rw [(flatMap_upd_append hn hx s.used k).nodup_iff, List.nodup_cons]
      exact ⟨fun hm => hzero.1 h ((hi.mem k).1 hm), hi.nodup⟩
    · exact hi.nodup
  · intro j
    show j ∈ threads.flatMap (if s.data k = 0 then upd s.used t (s.used t ++ [k]) else s.used) ↔ _
    have e1 : ((done ++ [(t, k, w)]).map Prod.snd).map Prod.fst = (done.map Prod.snd).map Prod.fst ++ [k] := by simp
    rw [e1]
    split
    · rename_i h
      rw [(flatMap_upd_append hn hx s.used k).mem_iff, List.mem_cons, hi.mem, List.mem_append, List.mem_singleton]
      exact or_comm
    · rename_i h
      rw [hi.mem, List.mem_append, List.mem_singleton]
      constructor
      · exact Or.inl
      · rintro (h' | rfl)
        · exact h'
        · exact Classical.not_not.1 fun hc => h (hzero.2 hc)

theorem cinv_run {threads : List Nat} (hn : threads.Nodup) : ∀ (todo done : List (Nat × Nat × Int)) (s : Concurrent),
    CInv threads done s → (∀ x ∈ done ++ todo, 0 < x.2.2) → (∀ x ∈ todo, x.1 ∈ threads) →
    CInv threads (done ++ todo) (todo.foldl Concurrent.add s)
  | [], done, s, hi, _, _ => by rw [List.append_nil]; exact hi
  | x :: todo, done, s, hi, hpos, ht => by
    rw [List.foldl_cons]
    have e : done ++ x :: todo = (done ++ [x]) ++ todo := by simp
    rw [e] at hpos ⊢
    exact cinv_run hn todo _ _ (cinv_step hn hi (fun y hy => hpos y (by simp [hy])) (ht x List.mem_cons_self)) hpos
      fun y hy => ht y (List.mem_cons_of_mem _ hy)

theorem filter_sum_append (a b : List (Nat × Int)) (k : Nat) :
    (((a ++ b).filter fun e => e.1 = k).map Prod.snd).sum =
      ((a.filter fun e => e.1 = k).map Prod.snd).sum + ((b.filter fun e => e.1 = k).map Prod.snd).sum := by
  rw [List.filter_append, List.map_append, List.sum_append]

/-- Second phase of the two-phase implementation: the fine edges `ins` of the coarse node are split into segments,
each of which a thread collects in its local map (`segs`: segment and what the map listed); the listed values are
added to the shared array by atomic additions in any order.  If all weights are positive the resulting entries are
the complete neighbourhood. -/
theorem secondPhase_collects {ins : List (Nat × Int)} {segs : List (List (Nat × Int) × List (Nat × Int))}
    {adds : List (Nat × Nat × Int)} {threads : List Nat} (hn : threads.Nodup)
    (hseg : (segs.map Prod.fst).flatten.Perm ins) (hcol : ∀ s ∈ segs, Collects s.1 s.2)
    (hadds : (adds.map Prod.snd).Perm (segs.map Prod.snd).flatten) (ht : ∀ x ∈ adds, x.1 ∈ threads)
    (hpos : ∀ e ∈ ins, 0 < e.2) : Collects ins (secondPhase adds threads) := by
  have hsegpos : ∀ s ∈ segs, ∀ e ∈ s.1, 0 < e.2 := by
    intro s hs e he
    exact hpos e (hseg.mem_iff.1 (List.mem_flatten.2 ⟨s.1, List.mem_map.2 ⟨s, hs, rfl⟩, he⟩))
  have hapos : ∀ x ∈ adds, 0 < x.2.2 := by
    intro x hx
    have := hadds.mem_iff.1 (List.mem_map.2 ⟨x, hx, rfl⟩)
    obtain ⟨l, hl, hxl⟩ := List.mem_flatten.1 this
    obtain ⟨s, hs, rfl⟩ := List.mem_map.1 hl
    obtain ⟨h1, h2⟩ := ((hcol s hs).2 x.2.1 x.2.2).1 hxl
    rw [h2]
    exact key_sum_pos (hsegpos s hs) h1
  have h0 : threads.flatMap (fun _ => ([] : List Nat)) = [] := by
    rw [List.flatMap_eq_nil_iff]; intros; rfl
  have hi := cinv_run hn adds [] ⟨fun _ => 0, fun _ => []⟩
    ⟨fun k => rfl, by rw [h0]; exact List.nodup_nil, fun k => by rw [h0]; simp⟩ (by simpa using hapos) ht
  rw [List.nil_append] at hi
  -- keys and sums of the additions are those of the inputs
  have hkeys : ∀ k, k ∈ (adds.map Prod.snd).map Prod.fst ↔ k ∈ ins.map Prod.fst := by
    intro k
    rw [(hadds.map Prod.fst).mem_iff, ← (hseg.map Prod.fst).mem_iff]
    simp only [List.mem_map, List.mem_flatten]
    constructor
    · rintro ⟨e, ⟨_, ⟨s, hs, rfl⟩, he⟩, rfl⟩
      obtain ⟨x, hx, hxe⟩ := List.mem_map.1 (((hcol s hs).2 e.1 e.2).1 he).1
      exact ⟨x, ⟨_, ⟨s, hs, rfl⟩, hx⟩, hxe⟩
    · rintro ⟨e, ⟨_, ⟨s, hs, rfl⟩, he⟩, rfl⟩
      exact ⟨(e.1, _), ⟨_, ⟨s, hs, rfl⟩, ((hcol s hs).2 e.1 _).2 ⟨List.mem_map.2 ⟨e, he, rfl⟩, rfl⟩⟩, rfl⟩
  have hsum : ∀ k, (((adds.map Prod.snd).filter fun e => e.1 = k).map Prod.snd).sum =
      ((ins.filter fun e => e.1 = k).map Prod.snd).sum := by
    intro k
    rw [((hadds.filter _).map Prod.snd).sum_eq, ← ((hseg.filter _).map Prod.snd).sum_eq]
    clear hadds hseg hkeys hi hapos hsegpos hpos ht
    induction segs with
    | nil => rfl
    | cons s segs ih =>
      simp only [List.map_cons, List.flatten_cons]
      rw [filter_sum_append, filter_sum_append, (hcol s List.mem_cons_self).weight k,
        ih fun x hx => hcol x (List.mem_cons_of_mem _ hx)]
  generalize hfin : adds.foldl Concurrent.add ⟨fun _ => 0, fun _ => []⟩ = s at hi
  have hent : secondPhase adds threads = (threads.flatMap s.used).map fun k => (k, s.data k) := by
    unfold secondPhase Concurrent.entries
    rw [hfin, List.map_flatMap]
  rw [hent]
  refine ⟨?_, ?_⟩
  · rw [List.map_map]
    have : (Prod.fst ∘ fun k => (k, s.data k)) = id := rfl
    rw [this, List.map_id]
    exact hi.nodup
  · intro k v
    rw [List.mem_map]
    constructor
    · rintro ⟨k', hk', he⟩
      obtain ⟨rfl, rfl⟩ := Prod.mk.inj he
      exact ⟨(hkeys _).1 ((hi.mem _).1 hk'), by rw [hi.data, hsum]⟩
    · rintro ⟨hk, rfl⟩
      exact ⟨k, (hi.mem k).2 ((hkeys k).2 hk), by rw [hi.data, hsum]⟩

end Verif.Contraction

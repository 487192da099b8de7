import Verif.Model.Defects
import Verif.Spec.Defects
import Verif.Props.PointList
import Verif.Props.Graph
import Verif.Tactics

namespace Kigumi.Defects
open Kigumi Outcome Spec.Defects PointList

theorem repeats_iff (f : Tri Nat) : repeats f = false ↔ Proper3 f := by
  simp only [repeats, Proper3, Bool.or_eq_false_iff, beq_eq_false_iff_ne, ne_eq]
  constructor
  · rintro ⟨⟨h1, h2⟩, h3⟩; exact ⟨h1, h2, fun h => h3 h.symm⟩
  · rintro ⟨h1, h2, h3⟩; exact ⟨⟨h1, h2⟩, fun h => h3 h.symm⟩

/-! ### Half-edges -/

theorem find_incr (m : Counts) (he k : Nat × Nat) : (find (incr m he) k).getD 0 = (find m k).getD 0 + (if he = k then 1 else 0) := by
  induction m with
  | nil => by_cases h : he = k <;> simp [incr, find, h]
  | cons x m ih =>
    obtain ⟨a, v⟩ := x
    simp only [incr]
    split
    · rename_i h; subst h
      by_cases h : a = k <;> simp [find, h]
    · rename_i h
      by_cases h' : a = k
      · subst h'
        have : he ≠ a := fun e => h e.symm
        simp [find, this]
      · simp only [find, h', if_false]; exact ih

theorem incr_keys (m : Counts) (he : Nat × Nat) (h : (m.map Prod.fst).Nodup) : ((incr m he).map Prod.fst).Nodup ∧ (∀ k, k ∈ (incr m he).map Prod.fst ↔ k ∈ m.map Prod.fst ∨ k = he) := by
  induction m with
  | nil => simp [incr]
  | cons x m ih =>
    obtain ⟨a, v⟩ := x
    simp only [List.map_cons, List.nodup_cons] at h
    obtain ⟨i1, i2⟩ := ih h.2
    simp only [incr]
    split
    · rename_i e; subst e
      refine ⟨by simpa using h, ?_⟩
      intro k; simp only [List.map_cons, List.mem_cons]; tauto
    · rename_i e
      refine ⟨?_, ?_⟩
      · simp only [List.map_cons, List.nodup_cons]
        refine ⟨?_, i1⟩
        rw [i2]; rintro (h' | h')
        · exact h.1 h'
        · exact e h'
      · intro k; simp only [List.map_cons, List.mem_cons, i2]; tauto

/-- Entries are positive and keys unique. -/
structure CInv (m : Counts) : Prop where
  nodup : (m.map Prod.fst).Nodup
  pos : ∀ e ∈ m, 0 < e.2

theorem incr_pos (m : Counts) (he : Nat × Nat) (h : ∀ e ∈ m, 0 < e.2) : ∀ e ∈ incr m he, 0 < e.2 := by
  induction m with
  | nil => simp [incr]
  | cons x m ih =>
    obtain ⟨a, v⟩ := x
    simp only [incr]
    split
    · intro e he
      rcases List.mem_cons.1 he with rfl | he
      · show 0 < v + 1; omega
      · exact h e (List.mem_cons_of_mem _ he)
    · intro e he
      rcases List.mem_cons.1 he with rfl | he
      · exact h _ (by simp)
      · exact ih (fun e he => h e (List.mem_cons_of_mem _ he)) e he

theorem CInv.incr {m : Counts} (h : CInv m) (he : Nat × Nat) : CInv (incr m he) := ⟨(incr_keys m he h.nodup).1, incr_pos m he h.pos⟩

theorem collect_inv (fs : List (Tri Nat)) : ∀ m, CInv m → CInv (collect fs m) ∧ ∀ k, (find (collect fs m) k).getD 0 = (find m k).getD 0 + uses fs k.1 k.2 := by
  induction fs with
  | nil => intro m h; exact ⟨h, fun k => by simp [collect, uses]⟩
  | cons f fs ih =>
    intro m h
    unfold collect
    by_cases hr : repeats f = true
    · rw [if_pos hr]
      obtain ⟨i1, i2⟩ := ih m h
      refine ⟨i1, fun k => ?_⟩
      have hn : ¬ Proper3 f := by rw [← repeats_iff]; simp [hr]
      rw [i2]; simp [uses, List.filter_cons, hn]
    · rw [if_neg hr]
      obtain ⟨i1, i2⟩ := ih _ (((h.incr (f.a, f.b)).incr (f.b, f.c)).incr (f.c, f.a))
      refine ⟨i1, fun k => ?_⟩
      have hn : Proper3 f := by rw [← repeats_iff]; simpa using hr
      rw [i2, find_incr, find_incr, find_incr]
      obtain ⟨k1, k2⟩ := k
      simp only [uses, List.filter_cons, hn, decide_true, if_true, List.flatMap_cons, List.count_append, sides, List.count_cons, List.count_nil, beq_iff_eq]
      omega

theorem find_of_mem {m : Counts} (h : (m.map Prod.fst).Nodup) {k : Nat × Nat} {v : Nat} (hm : (k, v) ∈ m) : find m k = some v := by
  induction m with
  | nil => cases hm
  | cons x m ih =>
    obtain ⟨a, u⟩ := x
    simp only [List.map_cons, List.nodup_cons] at h
    rcases List.mem_cons.1 hm with e | hm
    · cases e; simp [find]
    · have : a ≠ k := by rintro rfl; exact h.1 (List.mem_map.2 ⟨_, hm, rfl⟩)
      simp only [find, this, if_false]; exact ih h.2 hm

theorem entry_iff (fs : List (Tri Nat)) (k : Nat × Nat) (v : Nat) : (k, v) ∈ collect fs [] ↔ v = uses fs k.1 k.2 ∧ 0 < v := by
  obtain ⟨h1, h2⟩ := collect_inv fs [] ⟨by simp, by simp⟩
  have h2 := h2 k
  simp only [find, Option.getD_none, Nat.zero_add] at h2
  constructor
  · intro h
    rw [find_of_mem h1.nodup h] at h2
    exact ⟨h2, h1.pos _ h⟩
  · rintro ⟨rfl, hp⟩
    cases hf : find (collect fs []) k with
    | none => rw [hf] at h2; simp at h2; omega
    | some v => rw [hf] at h2; simp at h2; rw [← h2]; exact find_some hf

theorem find_none_iff (fs : List (Tri Nat)) (k : Nat × Nat) : find (collect fs []) k = none ↔ uses fs k.1 k.2 = 0 := by
  obtain ⟨h1, h2⟩ := collect_inv fs [] ⟨by simp, by simp⟩
  have h2 := h2 k
  simp only [find, Option.getD_none, Nat.zero_add] at h2
  cases hf : find (collect fs []) k with
  | none => rw [hf] at h2; simp at h2; simp [h2]
  | some v =>
    rw [hf] at h2; simp at h2
    have := h1.pos _ (find_some hf)
    simp at this ⊢; omega

theorem findD (fs : List (Tri Nat)) (k : Nat × Nat) : (find (collect fs []) k).getD 0 = uses fs k.1 k.2 := by
  have := (collect_inv fs [] ⟨by simp, by simp⟩).2 k
  simpa [find] using this

theorem uses_irrefl (fs : List (Tri Nat)) (v : Nat) : uses fs v v = 0 := by
  unfold uses
  rw [List.count_eq_zero]
  simp only [List.mem_flatMap, List.mem_filter, decide_eq_true_eq, sides, List.mem_cons, List.not_mem_nil, or_false, Prod.mk.injEq, not_exists, not_and]
  rintro f ⟨-, h1, h2, h3⟩ h
  rcases h with ⟨a, b⟩ | ⟨a, b⟩ | ⟨a, b⟩
  · exact h1 (a.symm.trans b)
  · exact h2 (a.symm.trans b)
  · exact h3 (b.symm.trans a)

theorem order_keys {fs : List (Tri Nat)} {order : Counts} (hp : order.Perm (collect fs [])) : (order.map Prod.fst).Nodup :=
  ((hp.map Prod.fst).nodup_iff).2 (collect_inv fs [] ⟨by simp, by simp⟩).1.nodup

theorem nodup_filterMap_toEdge {order : Counts} (hn : (order.map Prod.fst).Nodup) (g : (Nat × Nat) × Nat → Option (Nat × Nat))
    (hg : ∀ e x, g e = some x → x = toEdge e.1)
    (hinj : ∀ e e', e ∈ order → e' ∈ order → (g e).isSome → (g e').isSome → toEdge e.1 = toEdge e'.1 → e.1 = e'.1) : (order.filterMap g).Nodup := by
  induction order with
  | nil => simp
  | cons e order ih =>
    simp only [List.map_cons, List.nodup_cons] at hn
    have ih := ih hn.2 (fun a b ha hb => hinj a b (List.mem_cons_of_mem _ ha) (List.mem_cons_of_mem _ hb))
    cases hge : g e with
    | none => rw [List.filterMap_cons_none hge]; exact ih
    | some x =>
      rw [List.filterMap_cons_some hge, List.nodup_cons]
      refine ⟨?_, ih⟩
      intro hx
      obtain ⟨e', he', hge'⟩ := List.mem_filterMap.1 hx
      have := hinj e e' (by simp) (List.mem_cons_of_mem _ he') (by simp [hge]) (by simp [hge']) ((hg _ _ hge).symm.trans (hg _ _ hge'))
      exact hn.1 (List.mem_map.2 ⟨e', he', this.symm⟩)

theorem toEdge_eq {he he' : Nat × Nat} (h : toEdge he = toEdge he') : he = he' ∨ he = opp he' := by
  obtain ⟨a, b⟩ := he
  obtain ⟨c, d⟩ := he'
  simp only [toEdge, opp] at h ⊢
  split at h <;> split at h <;> simp only [Prod.mk.injEq] at h ⊢ <;> omega

theorem oneWay_spec (fs : List (Tri Nat)) {order : Counts} (hp : order.Perm (collect fs [])) (k : Nat) (hk : 0 < k) :
    (oneWay k (collect fs []) order).Nodup ∧ ∀ v w, (v, w) ∈ oneWay k (collect fs []) order ↔ v < w ∧ ((uses fs v w = k ∧ uses fs w v = 0) ∨ (uses fs v w = 0 ∧ uses fs w v = k)) := by
  have hmem : ∀ e, e ∈ order ↔ e.2 = uses fs e.1.1 e.1.2 ∧ 0 < e.2 := fun e => hp.mem_iff.trans (entry_iff fs e.1 e.2)
  constructor
  · refine nodup_filterMap_toEdge (order_keys hp) _ ?_ ?_
    · intro e x h
      split at h
      · cases h; rfl
      · cases h
    · intro e e' he he' h1 h2 heq
      rcases toEdge_eq heq with h | h
      · exact h
      · exfalso
        split at h1
        · rename_i c
          have := (find_none_iff fs _).1 c.2
          rw [h] at this
          simp only [opp] at this
          have := (hmem e').1 he'
          omega
        · cases h1
  · intro v w
    simp only [oneWay, List.mem_filterMap]
    constructor
    · rintro ⟨⟨⟨a, b⟩, c⟩, he, h⟩
      split at h
      · rename_i hc
        obtain ⟨rfl, hf⟩ := hc
        have hf := (find_none_iff fs _).1 hf
        obtain ⟨e1, e2⟩ := (hmem _).1 he
        simp only [opp] at hf e1 e2
        have hab : a ≠ b := by
          rintro rfl; rw [uses_irrefl] at e1; omega
        simp only [toEdge, Option.some.injEq] at h
        split at h
        · simp only [Prod.mk.injEq] at h; obtain ⟨rfl, rfl⟩ := h
          exact ⟨by omega, Or.inr ⟨hf, e1.symm⟩⟩
        · simp only [Prod.mk.injEq] at h; obtain ⟨rfl, rfl⟩ := h
          exact ⟨by omega, Or.inl ⟨e1.symm, hf⟩⟩
      · cases h
    · rintro ⟨hlt, h | h⟩
      · refine ⟨((v, w), k), (hmem _).2 ⟨h.1.symm, hk⟩, ?_⟩
        rw [if_pos ⟨rfl, (find_none_iff fs _).2 h.2⟩]
        simp only [toEdge]; rw [if_neg (by omega)]
      · refine ⟨((w, v), k), (hmem _).2 ⟨h.2.symm, hk⟩, ?_⟩
        rw [if_pos ⟨rfl, (find_none_iff fs _).2 h.1⟩]
        simp only [toEdge]; rw [if_pos (by omega)]

theorem nonManifold_spec (fs : List (Tri Nat)) {order : Counts} (hp : order.Perm (collect fs [])) :
    (nonManifoldEdges (collect fs []) order).Nodup ∧ ∀ v w, (v, w) ∈ nonManifoldEdges (collect fs []) order ↔ NonManifold fs v w := by
  have hmem : ∀ e, e ∈ order ↔ e.2 = uses fs e.1.1 e.1.2 ∧ 0 < e.2 := fun e => hp.mem_iff.trans (entry_iff fs e.1 e.2)
  constructor
  · refine nodup_filterMap_toEdge (order_keys hp) _ ?_ ?_
    · intro e x h
      dsimp only at h
      split at h
      · cases h
      · split at h
        · cases h; rfl
        · cases h
    · intro e e' he he' h1 h2 heq
      rcases toEdge_eq heq with h | h
      · exact h
      · exfalso
        obtain ⟨a1, a2⟩ := (hmem e).1 he
        obtain ⟨b1, b2⟩ := (hmem e').1 he'
        rw [h] at a1
        dsimp only at h1 h2
        split at h1
        · cases h1
        · rename_i c1
          split at h2
          · cases h2
          · rename_i c2
            rw [findD] at c1 c2
            rw [h] at c1
            simp only [opp] at c1 c2 a1
            have : e'.1.1 ≠ e'.1.2 := by
              intro hh; rw [hh, uses_irrefl] at b1; omega
            omega
  · intro v w
    simp only [nonManifoldEdges, List.mem_filterMap]
    constructor
    · rintro ⟨⟨⟨a, b⟩, c⟩, he, h⟩
      obtain ⟨e1, e2⟩ := (hmem _).1 he
      rw [findD] at h
      have h : (if a > b ∧ uses fs b a > 0 then (none : Option (Nat × Nat)) else if c + uses fs b a > 2 then some (toEdge (a, b)) else none) = some (v, w) := h
      simp only at e1 e2
      by_cases c1 : a > b ∧ uses fs b a > 0
      · rw [if_pos c1] at h; cases h
      · rw [if_neg c1] at h
        by_cases c2 : c + uses fs b a > 2
        · rw [if_pos c2] at h
          have hab : a ≠ b := by
            rintro rfl; rw [uses_irrefl] at e1; omega
          simp only [toEdge, Option.some.injEq] at h
          by_cases c3 : a > b
          · rw [if_pos c3] at h
            simp only [Prod.mk.injEq] at h; obtain ⟨rfl, rfl⟩ := h
            exact ⟨by omega, by omega⟩
          · rw [if_neg c3] at h
            simp only [Prod.mk.injEq] at h; obtain ⟨rfl, rfl⟩ := h
            exact ⟨by omega, by omega⟩
        · rw [if_neg c2] at h; cases h
    · rintro ⟨hlt, h⟩
      by_cases hz : 0 < uses fs v w
      · refine ⟨((v, w), uses fs v w), (hmem _).2 ⟨rfl, hz⟩, ?_⟩
        simp only [findD, opp, toEdge]
        rw [if_neg (by omega), if_pos (by omega), if_neg (by omega)]
      · refine ⟨((w, v), uses fs w v), (hmem _).2 ⟨rfl, by omega⟩, ?_⟩
        simp only [findD, opp, toEdge]
        rw [if_neg (by omega), if_pos (by omega), if_pos (by omega)]

/-! ### Merging and isolated vertices -/

variable {P : Type} [DecidableEq P]

theorem mergePoints_eq (ps : List P) : ∀ (l : PointList P) (map : List Nat), Good l →
    mergePoints ps l l.points map = ((l.insertAll ps).1.points, map ++ (l.insertAll ps).2) := by
  induction ps with
  | nil => intro l map _; simp [mergePoints, insertAll]
  | cons p ps ih =>
    intro l map h
    obtain ⟨g1, p1, c1⟩ := insert_good h p
    have e : (if (l.insert p).2 = l.points.length then l.points ++ [p] else l.points) = (l.insert p).1.points := by
      rcases c1 with ⟨hm, he⟩ | ⟨-, he, hid⟩
      · rw [he] at p1 ⊢
        rw [if_neg]
        intro hc
        rw [hc] at p1
        simp at p1
      · rw [if_pos hid, he]
    unfold mergePoints
    dsimp only
    rw [e, ih _ _ g1]
    simp [insertAll]

theorem mergeFaces_ok (map : List Nat) : ∀ (fs acc : List (Tri Nat)), (∀ f ∈ fs, f.a < map.length ∧ f.b < map.length ∧ f.c < map.length) →
    mergeFaces map fs acc = ok (acc ++ fs.map (fun f => f.map (fun v => (map[v]?).getD 0))) := by
  intro fs
  induction fs with
  | nil => intro acc _; simp [mergeFaces]
  | cons f fs ih =>
    intro acc h
    obtain ⟨h1, h2, h3⟩ := h f (by simp)
    simp only [mergeFaces, at!, List.getElem?_eq_getElem h1, List.getElem?_eq_getElem h2, List.getElem?_eq_getElem h3, ok_bind]
    rw [ih _ (fun g hg => h g (List.mem_cons_of_mem _ hg))]
    simp [Tri.map, List.getElem?_eq_getElem h1, List.getElem?_eq_getElem h2, List.getElem?_eq_getElem h3]

omit [DecidableEq P] in
theorem markUsed_ok : ∀ (vs : List Nat) (used : List Bool), (∀ v ∈ vs, v < used.length) →
    ∃ u, markUsed vs used = ok u ∧ u.length = used.length ∧ ∀ w, u[w]? = some true ↔ used[w]? = some true ∨ w ∈ vs := by
  intro vs
  induction vs with
  | nil => intro used _; exact ⟨used, rfl, rfl, by simp⟩
  | cons v vs ih =>
    intro used h
    have hv := h v (by simp)
    obtain ⟨u, h1, h2, h3⟩ := ih (used.set v true) (by intro w hw; simpa using h w (List.mem_cons_of_mem _ hw))
    refine ⟨u, by simp [markUsed, hv, h1], by simp [h2], ?_⟩
    intro w
    rw [h3, List.mem_cons, List.getElem?_set]
    by_cases hw : v = w
    · subst hw; simp [hv]
    · have : w ≠ v := fun e => hw e.symm
      simp [hw, this]

theorem usedLoop_ok : ∀ (fs : List (Tri Nat)) (used : List Bool), (∀ f ∈ fs, ∀ v ∈ f.toList, v < used.length) →
    ∃ u, usedLoop fs used = ok u ∧ u.length = used.length ∧ ∀ w, u[w]? = some true ↔ used[w]? = some true ∨ ∃ f ∈ fs, w ∈ f.toList := by
  intro fs
  induction fs with
  | nil => intro used _; exact ⟨used, rfl, rfl, by simp⟩
  | cons f fs ih =>
    intro used h
    obtain ⟨u, h1, h2, h3⟩ := markUsed_ok f.toList used (h f (by simp))
    obtain ⟨u', h1', h2', h3'⟩ := ih u (by intro g hg v hv; rw [h2]; exact h g (List.mem_cons_of_mem _ hg) v hv)
    refine ⟨u', by simp only [usedLoop, h1, ok_bind, h1'], by rw [h2', h2], ?_⟩
    intro w
    rw [h3', h3]
    simp only [List.mem_cons, exists_eq_or_imp]
    tauto

theorem unusedLoop_ok (used : List Bool) : ∀ (vs vis : List Nat), (∀ v ∈ vs, v < used.length) →
    unusedLoop used vs vis = ok (vis ++ vs.filter (fun v => used[v]? ≠ some true)) := by
  intro vs
  induction vs with
  | nil => intro vis _; simp [unusedLoop]
  | cons v vs ih =>
    intro vis h
    have hv := h v (by simp)
    simp only [unusedLoop, at!, List.getElem?_eq_getElem hv, ok_bind]
    rw [ih _ (fun w hw => h w (List.mem_cons_of_mem _ hw))]
    cases hu : used[v] <;> simp [List.filter_cons, List.getElem?_eq_getElem hv, hu]

theorem trivialLoop_eq : ∀ (fs : List (Tri Nat)) (k : Nat) (fis : List Nat),
    trivialLoop k fs fis = fis ++ ((List.range fs.length).filter (fun j => match fs[j]? with | some f => repeats f | none => false)).map (k + ·) := by
  intro fs
  induction fs with
  | nil => intro k fis; simp [trivialLoop]
  | cons f fs ih =>
    intro k fis
    rw [trivialLoop, ih, List.length_cons, List.range_succ_eq_map, List.filter_cons, List.filter_map]
    have c : ((fun j => match (f :: fs)[j]? with | some f => repeats f | none => false) ∘ Nat.succ) = (fun j => match fs[j]? with | some f => repeats f | none => false) := by
      funext j; simp
    rw [c]
    have d : ((k + ·) ∘ Nat.succ) = (k + 1 + ·) := by funext j; simp; omega
    cases hr : repeats f
    · simp [hr, d]
    · simp [hr, d]

end Kigumi.Defects

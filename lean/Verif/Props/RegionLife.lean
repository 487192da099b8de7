import Verif.Spec.RegionLife
import Verif.Props.SoupCache
import Verif.Props.SharedSoup

/-!
# C105: regions are values
-/
namespace Kigumi.RegionLife
open Kigumi Outcome
open Kigumi.SoupCache (Leaf CSoup makeLeaves corners)
open Kigumi.Spec.RegionLife (Vals asked Allowed Calm result)
variable {P Q C A R : Type}

theorem corners_more {ps : List P} {f : Tri Nat} {t : Tri P} (h : corners ps f = ok t) (qs : List P) : corners (ps ++ qs) f = ok t := by
  unfold corners at h ⊢
  simp only [bind_eq_ok, at!_ok] at h ⊢
  obtain ⟨a, ha, b, hb, c, hc, h⟩ := h
  have ext : ∀ {k : Nat} {x : P}, ps[k]? = some x → (ps ++ qs)[k]? = some x := fun {k x} hk => by
    rw [List.getElem?_append_left (List.getElem?_eq_some_iff.1 hk).1]; exact hk
  exact ⟨a, ext ha, b, ext hb, c, ext hc, h⟩

theorem makeLeaves_more {ps : List P} (qs : List P) : ∀ {fs : List (Tri Nat)} {i : Nat} {t : List (Leaf P)}, makeLeaves ps i fs = ok t → makeLeaves (ps ++ qs) i fs = ok t
  | [], i, t, h => h
  | f :: fs, i, t, h => by
    unfold makeLeaves at h ⊢
    simp only [bind_eq_ok] at h ⊢
    obtain ⟨x, hx, ls, hl, h⟩ := h
    exact ⟨x, corners_more hx qs, ls, makeLeaves_more qs hl, h⟩

/-- The objects have these values; indexes that are there are those of the faces, and have been asked for. -/
def Rel (u : Nat → Prop) (s : Store P) (v : Vals P) : Prop :=
  ∀ w, (s w).val = v w ∧ ∀ t, (s w).soup.tree = some t → u w ∧ makeLeaves (s w).soup.points 0 (s w).soup.faces = ok t

theorem Rel.mono {u u' : Nat → Prop} {s : Store P} {v : Vals P} (h : Rel u s v) (hu : ∀ w, u w → u' w) : Rel u' s v :=
  fun w => ⟨(h w).1, fun t ht => ⟨hu w ((h w).2 t ht).1, ((h w).2 t ht).2⟩⟩

theorem Rel.set {u u' : Nat → Prop} {s : Store P} {v : Vals P} (h : Rel u s v) (d : Nat) (o : Obj P) (x : Val P) (ho : o.val = x)
    (ht : ∀ t, o.soup.tree = some t → u' d ∧ makeLeaves o.soup.points 0 o.soup.faces = ok t) (hu : ∀ w, w ≠ d → u w → u' w) : Rel u' (upd s d o) (Spec.RegionLife.set v d x) := by
  intro w
  unfold upd Spec.RegionLife.set
  by_cases hw : w = d
  · rw [if_pos hw, if_pos hw]; subst hw; exact ⟨ho, ht⟩
  · rw [if_neg hw, if_neg hw]
    exact ⟨(h w).1, fun t k => ⟨hu w hw ((h w).2 t k).1, ((h w).2 t k).2⟩⟩

theorem Rel.index {u : Nat → Prop} {s : Store P} {v : Vals P} (h : Rel u s v) {w : Nat} (hw : u w) :
    (∃ o t, index (s w) = ok (o, t) ∧ makeLeaves (v w).points 0 (v w).faces = ok t ∧ Rel u (upd s w o) v) ∨
      (∃ m, index (s w) = exn m ∧ makeLeaves (v w).points 0 (v w).faces = exn m) ∨ ∃ m, index (s w) = ub m ∧ makeLeaves (v w).points 0 (v w).faces = ub m := by
  obtain ⟨h1, h2⟩ := h w
  have same : ∀ o : Obj P, o.val = v w → (∀ t, o.soup.tree = some t → makeLeaves o.soup.points 0 o.soup.faces = ok t) → Rel u (upd s w o) v := by
    intro o e1 e2 x
    unfold upd
    by_cases hx : x = w
    · rw [if_pos hx]; subst hx; exact ⟨e1, fun t ht => ⟨hw, e2 t ht⟩⟩
    · rw [if_neg hx]; exact h x
  have e : makeLeaves (s w).soup.points 0 (s w).soup.faces = makeLeaves (v w).points 0 (v w).faces := by rw [← h1]; rfl
  unfold RegionLife.index
  cases ht : (s w).soup.tree with
  | some t => exact .inl ⟨_, _, rfl, e ▸ (h2 t ht).2, same _ h1 fun t' ht' => (h2 t' ht').2⟩
  | none =>
    dsimp only
    rw [e]
    cases hm : makeLeaves (v w).points 0 (v w).faces with
    | ok t => exact .inl ⟨_, t, rfl, rfl, same _ h1 fun t' ht' => by cases ht'; exact e.trans hm⟩
    | exn m => exact .inr (.inl ⟨m, rfl, rfl⟩)
    | ub m => exact .inr (.inr ⟨m, rfl, rfl⟩)

theorem Rel.exec {u : Nat → Prop} {v : Vals P} {a b : Nat} (ha : u a) (hb : u b) (r : Req P R) : ∀ {s : Store P}, Rel u s v → Rel u (exec a b r s).1 v ∧ (exec a b r s).2 = result (v a) (v b) r := by
  induction r with
  | done o => intro s h; exact ⟨h, rfl⟩
  | ask second k ih =>
    intro s h
    have hw : u (if second then b else a) := by cases second <;> assumption
    have hv : (if second then v b else v a) = v (if second then b else a) := by cases second <;> rfl
    unfold RegionLife.exec Spec.RegionLife.result
    rw [hv]
    rcases h.index hw with ⟨o, t, e1, e2, e3⟩ | ⟨m, e1, e2⟩ | ⟨m, e1, e2⟩
    · rw [e1, e2]; exact ih t e3
    · rw [e1, e2]; exact ⟨h, rfl⟩
    · rw [e1, e2]; exact ⟨h, rfl⟩

/-- One operation. -/
theorem Rel.step {u : Nat → Prop} {s : Store P} {v : Vals P} (h : Rel u s v) (L : Lib P Q C A) (op : Stmt P Q C) (hop : Allowed u op) :
    (∃ s' v' o, step L s op = ok (s', o) ∧ Spec.RegionLife.step L v op = ok (v', o) ∧ Rel (asked u o op) s' v') ∨ ∃ m, step L s op = ub m ∧ Spec.RegionLife.step L v op = ub m := by
  cases op with
  | empty d => exact .inl ⟨_, _, _, rfl, rfl, h.set d _ _ rfl (fun t ht => by cases ht) fun w hw k => ⟨hw, k⟩⟩
  | full d => exact .inl ⟨_, _, _, rfl, rfl, h.set d _ _ rfl (fun t ht => by cases ht) fun w hw k => ⟨hw, k⟩⟩
  | ofSoup d ps fs =>
    left
    unfold RegionLife.step Spec.RegionLife.step
    dsimp only
    by_cases hf : fs = []
    · rw [if_pos (by rw [hf]; rfl), if_pos hf]
      exact ⟨_, _, _, rfl, rfl, h.mono fun w k => ⟨k, fun e => by cases e⟩⟩
    · rw [if_neg (fun e => hf (List.length_eq_zero_iff.1 e)), if_neg hf]
      exact ⟨_, _, _, rfl, rfl, h.set d _ _ rfl (fun t ht => by cases ht) fun w hw k => ⟨k, fun _ => hw⟩⟩
  | copyCtor d c =>
    unfold RegionLife.step Spec.RegionLife.step
    dsimp only
    by_cases hd : d = c
    · rw [if_pos hd, if_pos hd]; exact .inr ⟨_, rfl, rfl⟩
    · rw [if_neg hd, if_neg hd]
      exact .inl ⟨_, _, _, rfl, rfl, h.set d _ _ (h c).1 (fun t ht => by cases ht) fun w hw k => ⟨hw, k⟩⟩
  | copyAssign d c =>
    left
    unfold RegionLife.step Spec.RegionLife.step
    dsimp only
    by_cases hd : d = c
    · rw [if_pos hd]
      refine ⟨_, _, _, rfl, rfl, ?_⟩
      have e : Spec.RegionLife.set v d (v c) = v := by
        funext w; unfold Spec.RegionLife.set; split
        · next hw => rw [hw, hd]
        · rfl
      rw [e]
      exact h.mono fun w k => ⟨k, fun _ => hd⟩
    · rw [if_neg hd]
      exact ⟨_, _, _, rfl, rfl, h.set d _ _ (h c).1 (fun t ht => by cases ht) fun w hw k => ⟨k, fun e => absurd e hw⟩⟩
  | moveCtor d c =>
    unfold RegionLife.step Spec.RegionLife.step
    dsimp only
    by_cases hd : d = c
    · rw [if_pos hd, if_pos hd]; exact .inr ⟨_, rfl, rfl⟩
    · rw [if_neg hd, if_neg hd]
      refine .inl ⟨_, _, _, rfl, rfl, (h.set (u' := fun w => (w = d → u c) ∧ (w ≠ d → u w)) d _ _ (h c).1 (fun t ht => ⟨⟨fun _ => ((h c).2 t ht).1, fun e => absurd rfl e⟩, ((h c).2 t ht).2⟩) fun w hw k => ⟨fun e => absurd e hw, fun _ => k⟩).set c _ _ ?_ (fun t ht => by cases ht) fun w hw k => ⟨hw, k⟩⟩
      rw [← (h c).1]; rfl
  | moveAssign d c =>
    unfold RegionLife.step Spec.RegionLife.step
    dsimp only
    by_cases hd : d = c
    · rw [if_pos hd, if_pos hd]; exact .inr ⟨_, rfl, rfl⟩
    · rw [if_neg hd, if_neg hd]
      refine .inl ⟨_, _, _, rfl, rfl, (h.set (u' := fun w => (w = d → u c) ∧ (w ≠ d → u w)) d _ _ (h c).1 (fun t ht => ⟨⟨fun _ => ((h c).2 t ht).1, fun e => absurd rfl e⟩, ((h c).2 t ht).2⟩) fun w hw k => ⟨fun e => absurd e hw, fun _ => k⟩).set c _ _ ?_ (fun t ht => by cases ht) fun w hw k => ⟨hw, k⟩⟩
      rw [← (h c).1]; rfl
  | addVertex d p =>
    refine .inl ⟨_, _, _, rfl, rfl, h.set d _ _ ?_ (fun t ht => ⟨((h d).2 t ht).1, makeLeaves_more [p] ((h d).2 t ht).2⟩) fun w hw k => k⟩
    rw [← (h d).1]; rfl
  | addFace d f =>
    refine .inl ⟨_, _, _, rfl, rfl, h.set d _ _ ?_ (fun t ht => absurd ((h d).2 t ht).1 hop) fun w hw k => k⟩
    rw [← (h d).1]; rfl
  | read d k ps fs =>
    refine .inl ⟨_, _, _, rfl, rfl, h.set d _ _ ?_ (fun t ht => ⟨((h d).2 t ht).1, ?_⟩) fun w hw k => k⟩
    · rw [← (h d).1]; rfl
    · rcases hop with rfl | hop
      · show makeLeaves ((s d).soup.points ++ ps) 0 ((s d).soup.faces ++ []) = ok t
        rw [List.append_nil]
        exact makeLeaves_more ps ((h d).2 t ht).2
      · exact absurd ((h d).2 t ht).1 hop
  | query d q =>
    have h' : Rel (fun w => w = d ∨ u w) s v := h.mono fun w k => .inr k
    obtain ⟨k1, k2⟩ := h'.exec (.inl rfl) (.inl rfl) (L.query q (v d))
    unfold RegionLife.step Spec.RegionLife.step
    dsimp only
    rw [(h d).1, ← k2]
    generalize RegionLife.exec d d (L.query q (v d)) s = x at k1
    obtain ⟨s', (a | m | m)⟩ := x
    · exact .inl ⟨s', v, _, rfl, rfl, k1⟩
    · exact .inl ⟨s', v, _, rfl, rfl, k1⟩
    · exact .inr ⟨m, rfl, rfl⟩
  | combine d c a b =>
    have h' : Rel (fun w => w = a ∨ w = b ∨ u w) s v := h.mono fun w k => .inr (.inr k)
    obtain ⟨k1, k2⟩ := h'.exec (.inl rfl) (.inr (.inl rfl)) (L.combine c (v a) (v b))
    unfold RegionLife.step Spec.RegionLife.step
    dsimp only
    rw [(h a).1, (h b).1, ← k2]
    generalize RegionLife.exec a b (L.combine c (v a) (v b)) s = x at k1
    obtain ⟨s', (r | m | m)⟩ := x
    · exact .inl ⟨_, _, _, rfl, rfl, k1.set d _ _ rfl (fun t ht => by cases ht) fun w hw k => ⟨k, fun _ => hw⟩⟩
    · exact .inl ⟨s', v, _, rfl, rfl, k1.mono fun w k => ⟨k, fun e => by cases e⟩⟩
    · exact .inr ⟨m, rfl, rfl⟩

theorem Rel.run (L : Lib P Q C A) : ∀ (ops : List (Stmt P Q C)) {u : Nat → Prop} {s : Store P} {v : Vals P}, Rel u s v → Calm L u v ops →
    (∃ s' outs, run L s ops = ok (s', outs) ∧ Spec.RegionLife.run L v ops = ok (fun w => (s' w).val, outs)) ∨ ∃ m, run L s ops = ub m ∧ Spec.RegionLife.run L v ops = ub m
  | [], u, s, v, h, _ => .inl ⟨s, [], rfl, by unfold Spec.RegionLife.run; congr 2; funext w; exact (h w).1.symm⟩
  | op :: ops, u, s, v, h, hc => by
    unfold RegionLife.run Spec.RegionLife.run
    rcases h.step L op hc.1 with ⟨s', v', o, e1, e2, e3⟩ | ⟨m, e1, e2⟩
    · rw [e1, e2, ok_bind, ok_bind]
      dsimp only
      rcases Rel.run L ops e3 (hc.2 v' o e2) with ⟨s'', os, k1, k2⟩ | ⟨m, k1, k2⟩
      · rw [k1, k2]; exact .inl ⟨s'', o :: os, rfl, rfl⟩
      · rw [k1, k2]; exact .inr ⟨m, rfl, rfl⟩
    · rw [e1, e2]; exact .inr ⟨m, rfl, rfl⟩

end Kigumi.RegionLife

namespace Kigumi.Props
open Kigumi Outcome Kigumi.RegionLife
open Kigumi.SoupCache (Leaf makeLeaves)
open Kigumi.Spec.RegionLife (Vals Calm result)
variable {P Q C A : Type}

/-- Variables of a program that starts: `Region()`. -/
def freshRegions : Store P := fun _ => Obj.new ⟨.empty, [], []⟩

/-- **Regions are values.** A program in which no face is added to a region after it was asked or combined sees the same answers, the same exceptions and the same regions as if regions were values
without an index: it cannot be found out which indexes were built, kept, copied or moved. -/
theorem C105_values (L : Lib P Q C A) (ops : List (Stmt P Q C)) (hc : Calm L (fun _ => False) (fun _ => ⟨.empty, [], []⟩) ops) :
    (∃ s outs, run L freshRegions ops = ok (s, outs) ∧ Spec.RegionLife.run L (fun _ => ⟨.empty, [], []⟩) ops = ok (fun w => (s w).val, outs)) ∨
      ∃ u, run L freshRegions ops = ub u ∧ Spec.RegionLife.run L (fun _ => ⟨.empty, [], []⟩) ops = ub u :=
  Rel.run L ops (fun _ => ⟨rfl, fun t ht => by cases ht⟩) hc

theorem values_append (L : Lib P Q C A) : ∀ (pre : List (Stmt P Q C)) (op : Stmt P Q C) (v : Vals P), Spec.RegionLife.run L v (pre ++ [op]) =
    (Spec.RegionLife.run L v pre).bind fun x => (Spec.RegionLife.step L x.1 op).bind fun y => ok (y.1, x.2 ++ [y.2])
  | [], op, v => by
    show (Spec.RegionLife.step L v op >>= fun x => _) = (Spec.RegionLife.step L v op).bind _
    cases Spec.RegionLife.step L v op <;> rfl
  | o :: pre, op, v => by
    rw [List.cons_append]
    unfold Spec.RegionLife.run
    cases Spec.RegionLife.step L v o with
    | ok x =>
      rw [ok_bind, ok_bind]
      dsimp only
      rw [values_append L pre op x.1]
      cases Spec.RegionLife.run L x.1 pre with
      | ok y =>
        show (((Spec.RegionLife.step L y.1 op).bind _) >>= _) = (Spec.RegionLife.step L y.1 op).bind _
        cases Spec.RegionLife.step L y.1 op <;> rfl
      | exn m => rfl
      | ub m => rfl
    | exn m => rfl
    | ub m => rfl

section
open Geo Spec.Triangles Spec.Side Side
variable {D : Type}

/-- A value as a region. -/
def asRegion (x : Val P3) : Region P3 Unit := ⟨x.kind, ⟨x.points, x.faces, List.replicate x.faces.length ()⟩⟩

/-- The library, with `bounded_side` (Region.h:61-77): the index is asked for if the region is neither empty nor full and has faces (Side_of_triangle_soup.h:29-33). `env` is what queries of the index with these leaves do. -/
def located (env : List (Leaf P3) → Side.Env) (combine : C → Val P3 → Val P3 → Req P3 (Val P3)) : Lib P3 P3 C Bounded where
  query p x :=
    if x.kind = .empty then .done (ok .unbounded)
    else if x.kind = .full then .done (ok .bounded)
    else if x.faces = [] then .done (exn "triangle soup must not be empty")
    else .ask false fun t => .done (boundedSide (env t) (asRegion x) p)
  combine := combine

/-- Queries of indexes are right, if the leaves are numbered and proper triangles (see C83). -/
def RightIndexes (env : List (Leaf P3) → Side.Env) : Prop := ∀ t : List (Leaf P3), t.map (·.1) = List.range t.length → (∀ l ∈ t, Proper l.2) → (env t).Valid (t.map (·.2))

theorem makeLeaves_of {points : List P3} : ∀ {faces : List (Tri Nat)} {ts : List (Tri P3)} (i : Nat), Spec.HasCorners points faces ts → ∃ t, makeLeaves points i faces = ok t ∧ t.map (·.2) = ts ∧ t.map (·.1) = List.range' i t.length
  | [], ts, i, h => by cases h; exact ⟨[], rfl, rfl, rfl⟩
  | f :: fs, ts, i, h => by
    cases h with
    | @cons _ x _ ts h1 h2 =>
      obtain ⟨t, e1, e2, e3⟩ := makeLeaves_of (i + 1) h2
      refine ⟨(i, x) :: t, ?_, by rw [List.map_cons, e2], by rw [List.map_cons, e3, List.length_cons, List.range'_succ]⟩
      obtain ⟨a, b, c⟩ := h1
      unfold makeLeaves SoupCache.corners
      rw [at!_ok.2 a, at!_ok.2 b, at!_ok.2 c, e1]
      rfl

/-- **Points are located with respect to the region as it is**: at any time in such a program, whatever has been copied, moved, assigned, asked and combined before, the answer is that of `bounded_side` for the
current faces with any right index; for the boundary of a solid and points off it, it is right. -/
theorem C105_side {env : List (Leaf P3) → Side.Env} (henv : RightIndexes env) (combine : C → Val P3 → Val P3 → Req P3 (Val P3)) (pre : List (Stmt P3 P3 C)) (w : Nat) (p : P3)
    (hc : Calm (located env combine) (fun _ => False) (fun _ => ⟨.empty, [], []⟩) (pre ++ [.query w p])) {s : Store P3} {outs : List (Out Bounded)}
    (hr : run (located env combine) freshRegions (pre ++ [.query w p]) = ok (s, outs)) {ts : List (Tri P3)} (hb : WithBoundary (asRegion (s w).val) ts) (hp : ∀ t ∈ ts, Proper t) :
    ∃ before o, outs = before ++ [o] ∧
      (∀ E : Side.Env, E.Valid ts → (∀ b, o = .answer b ↔ boundedSide E (asRegion (s w).val) p = ok b) ∧ ∀ m, o = .threw m ↔ boundedSide E (asRegion (s w).val) p = exn m) ∧
      ∀ χ : P3 → Prop, Bounds ts χ → Thin ts → ¬ Surface ts p → ∀ b, o = .answer b → (b = .bounded ↔ χ p) ∧ (b = .unbounded ↔ ¬ χ p) := by
  rcases C105_values _ _ hc with ⟨s', outs', e1, e2⟩ | ⟨u, e1, -⟩
  · rw [hr] at e1
    cases e1
    rw [values_append] at e2
    cases h1 : Spec.RegionLife.run (located env combine) (fun _ => ⟨.empty, [], []⟩) pre with
    | exn m => rw [h1] at e2; cases e2
    | ub m => rw [h1] at e2; cases e2
    | ok x =>
      rw [h1] at e2
      obtain ⟨v, before⟩ := x
      change (Spec.RegionLife.step (located env combine) v (.query w p)).bind (fun y => ok (y.1, before ++ [y.2])) = _ at e2
      have hv : v w = (s w).val ∧ ∃ o, outs = before ++ [o] ∧ ((∃ b, o = .answer b ∧ result (v w) (v w) ((located env combine).query p (v w)) = ok b) ∨ ∃ m, o = .threw m ∧ result (v w) (v w) ((located env combine).query p (v w)) = exn m) := by
        unfold Spec.RegionLife.step at e2
        dsimp only at e2
        unfold Spec.RegionLife.seen at e2
        cases hq : result (v w) (v w) ((located env combine).query p (v w)) with
        | ok b =>
          rw [hq] at e2
          injection e2 with e2
          injection e2 with e3 e4
          exact ⟨congrFun e3 w, _, e4.symm, .inl ⟨b, rfl, rfl⟩⟩
        | exn m =>
          rw [hq] at e2
          injection e2 with e2
          injection e2 with e3 e4
          exact ⟨congrFun e3 w, _, e4.symm, .inr ⟨m, rfl, rfl⟩⟩
        | ub m => rw [hq] at e2; cases e2
      obtain ⟨hv, o, ho, hq⟩ := hv
      obtain ⟨t, ht1, ht2, ht3⟩ := makeLeaves_of 0 hb.2.2
      have hval : (env t).Valid ts := ht2 ▸ henv t (by rw [List.range_eq_range']; exact ht3) fun l hl => hp _ (ht2 ▸ List.mem_map_of_mem hl)
      have hres : result (v w) (v w) ((located env combine).query p (v w)) = boundedSide (env t) (asRegion (s w).val) p := by
        rw [hv]
        have hk : (s w).val.kind = .boundaryDefined := hb.1
        unfold located
        dsimp only
        rw [if_neg (by rw [hk]; decide), if_neg (by rw [hk]; decide), if_neg (show ¬ (s w).val.faces = [] from hb.2.1)]
        unfold result
        rw [if_neg (by decide), show makeLeaves (s w).val.points 0 (s w).val.faces = ok t from ht1]
        rfl
      rw [hres] at hq
      refine ⟨before, o, ho, fun E hE => ?_, fun χ hχ hth hs b hob => ?_⟩
      · rw [← C68_determined hb hval hE p]
        rcases hq with ⟨b, rfl, hq⟩ | ⟨m, rfl, hq⟩ <;> rw [hq] <;> simp [eq_comm]
      · rcases hq with ⟨b', rfl, hq⟩ | ⟨m, rfl, hq⟩
        · cases hob
          exact C12_side hb hval hp hχ hth hs hq
        · cases hob
  · rw [hr] at e1; cases e1

/-- **Regions that were moved from** keep their kind, but their boundary is empty: a region that was defined by its boundary then is neither empty nor full, and asking it throws, until it is assigned. -/
theorem C105_moved (env : List (Leaf P3) → Side.Env) (combine : C → Val P3 → Val P3 → Req P3 (Val P3)) (s : Store P3) {d c : Nat} (hd : d ≠ c) (hk : (s c).kind = .boundaryDefined) (p : P3) :
    ∃ s', step (located env combine) s (.moveCtor d c) = ok (s', .nothing) ∧ (s' d).val = (s c).val ∧ (s' c).val = ⟨.boundaryDefined, [], []⟩ ∧
      step (located env combine) s' (.query c p) = ok (s', .threw "triangle soup must not be empty") := by
  refine ⟨_, if_neg hd, ?_, ?_, ?_⟩
  · unfold upd; rw [if_neg hd, if_pos rfl]
  · unfold upd; rw [if_pos rfl]; unfold Obj.moved Obj.val; rw [hk]; rfl
  · have e : ((upd (upd s d (s c)) c (s c).moved) c).val = ⟨.boundaryDefined, [], []⟩ := by unfold upd; rw [if_pos rfl]; unfold Obj.moved Obj.val; rw [hk]; rfl
    unfold step
    dsimp only
    rw [e]
    rfl

/-! ## The condition is needed -/

/-- Exact queries: all leaves are reported. -/
def allLeaves (t : List (Leaf P3)) : Side.Env := ⟨exactHit, fun _ _ => ok (t.map (·.1)), List.insertionSort fun a b => a.1 ≤ b.1⟩

/-- Such queries are right. -/
theorem C105_consistent : RightIndexes allLeaves := by
  intro t ht hp
  have h := exactEnv_valid (ts := t.map (·.2)) fun x hx => ok_of_proper (by
    obtain ⟨l, hl, rfl⟩ := List.mem_map.1 hx
    exact hp l hl)
  have e : allLeaves t = exactEnv (t.map (·.2)).length := by unfold allLeaves exactEnv; rw [ht, List.length_map]
  rw [e]; exact h

/-- No operations. -/
def noOperation (_ : Unit) (_ _ : Val P3) : Req P3 (Val P3) := .done (exn "not used")

/-- A tetrahedron and another one. -/
def secondTetra : List P3 := [⟨10, 0, 0⟩, ⟨11, 0, 0⟩, ⟨10, 1, 0⟩, ⟨10, 0, 1⟩]
def secondFaces : List (Tri Nat) := [⟨4, 7, 6⟩, ⟨4, 5, 7⟩, ⟨4, 6, 5⟩, ⟨5, 6, 7⟩]

/-- A program: a point is located, a file with another solid is read to the same region, and a point of that is located. -/
def twice (ask : Bool) : List (Stmt P3 P3 Unit) :=
  [.ofSoup 0 tetraSolid.boundary.points tetraSolid.boundary.faces] ++ (if ask then [.query 0 ⟨3, 3, 3⟩] else []) ++ [.read 0 .boundaryDefined secondTetra secondFaces, .query 0 ⟨41 / 4, 1 / 4, 1 / 4⟩]

def outsOf {X : Type} (x : Outcome (X × List (Out Bounded))) : List (Out Bounded) := match x with
  | ok y => y.2
  | _ => []

/-- If a region was asked before, faces that are added are not found: a point inside is reported to be outside. A copy of the region gives the right answer. -/
theorem C105_needed : outsOf (run (located allLeaves noOperation) freshRegions (twice true)) = [.nothing, .answer .unbounded, .nothing, .answer .unbounded] ∧
    outsOf (Spec.RegionLife.run (located allLeaves noOperation) (fun _ => ⟨.empty, [], []⟩) (twice true)) = [.nothing, .answer .unbounded, .nothing, .answer .bounded] ∧
    outsOf (run (located allLeaves noOperation) freshRegions (twice false)) = [.nothing, .nothing, .answer .bounded] ∧
    outsOf (run (located allLeaves noOperation) freshRegions (twice true ++ [.copyCtor 1 0, .query 1 ⟨41 / 4, 1 / 4, 1 / 4⟩])) = [.nothing, .answer .unbounded, .nothing, .answer .unbounded, .nothing, .answer .bounded] := by
  decide +kernel

/-- The program that does not ask before is calm. -/
example : Calm (located allLeaves noOperation) (fun _ => False) (fun _ => ⟨.empty, [], []⟩) (twice false) := by
  refine ⟨trivial, fun s' o h => ⟨.inr fun k => ?_, fun s' o h => ⟨trivial, fun _ _ _ => trivial⟩⟩⟩
  exact k.1

/-- Vertices may be added at any time; moves take the index along. -/
example : Calm (located allLeaves noOperation) (fun _ => False) (fun _ => ⟨.empty, [], []⟩)
    [.ofSoup 0 tetraSolid.boundary.points tetraSolid.boundary.faces, .query 0 ⟨3, 3, 3⟩, .addVertex 0 ⟨9, 9, 9⟩, .moveCtor 1 0, .query 1 ⟨3, 3, 3⟩, .addFace 0 ⟨0, 1, 2⟩] := by
  refine ⟨trivial, fun _ o1 _ => ⟨trivial, fun _ o2 _ => ⟨trivial, fun _ o3 _ => ⟨trivial, fun _ o4 _ => ⟨trivial, fun _ o5 _ => ⟨?_, fun _ _ _ => trivial⟩⟩⟩⟩⟩⟩
  rintro (k | k)
  · exact absurd k (by decide)
  · exact k.1 rfl

end
end Kigumi.Props

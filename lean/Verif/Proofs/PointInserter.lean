import Verif.Model.PointInserter
import Verif.Proofs.MeetOnce
import Verif.Props.FaceFace
import Verif.Props.PointList
import Mathlib.Tactic.IntervalCases

/-!
# The inserter of intersection points, by keys
-/
namespace Kigumi.PointInserter
open Kigumi Outcome Region Spec.Triangles FaceFace Geo

/-- What determines the id. -/
inductive Key where
  | vertex (i : Nat)
  | line (k : LineKey)
  | plane (k : PlaneKey)
  deriving DecidableEq

def pair (a b : Nat) : Nat × Nat := if a > b then (b, a) else (a, b)
def sorted (a b c : Nat) : Nat × Nat × Nat :=
  let (a, b) := pair a b
  let (a, c) := pair a c
  let (b, c) := pair b c
  (a, b, c)

def lineKey (a b p q : Nat) : LineKey :=
  if (pair a b).1 > (pair p q).1 then ⟨(pair p q).1, (pair p q).2, (pair a b).1, (pair a b).2⟩ else ⟨(pair a b).1, (pair a b).2, (pair p q).1, (pair p q).2⟩
def planeKey (a b c p q : Nat) : PlaneKey := ⟨(sorted a b c).1, (sorted a b c).2.1, (sorted a b c).2.2, (pair p q).1, (pair p q).2⟩

/-- Insertion for a key. -/
def insertKey (K : Kernel) (st : State) : Key → Outcome (State × Nat)
  | .vertex i => ok (st, i)
  | .line k => match PointList.find st.lines k with
    | some id => ok (st, id)
    | none =>
      (at! st.points.points k.a).bind fun pa => (at! st.points.points k.b).bind fun pb => (at! st.points.points k.p).bind fun pp => (at! st.points.points k.q).bind fun pq =>
        ok ({ st with points := (st.points.insert (K.lineLine pa pb pp pq)).1, lines := st.lines ++ [(k, (st.points.insert (K.lineLine pa pb pp pq)).2)] }, (st.points.insert (K.lineLine pa pb pp pq)).2)
  | .plane k => match PointList.find st.planes k with
    | some id => ok (st, id)
    | none =>
      (at! st.points.points k.a).bind fun pa => (at! st.points.points k.b).bind fun pb => (at! st.points.points k.c).bind fun pc =>
        (at! st.points.points k.p).bind fun pp => (at! st.points.points k.q).bind fun pq =>
          ok ({ st with points := (st.points.insert (K.planeLine pa pb pc pp pq)).1, planes := st.planes ++ [(k, (st.points.insert (K.planeLine pa pb pc pp pq)).2)] }, (st.points.insert (K.planeLine pa pb pc pp pq)).2)

theorem line_eq (K : Kernel) (st : State) (a b p q : Nat) : insertLineLine K st a b p q = insertKey K st (.line (lineKey a b p q)) := by
  unfold insertLineLine lineKey pair insertKey
  by_cases h1 : a > b <;> by_cases h2 : p > q <;> simp only [h1, h2, if_true, if_false]
  · by_cases h3 : b > q <;> simp only [h3, if_true, if_false] <;> rfl
  · by_cases h3 : b > p <;> simp only [h3, if_true, if_false] <;> rfl
  · by_cases h3 : a > q <;> simp only [h3, if_true, if_false] <;> rfl
  · by_cases h3 : a > p <;> simp only [h3, if_true, if_false] <;> rfl

theorem plane_eq (K : Kernel) (st : State) (a b c p q : Nat) : insertPlaneLine K st a b c p q = insertKey K st (.plane (planeKey a b c p q)) := rfl

/-- A simplex by its vertices. -/
inductive Shape where
  | v (i : Nat)
  | e (i j : Nat)
  | f (i j k : Nat)
  deriving DecidableEq

def shapeOf (k0 k1 k2 : Bool) (a b c : Nat) : Option Shape :=
  match k0, k1, k2 with
  | false, false, false => none
  | true, false, false => some (.v a)
  | false, true, false => some (.v b)
  | false, false, true => some (.v c)
  | true, true, false => some (.e a b)
  | false, true, true => some (.e b c)
  | true, false, true => some (.e c a)
  | true, true, true => some (.f a b c)

def keyShape : Shape → Shape → Key
  | .v i, _ => .vertex i
  | .e _ _, .v i => .vertex i
  | .f _ _ _, .v i => .vertex i
  | .f a b c, .e p q => .plane (planeKey a b c p q)
  | .e a b, .f p q r => .plane (planeKey p q r a b)
  | .e a b, .e p q => .line (lineKey a b p q)
  | .f a b c, .f p q _ => .plane (planeKey a b c p q)

theorem code_parts : ∀ code ∈ List.range 64, inter code LF = patCode true (code.testBit 0, code.testBit 1, code.testBit 2) ∧ inter code RF = patCode false (code.testBit 3, code.testBit 4, code.testBit 5) := by
  decide +kernel

theorem insert_pat (K : Kernel) (st : State) (k0 k1 k2 l0 l1 l2 : Bool) (a b c p q r : Nat) {s t : Shape}
    (hs : shapeOf k0 k1 k2 a b c = some s) (ht : shapeOf l0 l1 l2 p q r = some t) :
    insert K st (patCode true (k0, k1, k2)) a b c (patCode false (l0, l1, l2)) p q r = insertKey K st (keyShape s t) := by
  have e := line_eq K st
  cases k0 <;> cases k1 <;> cases k2 <;> simp only [shapeOf, reduceCtorEq, Option.some.injEq] at hs <;> subst hs <;>
    cases l0 <;> cases l1 <;> cases l2 <;> simp only [shapeOf, reduceCtorEq, Option.some.injEq] at ht <;> subst ht <;>
    first | rfl | exact e _ _ _ _

theorem insert_shape (K : Kernel) (st : State) (code : Nat) (hc : code < 64) (a b c p q r : Nat) {s t : Shape}
    (hs : shapeOf (code.testBit 0) (code.testBit 1) (code.testBit 2) a b c = some s) (ht : shapeOf (code.testBit 3) (code.testBit 4) (code.testBit 5) p q r = some t) :
    insert K st (inter code LF) a b c (inter code RF) p q r = insertKey K st (keyShape s t) := by
  obtain ⟨e1, e2⟩ := code_parts code (List.mem_range.2 hc)
  rw [e1, e2]
  exact insert_pat K st _ _ _ _ _ _ a b c p q r hs ht

/-! ## The points of a simplex -/

/-- The relative interior. -/
def InShape (pts : List P3) : Shape → P3 → Prop
  | .v i, x => pts[i]? = some x
  | .e i j, x => ∃ A B, pts[i]? = some A ∧ pts[j]? = some B ∧ A ≠ B ∧ OpenSeg A B x
  | .f i j k, x => ∃ A B C, pts[i]? = some A ∧ pts[j]? = some B ∧ pts[k]? = some C ∧ dot (normal A B C) (normal A B C) ≠ 0 ∧ OpenTri A B C x

theorem normal_distinct {A B C : P3} (h : dot (normal A B C) (normal A B C) ≠ 0) : A ≠ B ∧ B ≠ C ∧ C ≠ A := by
  refine ⟨?_, ?_, ?_⟩ <;> rintro rfl <;> apply h <;> simp only [normal, dot, cross, sub] <;> ring

variable {pts : List P3} {a b c : Nat} {A B C : P3}

theorem open_none (A B C x : P3) : ¬ Open false false false A B C x := by
  rintro ⟨u, v, w, h, -, hu, hv, hw⟩
  simp only [Weight, Bool.false_eq_true, if_false] at hu hv hw
  rw [hu, hv, hw] at h; norm_num at h

theorem open_shape (ha : pts[a]? = some A) (hb : pts[b]? = some B) (hc : pts[c]? = some C) (hn : dot (normal A B C) (normal A B C) ≠ 0) {k0 k1 k2 : Bool} {s : Shape}
    (hs : shapeOf k0 k1 k2 a b c = some s) (x : P3) : Open k0 k1 k2 A B C x ↔ InShape pts s x := by
  obtain ⟨n1, n2, n3⟩ := normal_distinct hn
  have T : ∀ w : ℚ, Weight true w ↔ 0 < w := fun w => by simp [Weight]
  have F : ∀ w : ℚ, Weight false w ↔ w = 0 := fun w => by simp [Weight]
  cases k0 <;> cases k1 <;> cases k2 <;> simp only [shapeOf, reduceCtorEq, Option.some.injEq] at hs <;> subst hs <;> simp only [InShape, Open, T, F]
  · rw [hc]; constructor
    · rintro ⟨u, v, w, h, rfl, rfl, rfl, -⟩
      have : w = 1 := by linarith
      subst this; exact congrArg some (p3_ext (by simp [combo]) (by simp [combo]) (by simp [combo]))
    · rintro h; cases h
      exact ⟨0, 0, 1, by norm_num, p3_ext (by simp [combo]) (by simp [combo]) (by simp [combo]), rfl, rfl, by norm_num⟩
  · rw [hb]; constructor
    · rintro ⟨u, v, w, h, rfl, rfl, -, rfl⟩
      have : v = 1 := by linarith
      subst this; exact congrArg some (p3_ext (by simp [combo]) (by simp [combo]) (by simp [combo]))
    · rintro h; cases h
      exact ⟨0, 1, 0, by norm_num, p3_ext (by simp [combo]) (by simp [combo]) (by simp [combo]), rfl, by norm_num, rfl⟩
  · constructor
    · rintro ⟨u, v, w, h, rfl, rfl, hv, hw⟩
      exact ⟨B, C, hb, hc, n2, v, w, by linarith, hv, hw, p3_ext (by simp [combo, seg]) (by simp [combo, seg]) (by simp [combo, seg])⟩
    · rintro ⟨B', C', hb', hc', -, v, w, h, hv, hw, rfl⟩
      rw [hb] at hb'; rw [hc] at hc'; cases hb'; cases hc'
      exact ⟨0, v, w, by linarith, p3_ext (by simp [combo, seg]) (by simp [combo, seg]) (by simp [combo, seg]), rfl, hv, hw⟩
  · rw [ha]; constructor
    · rintro ⟨u, v, w, h, rfl, -, rfl, rfl⟩
      have : u = 1 := by linarith
      subst this; exact congrArg some (p3_ext (by simp [combo]) (by simp [combo]) (by simp [combo]))
    · rintro h; cases h
      exact ⟨1, 0, 0, by norm_num, p3_ext (by simp [combo]) (by simp [combo]) (by simp [combo]), by norm_num, rfl, rfl⟩
  · constructor
    · rintro ⟨u, v, w, h, rfl, hu, rfl, hw⟩
      exact ⟨C, A, hc, ha, n3, w, u, by linarith, hw, hu, p3_ext (by simp [combo, seg]; ring) (by simp [combo, seg]; ring) (by simp [combo, seg]; ring)⟩
    · rintro ⟨B', C', hb', hc', -, v, w, h, hv, hw, rfl⟩
      rw [hc] at hb'; rw [ha] at hc'; cases hb'; cases hc'
      exact ⟨w, 0, v, by linarith, p3_ext (by simp [combo, seg]; ring) (by simp [combo, seg]; ring) (by simp [combo, seg]; ring), hw, rfl, hv⟩
  · constructor
    · rintro ⟨u, v, w, h, rfl, hu, hv, rfl⟩
      exact ⟨A, B, ha, hb, n1, u, v, by linarith, hu, hv, p3_ext (by simp [combo, seg]) (by simp [combo, seg]) (by simp [combo, seg])⟩
    · rintro ⟨B', C', hb', hc', -, v, w, h, hv, hw, rfl⟩
      rw [ha] at hb'; rw [hb] at hc'; cases hb'; cases hc'
      exact ⟨v, w, 0, by linarith, p3_ext (by simp [combo, seg]) (by simp [combo, seg]) (by simp [combo, seg]), hv, hw, rfl⟩
  · constructor
    · rintro ⟨u, v, w, h, rfl, hu, hv, hw⟩
      exact ⟨A, B, C, ha, hb, hc, hn, u, v, w, h, hu, hv, hw, rfl⟩
    · rintro ⟨A', B', C', ha', hb', hc', -, u, v, w, h, hu, hv, hw, rfl⟩
      rw [ha] at ha'; rw [hb] at hb'; rw [hc] at hc'; cases ha'; cases hb'; cases hc'
      exact ⟨u, v, w, h, rfl, hu, hv, hw⟩

/-! ## The point of a key -/

/-- The lines through two pairs of points have the only common point `w`. -/
def LineAt (pts : List P3) (a b p q : Nat) (w : P3) : Prop :=
  ∃ A B P Q, pts[a]? = some A ∧ pts[b]? = some B ∧ pts[p]? = some P ∧ pts[q]? = some Q ∧ A ≠ B ∧ P ≠ Q ∧ OnlyCommon (OnLine A B) (OnLine P Q) w

def PlaneAt (pts : List P3) (a b c p q : Nat) (w : P3) : Prop :=
  ∃ A B C P Q, pts[a]? = some A ∧ pts[b]? = some B ∧ pts[c]? = some C ∧ pts[p]? = some P ∧ pts[q]? = some Q ∧ ¬ Spec.Defects.Collinear A B C ∧ P ≠ Q ∧ OnlyCommon (InPlane A B C) (OnLine P Q) w

def KeyPoint (pts : List P3) : Key → P3 → Prop
  | .vertex i, w => pts[i]? = some w
  | .line k, w => LineAt pts k.a k.b k.p k.q w
  | .plane k, w => PlaneAt pts k.a k.b k.c k.p k.q w

theorem onLine_symm {a b x : P3} (h : OnLine a b x) : OnLine b a x := by
  obtain ⟨s, t, h, rfl⟩ := h
  exact ⟨t, s, by linarith, p3_ext (by simp only []; ring) (by simp only []; ring) (by simp only []; ring)⟩

theorem only_congr {A B A' B' : P3 → Prop} {x : P3} (h : OnlyCommon A B x) (hA : ∀ y, A y ↔ A' y) (hB : ∀ y, B y ↔ B' y) : OnlyCommon A' B' x :=
  ⟨(hA x).1 h.1, (hB x).1 h.2.1, fun y h1 h2 => h.2.2 y ((hA y).2 h1) ((hB y).2 h2)⟩

theorem onLine_comm (a b x : P3) : OnLine a b x ↔ OnLine b a x := ⟨onLine_symm, onLine_symm⟩

theorem LineAt.swap1 {a b p q : Nat} {w : P3} (h : LineAt pts a b p q w) : LineAt pts b a p q w := by
  obtain ⟨A, B, P, Q, ha, hb, hp, hq, n1, n2, ho⟩ := h
  exact ⟨B, A, P, Q, hb, ha, hp, hq, Ne.symm n1, n2, only_congr ho (onLine_comm A B) (fun _ => Iff.rfl)⟩

theorem LineAt.exch {a b p q : Nat} {w : P3} (h : LineAt pts a b p q w) : LineAt pts p q a b w := by
  obtain ⟨A, B, P, Q, ha, hb, hp, hq, n1, n2, ho⟩ := h
  exact ⟨P, Q, A, B, hp, hq, ha, hb, n2, n1, ho.2.1, ho.1, fun y h1 h2 => ho.2.2 y h2 h1⟩

theorem LineAt.swap2 {a b p q : Nat} {w : P3} (h : LineAt pts a b p q w) : LineAt pts a b q p w := h.exch.swap1.exch

theorem pair_ind {R : Nat → Nat → Prop} {a b : Nat} (h1 : R a b) (h2 : R b a) : R (pair a b).1 (pair a b).2 := by
  unfold pair; split
  · exact h2
  · exact h1

theorem lineKey_point {a b p q : Nat} {w : P3} (h : LineAt pts a b p q w) : KeyPoint pts (.line (lineKey a b p q)) w := by
  have h1 : LineAt pts (pair a b).1 (pair a b).2 p q w := pair_ind (R := fun x y => LineAt pts x y p q w) h h.swap1
  have h2 : LineAt pts (pair a b).1 (pair a b).2 (pair p q).1 (pair p q).2 w := pair_ind (R := fun x y => LineAt pts (pair a b).1 (pair a b).2 x y w) h1 h1.swap2
  unfold lineKey
  split
  · exact h2.exch
  · exact h2

theorem inPlane_12 (a b c x : P3) : InPlane a b c x ↔ InPlane b a c x := by
  constructor <;> rintro ⟨u, v, w, h, rfl⟩ <;> exact ⟨v, u, w, by linarith, p3_ext (by simp only [combo]; ring) (by simp only [combo]; ring) (by simp only [combo]; ring)⟩
theorem inPlane_23 (a b c x : P3) : InPlane a b c x ↔ InPlane a c b x := by
  constructor <;> rintro ⟨u, v, w, h, rfl⟩ <;> exact ⟨u, w, v, by linarith, p3_ext (by simp only [combo]; ring) (by simp only [combo]; ring) (by simp only [combo]; ring)⟩

theorem PlaneAt.s12 {a b c p q : Nat} {w : P3} (h : PlaneAt pts a b c p q w) : PlaneAt pts b a c p q w := by
  obtain ⟨A, B, C, P, Q, ha, hb, hc, hp, hq, n1, n2, ho⟩ := h
  refine ⟨B, A, C, P, Q, hb, ha, hc, hp, hq, ?_, n2, only_congr ho (inPlane_12 A B C) (fun _ => Iff.rfl)⟩
  rintro ⟨o, d, h⟩; exact n1 ⟨o, d, fun q hq => h q (by simp at hq ⊢; tauto)⟩
theorem PlaneAt.s23 {a b c p q : Nat} {w : P3} (h : PlaneAt pts a b c p q w) : PlaneAt pts a c b p q w := by
  obtain ⟨A, B, C, P, Q, ha, hb, hc, hp, hq, n1, n2, ho⟩ := h
  refine ⟨A, C, B, P, Q, ha, hc, hb, hp, hq, ?_, n2, only_congr ho (inPlane_23 A B C) (fun _ => Iff.rfl)⟩
  rintro ⟨o, d, h⟩; exact n1 ⟨o, d, fun q hq => h q (by simp at hq ⊢; tauto)⟩
theorem PlaneAt.s13 {a b c p q : Nat} {w : P3} (h : PlaneAt pts a b c p q w) : PlaneAt pts c b a p q w := h.s12.s23.s12
theorem PlaneAt.line {a b c p q : Nat} {w : P3} (h : PlaneAt pts a b c p q w) : PlaneAt pts a b c q p w := by
  obtain ⟨A, B, C, P, Q, ha, hb, hc, hp, hq, n1, n2, ho⟩ := h
  exact ⟨A, B, C, Q, P, ha, hb, hc, hq, hp, n1, Ne.symm n2, only_congr ho (fun _ => Iff.rfl) (onLine_comm P Q)⟩

theorem sorted_ind {R : Nat → Nat → Nat → Prop} (r12 : ∀ a b c, R a b c → R b a c) (r23 : ∀ a b c, R a b c → R a c b) {a b c : Nat} (h : R a b c) : R (sorted a b c).1 (sorted a b c).2.1 (sorted a b c).2.2 := by
  have e : sorted a b c = ((pair (pair a b).1 c).1, (pair (pair a b).2 (pair (pair a b).1 c).2).1, (pair (pair a b).2 (pair (pair a b).1 c).2).2) := rfl
  rw [e]
  dsimp only
  have h1 : R (pair a b).1 (pair a b).2 c := pair_ind (R := fun x y => R x y c) h (r12 _ _ _ h)
  generalize (pair a b).1 = a' at *
  generalize (pair a b).2 = b' at *
  have h2 : R (pair a' c).1 b' (pair a' c).2 := pair_ind (R := fun x y => R x b' y) h1 (r12 _ _ _ (r23 _ _ _ (r12 _ _ _ h1)))
  generalize (pair a' c).1 = a'' at *
  generalize (pair a' c).2 = c' at *
  exact pair_ind (R := fun x y => R a'' x y) h2 (r23 _ _ _ h2)

theorem planeKey_point {a b c p q : Nat} {w : P3} (h : PlaneAt pts a b c p q w) : KeyPoint pts (.plane (planeKey a b c p q)) w := by
  have h1 : PlaneAt pts (sorted a b c).1 (sorted a b c).2.1 (sorted a b c).2.2 p q w := sorted_ind (R := fun x y z => PlaneAt pts x y z p q w) (fun _ _ _ h => h.s12) (fun _ _ _ h => h.s23) h
  exact pair_ind (R := fun x y => PlaneAt pts _ _ _ x y w) h1 h1.line

theorem collinear_normal {A B C : P3} (hn : dot (normal A B C) (normal A B C) ≠ 0) : ¬ Spec.Defects.Collinear A B C := by
  rw [← Props.collinear_iff]
  unfold Defects.collinear
  rw [decide_eq_true_eq]
  intro h
  apply hn
  unfold normal
  rw [h]; simp [dot]

theorem openSeg_line {A B x : P3} (h : OpenSeg A B x) : OnLine A B x := by
  obtain ⟨s, t, h, -, -, rfl⟩ := h; exact ⟨s, t, h, rfl⟩
theorem openTri_plane {A B C x : P3} (h : OpenTri A B C x) : InPlane A B C x := by
  obtain ⟨u, v, w, h, -, -, -, rfl⟩ := h; exact ⟨u, v, w, h, rfl⟩

theorem get_inj' {pts : List P3} (hnd : pts.Nodup) {i j : Nat} {x : P3} (h1 : pts[i]? = some x) (h2 : pts[j]? = some x) : i = j := by
  obtain ⟨l1, e1⟩ := List.getElem?_eq_some_iff.1 h1
  obtain ⟨l2, e2⟩ := List.getElem?_eq_some_iff.1 h2
  exact (List.Nodup.getElem_inj_iff hnd).1 (e1.trans e2.symm)

/-- What the pairs that meet once look like. -/
def Apart : Shape → Shape → Prop
  | .v i, .v j => i = j
  | .e a b, .e p q => a ≠ p ∧ a ≠ q ∧ b ≠ p ∧ b ≠ q
  | .f _ _ _, .f _ _ _ => False
  | _, _ => True

/-- **The key of a pair that meets once determines the point.** -/
theorem key_point (hnd : pts.Nodup) {s t : Shape} (h : MeetOnce (InShape pts s) (InShape pts t)) : ∃ w, InShape pts s w ∧ InShape pts t w ∧ KeyPoint pts (keyShape s t) w ∧ Apart s t := by
  obtain ⟨w, ⟨h1, h2⟩, hu⟩ := h
  refine ⟨w, h1, h2, ?_⟩
  cases s with
  | v i => cases t with
    | v j => exact ⟨h1, get_inj' hnd h1 h2⟩
    | e => exact ⟨h1, trivial⟩
    | f => exact ⟨h1, trivial⟩
  | e a b => cases t with
    | v j => exact ⟨h2, trivial⟩
    | e p q =>
      obtain ⟨A, B, ha, hb, hab, sx⟩ := h1
      obtain ⟨P, Q, hp, hq, hpq, tx⟩ := h2
      have hc := seg_seg hab hpq sx tx (fun y y1 y2 => hu y ⟨A, B, ha, hb, hab, y1⟩ ⟨P, Q, hp, hq, hpq, y2⟩)
      refine ⟨lineKey_point ⟨A, B, P, Q, ha, hb, hp, hq, hab, hpq, lines_once hc (openSeg_line sx) (openSeg_line tx)⟩, ?_⟩
      obtain ⟨e1, e2, e3, e4⟩ := seg_ends hc sx tx
      have ne : ∀ {i j : Nat} {X Y : P3}, pts[i]? = some X → pts[j]? = some Y → X ≠ Y → i ≠ j := by
        rintro i j X Y h1 h2 hne rfl
        rw [h1] at h2; exact hne (Option.some.inj h2)
      exact ⟨ne ha hp e1, ne ha hq e2, ne hb hp e3, ne hb hq e4⟩
    | f p q r =>
      obtain ⟨A, B, ha, hb, hab, sx⟩ := h1
      obtain ⟨P, Q, R, hp, hq, hr, hn, tx⟩ := h2
      have hc := tri_seg hn hab tx sx (fun y y1 y2 => hu y ⟨A, B, ha, hb, hab, y2⟩ ⟨P, Q, R, hp, hq, hr, hn, y1⟩)
      exact ⟨planeKey_point ⟨P, Q, R, A, B, hp, hq, hr, ha, hb, collinear_normal hn, hab, plane_line_once hc (openTri_plane tx) (openSeg_line sx)⟩, trivial⟩
  | f a b c => cases t with
    | v j => exact ⟨h2, trivial⟩
    | e p q =>
      obtain ⟨A, B, C, ha, hb, hc', hn, tx⟩ := h1
      obtain ⟨P, Q, hp, hq, hpq, sx⟩ := h2
      have hc := tri_seg hn hpq tx sx (fun y y1 y2 => hu y ⟨A, B, C, ha, hb, hc', hn, y1⟩ ⟨P, Q, hp, hq, hpq, y2⟩)
      exact ⟨planeKey_point ⟨A, B, C, P, Q, ha, hb, hc', hp, hq, collinear_normal hn, hpq, plane_line_once hc (openTri_plane tx) (openSeg_line sx)⟩, trivial⟩
    | f p q r =>
      obtain ⟨A, B, C, ha, hb, hc', hn, tx⟩ := h1
      obtain ⟨P, Q, R, hp, hq, hr, hm, sx⟩ := h2
      exact (tri_tri hn hm tx sx (fun y y1 y2 => hu y ⟨A, B, C, ha, hb, hc', hn, y1⟩ ⟨P, Q, R, hp, hq, hr, hm, y2⟩)).elim

/-! ## The same pair has the same key -/

def ids : Shape → List Nat
  | .v i => [i]
  | .e i j => [i, j]
  | .f i j k => [i, j, k]

def Proper : Shape → Prop
  | .v _ => True
  | .e i j => i ≠ j
  | .f i j k => i ≠ j ∧ j ≠ k ∧ i ≠ k

theorem pair_comm (a b : Nat) : pair a b = pair b a := by
  unfold pair
  by_cases h1 : a > b <;> by_cases h2 : b > a <;> simp only [h1, h2, if_true, if_false, Prod.mk.injEq] <;> omega

theorem sorted_12 (a b c : Nat) : sorted a b c = sorted b a c := by unfold sorted; rw [pair_comm]

theorem sorted_23 (a b c : Nat) : sorted a b c = sorted a c b := by
  unfold sorted pair
  by_cases h1 : a > b <;> by_cases h2 : a > c <;> by_cases h3 : b > c <;> by_cases h4 : c > b <;> by_cases h5 : b > a <;> by_cases h6 : c > a <;>
    (first | (exfalso; omega) | (simp only [h1, h2, h3, h4, h5, h6, if_true, if_false, Prod.mk.injEq]; done) | (simp only [h1, h2, h3, h4, h5, h6, if_true, if_false]; refine Prod.ext ?_ (Prod.ext ?_ ?_) <;> dsimp only <;> omega))

theorem lineKey_exch {a b p q : Nat} (h : a ≠ p ∧ a ≠ q ∧ b ≠ p ∧ b ≠ q) : lineKey a b p q = lineKey p q a b := by
  have hne : (pair a b).1 ≠ (pair p q).1 := by
    unfold pair; split <;> split <;> dsimp only <;> omega
  unfold lineKey
  by_cases h1 : (pair a b).1 > (pair p q).1
  · rw [if_pos h1, if_neg (by omega)]
  · rw [if_neg h1, if_pos (by omega)]

/-- Shapes with the same vertices. -/
inductive Alike : Shape → Shape → Prop where
  | v (i) : Alike (.v i) (.v i)
  | e (i j) : Alike (.e i j) (.e i j)
  | e' (i j) : Alike (.e i j) (.e j i)
  | f (i j k i' j' k') : sorted i j k = sorted i' j' k' → Alike (.f i j k) (.f i' j' k')

theorem alike {s t : Shape} (hs : Proper s) (ht : Proper t) (h : SameSet (ids s) (ids t)) : Alike s t := by
  cases s with
  | v i => cases t with
    | v j => have := (h i).1 (by simp [ids]); simp [ids] at this; subst this; exact .v i
    | e j k =>
      have h1 := (h j).2 (by simp [ids]); have h2 := (h k).2 (by simp [ids])
      simp [ids] at h1 h2; exact absurd (h1.trans h2.symm) ht
    | f j k l =>
      have h1 := (h j).2 (by simp [ids]); have h2 := (h k).2 (by simp [ids])
      simp [ids] at h1 h2; exact absurd (h1.trans h2.symm) ht.1
  | e i j => cases t with
    | v k =>
      have h1 := (h i).1 (by simp [ids]); have h2 := (h j).1 (by simp [ids])
      simp [ids] at h1 h2; exact absurd (h1.trans h2.symm) hs
    | e k l =>
      have h1 := (h i).1 (by simp [ids]); have h2 := (h j).1 (by simp [ids])
      simp [ids] at h1 h2
      unfold Proper at hs
      rcases h1 with rfl | rfl <;> rcases h2 with rfl | rfl
      · exact absurd rfl hs
      · exact .e _ _
      · exact .e' _ _
      · exact absurd rfl hs
    | f k l m =>
      obtain ⟨n1, n2, n3⟩ := ht
      have h1 := (h k).2 (by simp [ids]); have h2 := (h l).2 (by simp [ids]); have h3 := (h m).2 (by simp [ids])
      simp [ids] at h1 h2 h3
      omega
  | f i j k => cases t with
    | v l =>
      have h1 := (h i).1 (by simp [ids]); have h2 := (h j).1 (by simp [ids])
      simp [ids] at h1 h2; exact absurd (h1.trans h2.symm) hs.1
    | e l m =>
      obtain ⟨n1, n2, n3⟩ := hs
      have h1 := (h i).1 (by simp [ids]); have h2 := (h j).1 (by simp [ids]); have h3 := (h k).1 (by simp [ids])
      simp [ids] at h1 h2 h3
      omega
    | f l m n =>
      obtain ⟨n1, n2, n3⟩ := hs
      have h1 := (h i).1 (by simp [ids]); have h2 := (h j).1 (by simp [ids]); have h3 := (h k).1 (by simp [ids])
      simp [ids] at h1 h2 h3
      refine .f _ _ _ _ _ _ ?_
      rcases h1 with rfl | rfl | rfl <;> rcases h2 with rfl | rfl | rfl <;> rcases h3 with rfl | rfl | rfl <;> first
        | exact absurd rfl n1
        | exact absurd rfl n2
        | exact absurd rfl n3
        | rfl
        | exact sorted_12 _ _ _
        | exact sorted_23 _ _ _
        | exact (sorted_12 _ _ _).trans (sorted_23 _ _ _)
        | exact (sorted_23 _ _ _).trans (sorted_12 _ _ _)
        | exact ((sorted_12 _ _ _).trans (sorted_23 _ _ _)).trans (sorted_12 _ _ _)

theorem lineKey_1 (a b p q : Nat) : lineKey a b p q = lineKey b a p q := by unfold lineKey; rw [pair_comm a b]
theorem lineKey_2 (a b p q : Nat) : lineKey a b p q = lineKey a b q p := by unfold lineKey; rw [pair_comm p q]
theorem planeKey_l (a b c p q : Nat) : planeKey a b c p q = planeKey a b c q p := by unfold planeKey; rw [pair_comm p q]

theorem key_alike {s t s' t' : Shape} (h1 : Alike s s') (h2 : Alike t t') (ha : Apart s t) : keyShape s t = keyShape s' t' := by
  cases h1 <;> cases h2 <;> simp only [keyShape, Key.vertex.injEq, Key.line.injEq, Key.plane.injEq] <;> (try simp only [Apart] at ha)
  · exact lineKey_2 _ _ _ _
  · have e := ‹sorted _ _ _ = sorted _ _ _›; unfold planeKey; rw [e]
  · exact lineKey_1 _ _ _ _
  · exact (lineKey_1 _ _ _ _).trans (lineKey_2 _ _ _ _)
  · have e := ‹sorted _ _ _ = sorted _ _ _›; unfold planeKey; rw [e, pair_comm]
  · have e := ‹sorted _ _ _ = sorted _ _ _›; unfold planeKey; rw [e]
  · have e := ‹sorted _ _ _ = sorted _ _ _›; unfold planeKey; rw [e, pair_comm]

theorem key_exch {s t : Shape} (ha : Apart s t) : keyShape s t = keyShape t s := by
  cases s <;> cases t <;> simp only [keyShape, Apart] at ha ⊢
  · rw [ha]
  · rw [lineKey_exch ha]

end Kigumi.PointInserter

import Verif.Spec.Expression
import Verif.Proofs.Expressions
import Verif.Props.Crossing

/-! # C85: expressions of Boolean operations -/
namespace Kigumi.Props
open Kigumi Outcome Geo Spec.Triangles Spec.Side FaceFace Space
open Kigumi.Spec (SameTri HasCorners operandTris truth onSets RegionInv Expr)
open Kigumi.Corefine (Env Gives construct Operands both)
variable {D : Type} {reg : Nat → Region P3 D} {tris : Nat → List (Tri P3)} {χ : Nat → P3 → Prop}

/-- The result `r` of an execution of the operations of an expression on the operands `reg`, innermost operations first, each on the results of the ones before. The environments stand for what threads, sorting, CGAL, etc. do in the operation; they keep to their
contracts for its operands. -/
inductive Evaluates (reg : Nat → Region P3 D) : Expr → Region P3 D → Prop
  | leaf (i : Nat) : Evaluates reg (.leaf i) (reg i)
  | node {op : Op} {pf : Bool} {l r : Expr} {a b c : Region P3 D} {E : Env} {E' : Mix.Env} {bb : Builder P3 D} {w : Global.Warnings} : Evaluates reg l a → Evaluates reg r b →
      (∀ orig, HasCorners a.boundary.points a.boundary.faces (orig true) → HasCorners b.boundary.points b.boundary.faces (orig false) → E.Valid orig ∧ E'.Valid orig) →
      Mix.Built E' (Gives E) a b bb w → bb.run op pf = ok c → Evaluates reg (.node op pf l r) c

/-- The operands of an expression: different ones are in different places, they are solids, and no faces of different ones have a triangle in common. -/
structure Separate (reg : Nat → Region P3 D) (tris : Nat → List (Tri P3)) (χ : Nat → P3 → Prop) (is : List Nat) : Prop where
  once : is.Nodup
  solid : ∀ i ∈ is, IsSolid (reg i) (tris i) (χ i)
  apart : ∀ i ∈ is, ∀ j ∈ is, i ≠ j → NoOverlap (both (tris i) (tris j))

theorem onSets_iff {op : Op} {A B A' B' : Set P3} {x : P3} (h1 : x ∈ A ↔ x ∈ A') (h2 : x ∈ B ↔ x ∈ B') : x ∈ onSets op A B ↔ x ∈ onSets op A' B' := by
  cases op <;> simp [onSets, symmDiff, h1, h2]

/-- Boundaries that are made of parts of surfaces which do not overlap do not overlap. -/
theorem parts_apart {is js : List Nat} (h : ∀ i ∈ is, ∀ j ∈ js, NoOverlap (both (tris i) (tris j))) {ts us : List (Tri P3)} (ht : ∀ x, Surface ts x → ∃ i ∈ is, Surface (tris i) x) (hu : ∀ x, Surface us x → ∃ j ∈ js, Surface (tris j) x) :
    NoOverlap (both ts us) := by
  intro t ht' u hu' p hp hall
  obtain ⟨q, hq, p', hp', hc⟩ := Crossing.cover hp ((is.flatMap tris).product (js.flatMap tris)) (by
    intro x hx
    obtain ⟨h1, h2⟩ := hall x hx
    obtain ⟨i, hi, t', ht', h1⟩ := ht x ⟨t, ht', h1⟩
    obtain ⟨j, hj, u', hu', h2⟩ := hu x ⟨u, hu', h2⟩
    exact ⟨(t', u'), List.mem_product.2 ⟨List.mem_flatMap.2 ⟨i, hi, ht'⟩, List.mem_flatMap.2 ⟨j, hj, hu'⟩⟩, h1, h2⟩)
  obtain ⟨h1, h2⟩ := List.mem_product.1 (show (q.1, q.2) ∈ _ from hq)
  obtain ⟨i, hi, h1⟩ := List.mem_flatMap.1 h1
  obtain ⟨j, hj, h2⟩ := List.mem_flatMap.1 h2
  exact h i hi j hj q.1 h1 q.2 h2 p' hp' hc

theorem separate_left {is js : List Nat} (h : Separate reg tris χ (is ++ js)) : Separate reg tris χ is :=
  ⟨(List.nodup_append.1 h.once).1, fun i hi => h.solid i (List.mem_append_left _ hi), fun i hi j hj => h.apart i (List.mem_append_left _ hi) j (List.mem_append_left _ hj)⟩

theorem separate_right {is js : List Nat} (h : Separate reg tris χ (is ++ js)) : Separate reg tris χ js :=
  ⟨(List.nodup_append.1 h.once).2.1, fun i hi => h.solid i (List.mem_append_right _ hi), fun i hi j hj => h.apart i (List.mem_append_right _ hi) j (List.mem_append_right _ hj)⟩

theorem separate_cross {is js : List Nat} (h : Separate reg tris χ (is ++ js)) : ∀ i ∈ is, ∀ j ∈ js, NoOverlap (both (tris i) (tris j)) :=
  fun i hi j hj => h.apart i (List.mem_append_left _ hi) j (List.mem_append_right _ hj) ((List.nodup_append.1 h.once).2.2 i hi j hj)

/-- One operation on results of others. -/
theorem step_right {is js : List Nat} {A B : Set P3} (h : ∀ i ∈ is, ∀ j ∈ js, NoOverlap (both (tris i) (tris j))) {a b : Region P3 D} (ha : Denotes a (fun x => x ∈ A) fun x => ∃ i ∈ is, Surface (tris i) x)
    (hb : Denotes b (fun x => x ∈ B) fun x => ∃ j ∈ js, Surface (tris j) x) {E : Env} {E' : Mix.Env}
    (hE : ∀ orig, HasCorners a.boundary.points a.boundary.faces (orig true) → HasCorners b.boundary.points b.boundary.faces (orig false) → E.Valid orig ∧ E'.Valid orig) {bb : Builder P3 D} {w : Global.Warnings}
    (hbb : Mix.Built E' (Gives E) a b bb w) (op : Op) (pf : Bool) : w = .none ∧ ∃ c, bb.run op pf = ok c ∧ Denotes c (fun x => x ∈ onSets op A B) fun x => ∃ i ∈ is ++ js, Surface (tris i) x := by
  obtain ⟨ts, χ1, s1, sub1, ag1⟩ := ha
  obtain ⟨us, χ2, s2, sub2, ag2⟩ := hb
  obtain ⟨e1, e2⟩ := hE (both ts us) s1.corners s2.corners
  obtain ⟨hw, c, hc, vs, χ3, s3, sub3, ag3⟩ := C79_boolean (orig := both ts us) (χ := fun b => if b then χ1 else χ2) s1 s2 e1 e2 (parts_apart h sub1 sub2) hbb op pf
  have l : ∀ x, Surface ts x → ∃ i ∈ is ++ js, Surface (tris i) x := fun x hx => let ⟨i, hi, hs⟩ := sub1 x hx; ⟨i, List.mem_append_left _ hi, hs⟩
  have r : ∀ x, Surface us x → ∃ i ∈ is ++ js, Surface (tris i) x := fun x hx => let ⟨i, hi, hs⟩ := sub2 x hx; ⟨i, List.mem_append_right _ hi, hs⟩
  refine ⟨hw, c, hc, vs, χ3, s3, fun x hx => (sub3 x hx).elim (l x) (r x), fun x hx => ?_⟩
  rw [ag3 x fun k => hx (k.elim (l x) (r x))]
  refine onSets_iff (ag1 x fun ⟨i, hi, hs⟩ => hx ⟨i, List.mem_append_left _ hi, hs⟩) (ag2 x fun ⟨i, hi, hs⟩ => hx ⟨i, List.mem_append_right _ hi, hs⟩)

/-- **Expressions of Boolean operations.** Operands of any shape, as long as no faces of different ones have a triangle in common: whatever the threads do in any of the operations and whatever CGAL returns, the result of an expression is a region with a proper
boundary, made of parts of the given surfaces, which is the set that the expression denotes, apart from points of these surfaces. -/
theorem C85_expression {e : Expr} (h : Separate reg tris χ e.leaves) {r : Region P3 D} (he : Evaluates reg e r) :
    Denotes r (fun x => x ∈ e.value fun i => {x | χ i x}) fun x => ∃ i ∈ e.leaves, Surface (tris i) x := by
  induction he with
  | leaf i =>
    refine ⟨tris i, χ i, h.solid i (by simp [Expr.leaves]), fun x hx => ⟨i, by simp [Expr.leaves], hx⟩, fun x _ => Iff.rfl⟩
  | node _ _ hE hbb hr ih1 ih2 =>
    obtain ⟨-, c, hc, hd⟩ := step_right (separate_cross h) (ih1 (separate_left h)) (ih2 (separate_right h)) hE hbb _ _
    rw [hr] at hc; cases hc
    exact hd

/-- **No operation of an expression throws or gives a warning**, once its classification has returned. -/
theorem C85_runs {l r : Expr} (h : Separate reg tris χ (l.leaves ++ r.leaves)) {a b : Region P3 D} (ha : Evaluates reg l a) (hb : Evaluates reg r b) {E : Env} {E' : Mix.Env}
    (hE : ∀ orig, HasCorners a.boundary.points a.boundary.faces (orig true) → HasCorners b.boundary.points b.boundary.faces (orig false) → E.Valid orig ∧ E'.Valid orig) {bb : Builder P3 D} {w : Global.Warnings}
    (hbb : Mix.Built E' (Gives E) a b bb w) (op : Op) (pf : Bool) : w = .none ∧ ∃ c, bb.run op pf = ok c ∧ Evaluates reg (.node op pf l r) c := by
  obtain ⟨hw, c, hc, -⟩ := step_right (separate_cross h) (C85_expression (separate_left h) ha) (C85_expression (separate_right h) hb) hE hbb op pf
  exact ⟨hw, c, hc, .node ha hb hE hbb hc⟩

/-- The answers of `bounded_side` for a region that denotes a set. -/
theorem denotes_side {r : Region P3 D} {A S : P3 → Prop} (h : Denotes r A S) : ∃ ts, HasCorners r.boundary.points r.boundary.faces ts ∧ ∀ F : Side.Env, F.Valid ts → ∀ p, ¬ S p → ∀ s, Side.boundedSide F r p = ok s →
    (s = .bounded ↔ A p) ∧ (s = .unbounded ↔ ¬ A p) := by
  obtain ⟨ts, χ', hs, hsub, hag⟩ := h
  refine ⟨ts, hs.corners, fun F hF p hp s hside => ?_⟩
  rw [← hag p hp]
  have hinv := hs.inv
  have hk := hs.kind
  unfold RegionInv at hinv
  cases hkind : r.kind with
  | empty =>
    rw [(C12_empty_full p).1 hkind] at hside
    rw [hkind] at hk
    cases hside
    simp [hk p]
  | full =>
    rw [(C12_empty_full p).2 hkind] at hside
    rw [hkind] at hk
    cases hside
    simp [hk p]
  | boundaryDefined =>
    rw [hkind] at hinv
    exact C12_side ⟨hkind, hinv, hs.corners⟩ hF hs.complex.proper hs.bounds (thin_of_complex hs.complex hs.once) (fun h => hp (hsub p h)) hside

/-- **Sides of points after any number of operations**: `bounded_side` of the result tells whether a point off the given surfaces is in the set that the expression denotes, if it returns. -/
theorem C85_side {e : Expr} (h : Separate reg tris χ e.leaves) {r : Region P3 D} (he : Evaluates reg e r) : ∃ ts, HasCorners r.boundary.points r.boundary.faces ts ∧ ∀ F : Side.Env, F.Valid ts → ∀ p, (∀ i ∈ e.leaves, ¬ Surface (tris i) p) →
    ∀ s, Side.boundedSide F r p = ok s → (s = .bounded ↔ p ∈ e.value fun i => {x | χ i x}) ∧ (s = .unbounded ↔ p ∉ e.value fun i => {x | χ i x}) := by
  obtain ⟨ts, h1, h2⟩ := denotes_side (C85_expression h he)
  exact ⟨ts, h1, fun F hF p hp => h2 F hF p fun ⟨i, hi, hs⟩ => hp i hi hs⟩

/-! ## Intersections of convex operands -/

theorem meets_value {X : Type} {A : Nat → Set X} {x : X} : ∀ {e : Expr}, e.Meets → (x ∈ e.value A ↔ ∀ i ∈ e.leaves, x ∈ A i)
  | .leaf i, _ => by simp [Expr.value, Expr.leaves]
  | .node op pf l r, ⟨ho, h1, h2⟩ => by
    subst ho
    have e : (Expr.node .intersection pf l r).value A = l.value A ∩ r.value A := rfl
    rw [e, Set.mem_inter_iff, meets_value h1, meets_value h2]
    simp only [Expr.leaves, List.mem_append]
    exact ⟨fun ⟨a, b⟩ i hi => hi.elim (a i) (b i), fun h => ⟨fun i hi => h i (.inl hi), fun i hi => h i (.inr hi)⟩⟩

/-- The results of intersections of convex operands are convex. -/
theorem meets_convex {e : Expr} (hm : e.Meets) (h : Separate reg tris χ e.leaves) (hc : ∀ i ∈ e.leaves, ConvexSet fun x => χ i x ∨ Surface (tris i) x) {r : Region P3 D} (he : Evaluates reg e r) :
    ∃ ts χ', IsSolid r ts χ' ∧ (∀ x, Surface ts x → ∃ i ∈ e.leaves, Surface (tris i) x) ∧ ConvexSet fun x => χ' x ∨ Surface ts x := by
  obtain ⟨ts, χ', hs, hsub, hag⟩ := C85_expression h he
  have flat : ∀ x, Surface (e.leaves.flatMap tris) x ↔ ∃ i ∈ e.leaves, Surface (tris i) x := by
    intro x
    constructor
    · rintro ⟨t, ht, hx⟩
      obtain ⟨i, hi, ht⟩ := List.mem_flatMap.1 ht
      exact ⟨i, hi, t, ht, hx⟩
    · rintro ⟨i, hi, t, ht, hx⟩
      exact ⟨t, List.mem_flatMap.2 ⟨i, hi, ht⟩, hx⟩
  refine ⟨ts, χ', hs, hsub, Crossing.convex_of (W := e.leaves.flatMap tris) (C := fun x => ∀ i ∈ e.leaves, χ i x ∨ Surface (tris i) x) hs.complex hs.once hs.bounds ?_ (fun x hx => (flat x).2 (hsub x hx)) ?_ ?_⟩
  · intro t ht
    obtain ⟨i, hi, ht⟩ := List.mem_flatMap.1 ht
    exact Side.ok_of_proper ((h.solid i hi).complex.proper t ht)
  · intro x y z hx hy hz i hi
    exact hc i hi x y z (hx i hi) (hy i hi) hz
  · intro x hx
    rw [flat] at hx
    refine (hag x hx).trans ((meets_value hm).trans ?_)
    exact ⟨fun k i hi => .inl (k i hi), fun k i hi => (k i hi).resolve_right fun hs => hx ⟨i, hi, hs⟩⟩

/-- **Operations on intersections of convex operands return**: no execution fails. -/
theorem C85_convex {l r : Expr} (hl : l.Meets) (hr : r.Meets) (h : Separate reg tris χ (l.leaves ++ r.leaves)) (hc : ∀ i ∈ l.leaves ++ r.leaves, ConvexSet fun x => χ i x ∨ Surface (tris i) x) {a b : Region P3 D} (ha : Evaluates reg l a)
    (hb : Evaluates reg r b) {E : Env} {E' : Mix.Env}
    (hE : ∀ orig, HasCorners a.boundary.points a.boundary.faces (orig true) → HasCorners b.boundary.points b.boundary.faces (orig false) → E.Valid orig ∧ E'.Valid orig) :
    (a.kind = .boundaryDefined → b.kind = .boundaryDefined → ∀ m0 border, Gives E a.boundary b.boundary m0 border → ¬ Mix.Fails E' a.boundary b.boundary m0 border) ∧ ∃ bb w, Mix.Built E' (Gives E) a b bb w := by
  obtain ⟨ts, χ1, s1, sub1, c1⟩ := meets_convex hl (separate_left h) (fun i hi => hc i (List.mem_append_left _ hi)) ha
  obtain ⟨us, χ2, s2, sub2, c2⟩ := meets_convex hr (separate_right h) (fun i hi => hc i (List.mem_append_right _ hi)) hb
  obtain ⟨e1, e2⟩ := hE (both ts us) s1.corners s2.corners
  obtain ⟨h1, h2, -⟩ := C79_convex (orig := both ts us) (χ := both χ1 χ2) s1 s2 e1 e2 (parts_apart (separate_cross h) sub1 sub2) (by intro c; cases c; exacts [c2, c1])
  exact ⟨h1, h2⟩

/-- **The intersection of any number of convex operands**, and any operation on two such intersections, has a result. -/
theorem C85_exists {l r : Expr} (hl : l.Meets) (hr : r.Meets) (h : Separate reg tris χ (l.leaves ++ r.leaves)) (hc : ∀ i ∈ l.leaves ++ r.leaves, ConvexSet fun x => χ i x ∨ Surface (tris i) x) (op : Op) (pf : Bool) :
    ∃ c, Evaluates reg (.node op pf l r) c := by
  have join : ∀ {l r : Expr}, l.Meets → r.Meets → Separate reg tris χ (l.leaves ++ r.leaves) → (∀ i ∈ l.leaves ++ r.leaves, ConvexSet fun x => χ i x ∨ Surface (tris i) x) → (∃ a, Evaluates reg l a) → (∃ b, Evaluates reg r b) → ∀ op pf,
      ∃ c, Evaluates reg (.node op pf l r) c := by
    rintro l r hl hr h hc ⟨a, ha⟩ ⟨b, hb⟩ op pf
    obtain ⟨ts, χ1, s1, -⟩ := C85_expression (separate_left h) ha
    obtain ⟨us, χ2, s2, -⟩ := C85_expression (separate_right h) hb
    have hE : ∀ orig, HasCorners a.boundary.points a.boundary.faces (orig true) → HasCorners b.boundary.points b.boundary.faces (orig false) →
        (Corefine.exactEnv (both ts us)).Valid orig ∧ (someEnv (both ts us)).Valid orig := by
      intro orig h1 h2
      obtain rfl : orig = both ts us := by
        funext c
        cases c
        exacts [hasCorners_unique h2 s2.corners, hasCorners_unique h1 s1.corners]
      exact ⟨C74_consistent _, C70_consistent (by intro c; cases c; exacts [s2.complex.proper, s1.complex.proper])⟩
    obtain ⟨-, bb, w, hbb⟩ := C85_convex hl hr h hc ha hb hE
    obtain ⟨-, c, -, he⟩ := C85_runs h ha hb hE hbb op pf
    exact ⟨c, he⟩
  have all : ∀ {e : Expr}, e.Meets → Separate reg tris χ e.leaves → (∀ i ∈ e.leaves, ConvexSet fun x => χ i x ∨ Surface (tris i) x) → ∃ a, Evaluates reg e a := by
    intro e
    induction e with
    | leaf i => exact fun _ _ _ => ⟨_, .leaf i⟩
    | node op pf l r ihl ihr =>
      rintro ⟨-, hl, hr⟩ h hc
      exact join hl hr h hc (ihl hl (separate_left h) fun i hi => hc i (List.mem_append_left _ hi)) (ihr hr (separate_right h) fun i hi => hc i (List.mem_append_right _ hi)) op pf
  exact join hl hr h hc (all hl (separate_left h) fun i hi => hc i (List.mem_append_left _ hi)) (all hr (separate_right h) fun i hi => hc i (List.mem_append_right _ hi)) op pf

/-! ## Three tetrahedra through each other -/

def skewer : List (Tri P3) := Space.tetra ⟨-2, 1, 1⟩ ⟨-1, 3, 2⟩ ⟨-3, 2, 4⟩ ⟨11, 1, 2⟩
def threeTris : Nat → List (Tri P3)
  | 0 => block
  | 1 => needle
  | _ => skewer
def threeSolids : Nat → Region P3 Unit
  | 0 => simplex ⟨0, 0, 0⟩ ⟨8, 0, 0⟩ ⟨0, 8, 0⟩ ⟨0, 0, 8⟩
  | 1 => simplex ⟨1, 1, -3⟩ ⟨3, 2, -4⟩ ⟨2, 4, -3⟩ ⟨2, 2, 9⟩
  | _ => simplex ⟨-2, 1, 1⟩ ⟨-1, 3, 2⟩ ⟨-3, 2, 4⟩ ⟨11, 1, 2⟩
def threeExpr : Expr := .node .difference false (.node .intersection true (.leaf 0) (.leaf 1)) (.leaf 2)

theorem three_dets : 0 < det4 ⟨0, 0, 0⟩ ⟨8, 0, 0⟩ ⟨0, 8, 0⟩ ⟨0, 0, 8⟩ ∧ 0 < det4 ⟨1, 1, -3⟩ ⟨3, 2, -4⟩ ⟨2, 4, -3⟩ ⟨2, 2, 9⟩ ∧ 0 < det4 ⟨-2, 1, 1⟩ ⟨-1, 3, 2⟩ ⟨-3, 2, 4⟩ ⟨11, 1, 2⟩ := by decide +kernel

theorem three_separate : Separate threeSolids threeTris (fun i => Within (threeTris i)) [0, 1, 2] where
  once := by decide
  solid := by
    obtain ⟨h1, h2, h3⟩ := three_dets
    simp only [List.mem_cons, List.not_mem_nil, or_false]
    rintro i (rfl | rfl | rfl)
    exacts [simplex_is h1, simplex_is h2, simplex_is h3]
  apart := by
    have h : ∀ i ∈ [0, 1, 2], ∀ j ∈ [0, 1, 2], i ≠ j → ∀ t ∈ threeTris i, ∀ u ∈ threeTris j, ¬ Parallel (outward t) (outward u) := by decide +kernel
    exact fun i hi j hj hij => Crossing.of_normals (h i hi j hj hij)

/-- The points of the block and the needle that are not in the skewer: there are executions, and each of them gives this set. -/
example : (∃ r, Evaluates threeSolids threeExpr r) ∧ ∀ r, Evaluates threeSolids threeExpr r →
    Denotes r (fun x => (Within block x ∧ Within needle x) ∧ ¬ Within skewer x) fun x => ∃ i ∈ [0, 1, 2], Surface (threeTris i) x := by
  obtain ⟨h1, h2, h3⟩ := three_dets
  refine ⟨C85_exists (l := .node .intersection true (.leaf 0) (.leaf 1)) (r := .leaf 2) ⟨rfl, trivial, trivial⟩ trivial three_separate ?_ .difference false, fun r hr => C85_expression (e := threeExpr) three_separate hr⟩
  have hc : ∀ i ∈ [0, 1, 2], ConvexSet fun x => Within (threeTris i) x ∨ Surface (threeTris i) x := by
    simp only [List.mem_cons, List.not_mem_nil, or_false]
    rintro i (rfl | rfl | rfl)
    exacts [within_convexSet (tetra_convex h1), within_convexSet (tetra_convex h2), within_convexSet (tetra_convex h3)]
  exact hc

/-- One point is in all three, another one in the block and the needle only. -/
example : (Within block ⟨2, 2, 2⟩ ∧ Within needle ⟨2, 2, 2⟩ ∧ Within skewer ⟨2, 2, 2⟩) ∧ Within block ⟨2, 2, 1⟩ ∧ Within needle ⟨2, 2, 1⟩ ∧ ¬ Within skewer ⟨2, 2, 1⟩ := by
  unfold Within; decide +kernel

end Kigumi.Props

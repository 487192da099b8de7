import Verif.Proofs.Valuation
import Verif.Props.Expressions

/-! # C109: volumes are additive -/
namespace Kigumi.Props
open Kigumi Outcome Geo Spec.Triangles Spec.Side FaceFace Space
open Kigumi.Spec (HasCorners truth onSets Expr)
open Kigumi.Corefine (Env Gives both)
variable {D : Type} {reg : Nat → Region P3 D} {tris : Nat → List (Tri P3)} {χ : Nat → P3 → Prop}

open Classical in
/-- **Linear relations between sets are linear relations between volumes.** Some regions denote sets, each with a coefficient; if the coefficients of the sets that contain a point always add up to the same number, apart from points of a surface, then the volumes
with these coefficients add up to zero. -/
theorem C109_linear {X : List (Tri P3)} (hX : ∀ t ∈ X, Proper t) (l : List (ℚ × Region P3 D × Set P3)) (hl : ∀ s ∈ l, Denotes s.2.1 (fun x => x ∈ s.2.2) (Surface X)) (k : ℚ)
    (h : ∀ x, ¬ Surface X x → (l.map fun s => if x ∈ s.2.2 then s.1 else 0).sum = k) (o : P3) : (l.map fun s => s.1 * volume o s.2.1).sum = 0 := by
  have := setVolume_linear (D := D) o hX (l.map fun s => (s.1, s.2.2)) (by
    intro s hs
    obtain ⟨s', hs', rfl⟩ := List.mem_map.1 hs
    exact ⟨_, X, hX, hl s' hs'⟩) Set.univ k polyhedral_univ.1 (by
    intro x _ hx
    rw [← h x hx, covered, List.map_map]
    rfl)
  rw [polyhedral_univ.2, mul_zero, List.map_map] at this
  rw [← this]
  congr 1
  refine List.map_congr_left fun s hs => ?_
  simp only [Function.comp_apply, Set.inter_univ]
  rw [setVolume_eq hX (hl s hs)]

/-- The faces of the operands of some expressions. -/
def surfaces (tris : Nat → List (Tri P3)) (es : List Expr) : List (Tri P3) := es.flatMap fun e => e.leaves.flatMap tris

theorem surfaces_iff {es : List Expr} {x : P3} : Surface (surfaces tris es) x ↔ ∃ e ∈ es, ∃ i ∈ e.leaves, Surface (tris i) x := by
  simp only [Surface, surfaces, List.mem_flatMap]
  constructor
  · rintro ⟨t, ⟨e, he, i, hi, ht⟩, hin⟩; exact ⟨e, he, i, hi, t, ht, hin⟩
  · rintro ⟨e, he, i, hi, t, ht, hin⟩; exact ⟨t, ⟨e, he, i, hi, ht⟩, hin⟩

theorem denotes_sub {r : Region P3 D} {A S S' : P3 → Prop} (h : Denotes r A S) (hS : ∀ x, S x → S' x) : Denotes r A S' :=
  let ⟨ts, χ', h1, h2, h3⟩ := h
  ⟨ts, χ', h1, fun x hx => hS x (h2 x hx), fun x hx => h3 x fun k => hx (hS x k)⟩

open Classical in
/-- **Volumes of the results of expressions.** Any number of expressions of Boolean operations are executed, each on separate operands, whatever the threads do and whatever CGAL returns; linear relations between the sets that the expressions denote are relations between
the volumes of the results. -/
theorem C109_expressions (l : List (ℚ × Expr × Region P3 D)) (hs : ∀ s ∈ l, Separate reg tris χ s.2.1.leaves) (he : ∀ s ∈ l, Evaluates reg s.2.1 s.2.2) (k : ℚ)
    (h : ∀ x, (∀ s ∈ l, ∀ i ∈ s.2.1.leaves, ¬ Surface (tris i) x) → (l.map fun s => if x ∈ s.2.1.value (fun i => {x | χ i x}) then s.1 else 0).sum = k) (o : P3) : (l.map fun s => s.1 * volume o s.2.2).sum = 0 := by
  have := C109_linear (X := surfaces tris (l.map (·.2.1))) (by
    intro t ht
    simp only [surfaces, List.mem_flatMap, List.mem_map] at ht
    obtain ⟨e, ⟨s, hsl, rfl⟩, i, hi, ht⟩ := ht
    exact ((hs s hsl).solid i hi).complex.proper t ht) (l.map fun s => (s.1, s.2.2, s.2.1.value fun i => {x | χ i x})) (by
    intro q hq
    obtain ⟨s, hsl, rfl⟩ := List.mem_map.1 hq
    exact denotes_sub (C85_expression (hs s hsl) (he s hsl)) fun x ⟨i, hi, hx⟩ => surfaces_iff.2 ⟨_, List.mem_map.2 ⟨s, hsl, rfl⟩, i, hi, hx⟩) k (by
    intro x hx
    rw [List.map_map, ← h x fun s hsl i hi k => hx (surfaces_iff.2 ⟨_, List.mem_map.2 ⟨s, hsl, rfl⟩, i, hi, k⟩)]
    rfl) o
  rw [List.map_map] at this
  exact this

/-- **Expressions that denote the same set** have results of the same volume: the order of the operations does not matter for it, nor do the executions. -/
theorem C109_same {e e' : Expr} (hs : Separate reg tris χ e.leaves) (hs' : Separate reg tris χ e'.leaves) {r r' : Region P3 D} (he : Evaluates reg e r) (he' : Evaluates reg e' r')
    (h : ∀ x, (x ∈ e.value fun i => {x | χ i x}) ↔ x ∈ e'.value fun i => {x | χ i x}) (o : P3) : volume o r = volume o r' := by
  classical
  have := C109_expressions (reg := reg) (tris := tris) (χ := χ) [(1, e, r), (-1, e', r')] (by simp [hs, hs']) (by simp [he, he']) 0 (by
    intro x _
    have e1 := h x
    simp only [List.map_cons, List.map_nil, List.sum_cons, List.sum_nil]
    by_cases hx : x ∈ e'.value fun i => {x | χ i x}
    · rw [if_pos (e1.2 hx), if_pos hx]; ring
    · rw [if_neg (fun k => hx (e1.1 k)), if_neg hx]; ring) o
  simp only [List.map_cons, List.map_nil, List.sum_cons, List.sum_nil] at this
  linarith

theorem separate_sub {is js : List Nat} (h : Separate reg tris χ is) (hn : js.Nodup) (hj : ∀ j ∈ js, j ∈ is) : Separate reg tris χ js :=
  ⟨hn, fun i hi => h.solid i (hj i hi), fun i hi j hj' => h.apart i (hj i hi) j (hj j hj')⟩

/-- Operations on two numbered operands. -/
def two (op : Op) (pf : Bool) (i j : Nat) : Expr := .node op pf (.leaf i) (.leaf j)

/-- **Inclusion and exclusion for three operands**: seven executions, on one or two or three of the operands. -/
theorem C109_three {i j k : Nat} (h : Separate reg tris χ [i, j, k]) {pf : Fin 7 → Bool} {u ij ik jk m : Region P3 D} (hu : Evaluates reg (.node .union (pf 0) (two .union (pf 1) i j) (.leaf k)) u)
    (hij : Evaluates reg (two .intersection (pf 2) i j) ij) (hik : Evaluates reg (two .intersection (pf 3) i k) ik) (hjk : Evaluates reg (two .intersection (pf 4) j k) jk)
    (hm : Evaluates reg (.node .intersection (pf 5) (two .intersection (pf 6) i j) (.leaf k)) m) (o : P3) :
    volume o u = volume o (reg i) + volume o (reg j) + volume o (reg k) - volume o ij - volume o ik - volume o jk + volume o m := by
  classical
  have hn := h.once
  simp only [List.nodup_cons, List.mem_cons, List.not_mem_nil, or_false, not_or, List.nodup_nil, and_true, not_false_eq_true] at hn
  obtain ⟨⟨n1, n2⟩, n3⟩ := hn
  have := C109_expressions (reg := reg) (tris := tris) (χ := χ) [(1, .node .union (pf 0) (two .union (pf 1) i j) (.leaf k), u), (-1, .leaf i, reg i), (-1, .leaf j, reg j), (-1, .leaf k, reg k), (1, two .intersection (pf 2) i j, ij),
      (1, two .intersection (pf 3) i k, ik), (1, two .intersection (pf 4) j k, jk), (-1, .node .intersection (pf 5) (two .intersection (pf 6) i j) (.leaf k), m)] (by
    intro s hs
    apply separate_sub h
    all_goals
      simp only [List.mem_cons, List.not_mem_nil, or_false] at hs
      rcases hs with rfl | rfl | rfl | rfl | rfl | rfl | rfl | rfl <;> simp [Expr.leaves, two, n1, n2, n3]) (by
    intro s hs
    simp only [List.mem_cons, List.not_mem_nil, or_false] at hs
    rcases hs with rfl | rfl | rfl | rfl | rfl | rfl | rfl | rfl
    exacts [hu, .leaf i, .leaf j, .leaf k, hij, hik, hjk, hm]) 0 (by
    intro x _
    simp only [List.map_cons, List.map_nil, List.sum_cons, List.sum_nil, Expr.value, two, Op.union, Op.intersection, Op.difference, onSets, Set.mem_union, Set.mem_inter_iff, Set.mem_setOf_eq]
    by_cases h1 : χ i x <;> by_cases h2 : χ j x <;> by_cases h3 : χ k x <;> norm_num [h1, h2, h3]) o
  simp only [List.map_cons, List.map_nil, List.sum_cons, List.sum_nil] at this
  linarith

/-- **Pieces that do not overlap**: the volume of a region is the sum of the volumes of regions whose sets make it up. -/
theorem C109_pieces {X : List (Tri P3)} (hX : ∀ t ∈ X, Proper t) {r : Region P3 D} {A : Set P3} (hr : Denotes r (fun x => x ∈ A) (Surface X)) (l : List (Region P3 D × Set P3)) (hl : ∀ s ∈ l, Denotes s.1 (fun x => x ∈ s.2) (Surface X))
    (hd : ∀ x, ¬ Surface X x → l.Pairwise fun s s' => ¬ (x ∈ s.2 ∧ x ∈ s'.2)) (hu : ∀ x, ¬ Surface X x → (x ∈ A ↔ ∃ s ∈ l, x ∈ s.2)) (o : P3) : volume o r = (l.map fun s => volume o s.1).sum := by
  classical
  have := C109_linear hX ((-1, r, A) :: l.map fun s => (1, s.1, s.2)) (by
    intro s hs
    rcases List.mem_cons.1 hs with rfl | hs
    · exact hr
    · obtain ⟨s', hs', rfl⟩ := List.mem_map.1 hs
      exact hl s' hs') 0 (by
    intro x hx
    have key : ∀ l : List (Region P3 D × Set P3), (l.Pairwise fun s s' => ¬ (x ∈ s.2 ∧ x ∈ s'.2)) → (l.map fun s => if x ∈ s.2 then (1 : ℚ) else 0).sum = if ∃ s ∈ l, x ∈ s.2 then 1 else 0 := by
      intro l hd
      induction l with
      | nil => simp
      | cons s l ih =>
        rw [List.map_cons, List.sum_cons, ih (List.pairwise_cons.1 hd).2]
        by_cases hs : x ∈ s.2
        · have : ¬ ∃ s ∈ l, x ∈ s.2 := fun ⟨s', h1, h2⟩ => (List.pairwise_cons.1 hd).1 s' h1 ⟨hs, h2⟩
          rw [if_pos hs, if_neg this, if_pos ⟨s, List.mem_cons_self .., hs⟩]; ring
        · rw [if_neg hs]
          simp only [List.mem_cons, exists_eq_or_imp, hs, false_or]; ring
    simp only [List.map_cons, List.sum_cons, List.map_map, Function.comp_def]
    rw [key l (hd x hx)]
    by_cases hA : x ∈ A
    · rw [if_pos hA, if_pos ((hu x hx).1 hA)]; ring
    · rw [if_neg hA, if_neg fun k => hA ((hu x hx).2 k)]; ring) o
  simp only [List.map_cons, List.sum_cons, List.map_map, Function.comp_def, one_mul] at this
  linarith

/-! ## Three tetrahedra through each other -/

/-- The block without the needle and the skewer: the union of these two is removed, or one after the other. -/
example {r r' : Region P3 Unit} (h : Evaluates threeSolids (.node .difference false (.leaf 0) (two .union true 1 2)) r) (h' : Evaluates threeSolids (.node .difference true (two .difference false 0 2) (.leaf 1)) r') (o : P3) :
    volume o r = volume o r' := by
  refine C109_same (tris := threeTris) (χ := fun i => Within (threeTris i)) three_separate (separate_sub three_separate (by decide) (by decide)) h h' ?_ o
  intro x
  show (_ ∧ ¬ (_ ∨ _)) ↔ ((_ ∧ ¬ _) ∧ ¬ _)
  tauto

/-- The intersections exist, and their volumes are related. -/
example : (∃ r, Evaluates threeSolids threeExpr r) ∧ ∀ r m ij, Evaluates threeSolids threeExpr r → Evaluates threeSolids (.node .intersection true (two .intersection false 1 0) (.leaf 2)) m → Evaluates threeSolids (two .intersection true 0 1) ij →
    ∀ o, volume o r + volume o m = volume o ij := by
  classical
  refine ⟨?_, ?_⟩
  · obtain ⟨h1, h2, h3⟩ := three_dets
    refine C85_exists (l := .node .intersection true (.leaf 0) (.leaf 1)) (r := .leaf 2) ⟨rfl, trivial, trivial⟩ trivial three_separate ?_ .difference false
    have hc : ∀ i ∈ [0, 1, 2], ConvexSet fun x => Within (threeTris i) x ∨ Surface (threeTris i) x := by
      simp only [List.mem_cons, List.not_mem_nil, or_false]
      rintro i (rfl | rfl | rfl)
      exacts [within_convexSet (tetra_convex h1), within_convexSet (tetra_convex h2), within_convexSet (tetra_convex h3)]
    exact hc
  · intro r m ij hr hm hij o
    have := C109_expressions (tris := threeTris) (χ := fun i => Within (threeTris i)) [(1, threeExpr, r), (1, .node .intersection true (two .intersection false 1 0) (.leaf 2), m), (-1, two .intersection true 0 1, ij)] (by
      intro s hs
      apply separate_sub three_separate
      all_goals
        simp only [List.mem_cons, List.not_mem_nil, or_false] at hs
        rcases hs with rfl | rfl | rfl <;> dsimp only <;> decide) (by
      intro s hs
      simp only [List.mem_cons, List.not_mem_nil, or_false] at hs
      rcases hs with rfl | rfl | rfl
      exacts [hr, hm, hij]) 0 (by
      intro x _
      simp only [threeExpr, List.map_cons, List.map_nil, List.sum_cons, List.sum_nil, Expr.value, two, Op.union, Op.intersection, Op.difference, onSets, Set.mem_sdiff, Set.mem_inter_iff, Set.mem_setOf_eq]
      by_cases h1 : Within (threeTris 0) x <;> by_cases h2 : Within (threeTris 1) x <;> by_cases h3 : Within (threeTris 2) x <;> norm_num [h1, h2, h3]) o
    simp only [List.map_cons, List.map_nil, List.sum_cons, List.sum_nil] at this
    linarith

end Kigumi.Props

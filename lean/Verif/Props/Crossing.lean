import Verif.Props.ProgressFalse

/-! # C79: operands whose faces do not overlap -/
namespace Kigumi.Props
open Kigumi Outcome Geo Spec.Triangles Spec.Side FaceFace Space
open Kigumi.Spec (SameTri HasCorners operandTris truth onSets RegionInv)
open Kigumi.Corefine (Env Gives construct Operands both)
variable {D : Type} {E : Env} {E' : Mix.Env} {orig : Bool → List (Tri P3)} {χ : Bool → P3 → Prop} {a b : Region P3 D}

/-- **Boolean operations of solids whose faces do not overlap.** Solids of any shape, as long as no faces of different ones have a triangle in common: if the constructor of the builder returns, whatever the threads do and whatever constrained
Delaunay triangulations CGAL gives, no operation throws, and its result is the result of the operation on the two sets. -/
theorem C79_boolean (ha : IsSolid a (orig true) (χ true)) (hb : IsSolid b (orig false) (χ false)) (hE : E.Valid orig) (hE' : E'.Valid orig) (hno : NoOverlap orig) {bb : Builder P3 D} {w : Global.Warnings} (h : Mix.Built E' (Gives E) a b bb w)
    (op : Op) (pf : Bool) : w = .none ∧ ∃ r, bb.run op pf = ok r ∧ Denotes r (fun x => x ∈ onSets op {x | χ true x} {x | χ false x}) (fun x => Surface (orig true) x ∨ Surface (orig false) x) :=
  C73_boolean ha hb hE (Crossing.noFour hno) (Crossing.manifold hno ha.complex.proper) hE' h op pf

/-- **Boolean operations of convex solids whose faces do not overlap** return, with the right result: no execution fails, there is one, and every one gives the result of the operation on the two sets. -/
theorem C79_convex (ha : IsSolid a (orig true) (χ true)) (hb : IsSolid b (orig false) (χ false)) (hE : E.Valid orig) (hE' : E'.Valid orig) (hno : NoOverlap orig) (hc : ∀ c, ConvexSet fun x => χ c x ∨ Surface (orig c) x) :
    (a.kind = .boundaryDefined → b.kind = .boundaryDefined → ∀ m0 border, Gives E a.boundary b.boundary m0 border → ¬ Mix.Fails E' a.boundary b.boundary m0 border) ∧ (∃ bb w, Mix.Built E' (Gives E) a b bb w) ∧
    ∀ bb w, Mix.Built E' (Gives E) a b bb w → ∀ op pf, ∃ r, bb.run op pf = ok r ∧ Denotes r (fun x => x ∈ onSets op {x | χ true x} {x | χ false x}) (fun x => Surface (orig true) x ∨ Surface (orig false) x) :=
  C77_convex ha hb hE (Crossing.noFour hno) (Crossing.manifold hno ha.complex.proper) hE' hc

/-! ## Tetrahedra -/

/-- The solid with a given tetrahedron as its boundary. -/
def simplex (p q r s : P3) : Region P3 Unit := ⟨.boundaryDefined, ⟨[p, q, r, s], [⟨1, 2, 3⟩, ⟨0, 3, 2⟩, ⟨0, 1, 3⟩, ⟨0, 2, 1⟩], List.replicate 4 ()⟩⟩

theorem simplex_is {p q r s : P3} (h : 0 < det4 p q r s) : IsSolid (simplex p q r s) (Space.tetra p q r s) (Within (Space.tetra p q r s)) where
  inv := by simp [RegionInv, simplex]
  wf := ⟨rfl, by simp [simplex, Tri.toList]⟩
  corners := by simp [HasCorners, simplex, Space.tetra]
  complex := tetra_complex h
  once := tetra_once h.ne'
  bounds := tetra_bound h
  kind := by simp [KindSays, simplex, Space.tetra]

theorem within_convexSet {ts : List (Tri P3)} (h : Space.Convex ts) : ConvexSet fun x => Within ts x ∨ Surface ts x := by
  have e : ∀ x, (Within ts x ∨ Surface ts x) ↔ ∀ t ∈ ts, (Side.plane t).eval x ≤ 0 := by
    intro x
    constructor
    · rintro (k | k)
      · exact fun t ht => (k t ht).le
      · exact closed_of_surface h k
    · intro k
      by_cases k' : Within ts x
      · exact .inl k'
      · unfold Within at k'
        push Not at k'
        obtain ⟨t, ht, h0⟩ := k'
        exact .inr ⟨t, ht, (h t ht x).2 ⟨le_antisymm (k t ht) h0, k⟩⟩
  intro x y z hx hy hz
  rw [e] at *
  intro t ht
  obtain ⟨s, r, one, s0, r0, rfl⟩ := hz
  have : (Side.plane t).eval ⟨s * x.x + r * y.x, s * x.y + r * y.y, s * x.z + r * y.z⟩ = s * (Side.plane t).eval x + r * (Side.plane t).eval y := by
    have : s = 1 - r := by linarith
    subst this
    simp only [Side.plane, Side.Aff.eval, dot]; ring
  rw [this]
  have h1 := mul_nonpos_of_nonneg_of_nonpos s0 (hx t ht)
  have h2 := mul_nonpos_of_nonneg_of_nonpos r0 (hy t ht)
  linarith

/-- Two vectors are parallel. -/
def Parallel (u v : P3) : Prop := u.y * v.z = u.z * v.y ∧ u.z * v.x = u.x * v.z ∧ u.x * v.y = u.y * v.x
instance (u v : P3) : Decidable (Parallel u v) := inferInstanceAs (Decidable (_ ∧ _))

/-- **Any two tetrahedra without parallel faces**: whatever the threads do and whatever constrained Delaunay triangulations CGAL gives, all Boolean operations return, with the right result. -/
theorem C79_tetrahedra {p q r s p' q' r' s' : P3} (h : 0 < det4 p q r s) (h' : 0 < det4 p' q' r' s') (hpar : ∀ t ∈ Space.tetra p q r s, ∀ u ∈ Space.tetra p' q' r' s', ¬ Parallel (outward t) (outward u)) {E : Env} {E' : Mix.Env}
    (hE : E.Valid (both (Space.tetra p q r s) (Space.tetra p' q' r' s'))) (hE' : E'.Valid (both (Space.tetra p q r s) (Space.tetra p' q' r' s'))) :
    (∀ m0 border, Gives E (simplex p q r s).boundary (simplex p' q' r' s').boundary m0 border → ¬ Mix.Fails E' (simplex p q r s).boundary (simplex p' q' r' s').boundary m0 border) ∧
    (∃ bb w, Mix.Built E' (Gives E) (simplex p q r s) (simplex p' q' r' s') bb w) ∧
    ∀ bb w, Mix.Built E' (Gives E) (simplex p q r s) (simplex p' q' r' s') bb w → ∀ op pf, ∃ R, bb.run op pf = ok R ∧
      Denotes R (fun x => x ∈ onSets op {x | Within (Space.tetra p q r s) x} {x | Within (Space.tetra p' q' r' s') x}) (fun x => Surface (Space.tetra p q r s) x ∨ Surface (Space.tetra p' q' r' s') x) := by
  obtain ⟨h1, h2, h3⟩ := C79_convex (χ := fun c => Within (both (Space.tetra p q r s) (Space.tetra p' q' r' s') c)) (simplex_is h) (simplex_is h') hE hE' (Crossing.of_normals hpar) (by
    intro c
    cases c
    exacts [within_convexSet (tetra_convex h'), within_convexSet (tetra_convex h)])
  exact ⟨h1 rfl rfl, h2, h3⟩

/-! ## Two tetrahedra through each other -/

def block : List (Tri P3) := Space.tetra ⟨0, 0, 0⟩ ⟨8, 0, 0⟩ ⟨0, 8, 0⟩ ⟨0, 0, 8⟩
def needle : List (Tri P3) := Space.tetra ⟨1, 1, -3⟩ ⟨3, 2, -4⟩ ⟨2, 4, -3⟩ ⟨2, 2, 9⟩

/-- The needle goes through the block: the block without the needle. -/
example : ∃ bb w, Mix.Built (someEnv (both block needle)) (Gives (Corefine.exactEnv (both block needle))) (simplex ⟨0, 0, 0⟩ ⟨8, 0, 0⟩ ⟨0, 8, 0⟩ ⟨0, 0, 8⟩) (simplex ⟨1, 1, -3⟩ ⟨3, 2, -4⟩ ⟨2, 4, -3⟩ ⟨2, 2, 9⟩) bb w ∧
    ∃ R, bb.run .difference false = ok R ∧ Denotes R (fun x => x ∈ onSets .difference {x | Within block x} {x | Within needle x}) (fun x => Surface block x ∨ Surface needle x) := by
  have h : 0 < det4 ⟨0, 0, 0⟩ ⟨8, 0, 0⟩ ⟨0, 8, 0⟩ ⟨0, 0, 8⟩ := by decide +kernel
  have h' : 0 < det4 ⟨1, 1, -3⟩ ⟨3, 2, -4⟩ ⟨2, 4, -3⟩ ⟨2, 2, 9⟩ := by decide +kernel
  obtain ⟨-, ⟨bb, w, hb⟩, h3⟩ := C79_tetrahedra h h' (by decide +kernel) (C74_consistent _) (C70_consistent (by
    intro c
    cases c
    exacts [tetra_proper h'.ne', tetra_proper h.ne']))
  exact ⟨bb, w, hb, h3 bb w hb .difference false⟩

/-- The point `(2, 2, 1)` is in both. -/
example : Within block ⟨2, 2, 1⟩ ∧ Within needle ⟨2, 2, 1⟩ := by
  unfold Within; decide +kernel

end Kigumi.Props

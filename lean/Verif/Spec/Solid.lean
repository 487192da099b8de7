import Verif.Spec.Zone

/-!
# Regions as sets of points of space
-/
namespace Kigumi.Spec.Side
open Kigumi Kigumi.Spec Kigumi.Spec.Triangles
variable {D : Type}

/-- What a kind says about a set and the triangles of its boundary. -/
def KindSays (k : Kind) (χ : P3 → Prop) (ts : List (Tri P3)) : Prop :=
  match k with
  | .empty => ∀ x, ¬ χ x
  | .full => ∀ x, χ x
  | .boundaryDefined => ts ≠ []

/-- The region is the set `χ` with the boundary `ts`: triangles with area, which have nothing in common but vertices and edges, none of them twice, and which bound `χ`. -/
structure IsSolid (r : Region P3 D) (ts : List (Tri P3)) (χ : P3 → Prop) : Prop where
  inv : RegionInv r
  wf : r.boundary.WF
  corners : HasCorners r.boundary.points r.boundary.faces ts
  complex : Complex ts
  once : Once ts
  bounds : Bounds ts χ
  kind : KindSays r.kind χ ts

/-- The region is a set with a boundary contained in `S`, and this set is `χ`, apart from the points of `S`. -/
def Denotes (r : Region P3 D) (χ S : P3 → Prop) : Prop :=
  ∃ ts χ', IsSolid r ts χ' ∧ (∀ x, Surface ts x → S x) ∧ ∀ x, ¬ S x → (χ' x ↔ χ x)

/-- What a kind says about a set inside of the convex set `K`. -/
def KindIn (K : P3 → Prop) (k : Kind) (χ : P3 → Prop) (ts : List (Tri P3)) : Prop :=
  match k with
  | .empty => ∀ x, K x → ¬ χ x
  | .full => ∀ x, K x → χ x
  | .boundaryDefined => ts ≠ []

/-- Inside of the convex set `K`, the region is the set `χ` with the boundary `ts` (compare `IsSolid`): the surface is in `K`, apart from edges of triangles. -/
structure IsSolidIn (K : P3 → Prop) (r : Region P3 D) (ts : List (Tri P3)) (χ : P3 → Prop) : Prop where
  inv : RegionInv r
  wf : r.boundary.WF
  corners : HasCorners r.boundary.points r.boundary.faces ts
  complex : Complex ts
  once : Once ts
  within : StaysIn K ts
  bounds : BoundsIn K ts χ
  kind : KindIn K r.kind χ ts

/-- Inside of the convex set `K`, the region is a set with a boundary contained in `S`, and this set is `χ`, apart from the points of `S`. -/
def DenotesIn (K : P3 → Prop) (r : Region P3 D) (χ S : P3 → Prop) : Prop :=
  ∃ ts χ', IsSolidIn K r ts χ' ∧ (∀ x, Surface ts x → S x) ∧ ∀ x, K x → ¬ S x → (χ' x ↔ χ x)

theorem kindIn_whole {k : Kind} {χ : P3 → Prop} {ts : List (Tri P3)} : KindIn Whole k χ ts ↔ KindSays k χ ts := by
  cases k <;> simp [KindIn, KindSays, Whole]

theorem isSolidIn_whole {r : Region P3 D} {ts : List (Tri P3)} {χ : P3 → Prop} : IsSolidIn Whole r ts χ ↔ IsSolid r ts χ :=
  ⟨fun h => ⟨h.inv, h.wf, h.corners, h.complex, h.once, h.bounds.of_whole, kindIn_whole.1 h.kind⟩,
    fun h => ⟨h.inv, h.wf, h.corners, h.complex, h.once, within_whole ts, h.bounds.whole, kindIn_whole.2 h.kind⟩⟩

theorem denotesIn_whole {r : Region P3 D} {χ S : P3 → Prop} : DenotesIn Whole r χ S ↔ Denotes r χ S := by
  simp only [DenotesIn, Denotes, isSolidIn_whole, Whole, true_implies]

/-- The right tag of a triangle of one operand, where `others` are the triangles of the other operand and `χ` is its set: does the triangle coincide with one of the other operand, and if not, is it inside? -/
def RightTag (t : Tri P3) (others : List (Tri P3)) (χ : P3 → Prop) : Tag → Prop
  | .unknown => False
  | .coplanar => ∃ u ∈ others, SameTri t u
  | .opposite => ∃ u ∈ others, SameTri t.flip u
  | .interior => (∀ u ∈ others, ¬ Match t u) ∧ ∀ x, Inner t x → χ x
  | .exterior => (∀ u ∈ others, ¬ Match t u) ∧ ∀ x, Inner t x → ¬ χ x

/-- A soup of faces of two operands, cut so that they meet only in common vertices and edges, which bound two sets inside of the convex set `K`. `χ true` is the set of the first operand. -/
structure Cut (K : P3 → Prop) (m : Soup P3 (MixedData D)) (ts : List (Tri P3)) (χ : Bool → P3 → Prop) : Prop where
  data : m.data.length = m.faces.length
  corners : HasCorners m.points m.faces ts
  complex : Complex ts
  once : ∀ b, Once (operandTris ts m.data b)
  zone : Zone K
  within : StaysIn K ts
  bounds : ∀ b, BoundsIn K (operandTris ts m.data b) (χ b)

/-- The tags are right. -/
def Tagged (m : Soup P3 (MixedData D)) (ts : List (Tri P3)) (χ : Bool → P3 → Prop) : Prop :=
  ∀ x ∈ ts.zip m.data, RightTag x.1 (operandTris ts m.data (!x.2.fromLeft)) (χ (!x.2.fromLeft)) x.2.tag

end Kigumi.Spec.Side

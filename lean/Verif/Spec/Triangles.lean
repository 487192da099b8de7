import Verif.Spec.Boxes

/-!
# Triangles as point sets

Simplices of a triangle (its vertices, edges and the triangle itself) are described by the vertices they have; their points are convex combinations.
-/
namespace Kigumi.Spec.Triangles
open Kigumi.Spec

/-- A combination of three points. -/
def combo (w0 w1 w2 : ℚ) (a b c : P3) : P3 :=
  ⟨w0 * a.x + w1 * b.x + w2 * c.x, w0 * a.y + w1 * b.y + w2 * c.y, w0 * a.z + w1 * b.z + w2 * c.z⟩

/-- The weight of a vertex that takes part is positive, of another one zero. -/
def Weight (part : Bool) (w : ℚ) : Prop := if part then 0 < w else w = 0

/-- `x` is in the relative interior of the simplex with the given vertices. -/
def Open (k0 k1 k2 : Bool) (a b c x : P3) : Prop :=
  ∃ w0 w1 w2 : ℚ, w0 + w1 + w2 = 1 ∧ x = combo w0 w1 w2 a b c ∧ Weight k0 w0 ∧ Weight k1 w1 ∧ Weight k2 w2

/-- `x` is in the closed triangle. -/
def InTriangle (a b c x : P3) : Prop :=
  ∃ w0 w1 w2 : ℚ, w0 + w1 + w2 = 1 ∧ x = combo w0 w1 w2 a b c ∧ 0 ≤ w0 ∧ 0 ≤ w1 ∧ 0 ≤ w2

/-- The relative interior of a simplex given by a code whose bits `off`, `off + 1`, `off + 2` say which vertices it has. -/
def Relint (off code : Nat) (a b c x : P3) : Prop :=
  Open (code.testBit off) (code.testBit (off + 1)) (code.testBit (off + 2)) a b c x

/-- Exactly one point satisfies both. -/
def MeetOnce (A B : P3 → Prop) : Prop := ∃ x, (A x ∧ B x) ∧ ∀ y, A y → B y → y = x

/-- `x` is on the closed segment. -/
def OnSegment (a b x : P3) : Prop :=
  ∃ s t : ℚ, s + t = 1 ∧ 0 ≤ s ∧ 0 ≤ t ∧ x = ⟨s * a.x + t * b.x, s * a.y + t * b.y, s * a.z + t * b.z⟩

/-- Both points are on the same edge of a triangle. -/
def SameEdge (a b c x y : P3) : Prop :=
  (OnSegment a b x ∧ OnSegment a b y) ∨ (OnSegment b c x ∧ OnSegment b c y) ∨ (OnSegment c a x ∧ OnSegment c a y)

/-- `x` is the only point that the two simplices of a code have in common. -/
def IsCorner (a b c p q r : P3) (code : Nat) (x : P3) : Prop :=
  (Relint 0 code a b c x ∧ Relint 3 code p q r x) ∧ ∀ y, Relint 0 code a b c y → Relint 3 code p q r y → y = x

/-- The determinant of the matrix with rows `(1, p)`, `(1, q)`, `(1, r)`, `(1, s)`, expanded; its sign is the orientation of the four points. -/
def det (p q r s : P3) : ℚ :=
  (q.x - p.x) * ((r.y - p.y) * (s.z - p.z) - (r.z - p.z) * (s.y - p.y)) -
  (q.y - p.y) * ((r.x - p.x) * (s.z - p.z) - (r.z - p.z) * (s.x - p.x)) +
  (q.z - p.z) * ((r.x - p.x) * (s.y - p.y) - (r.y - p.y) * (s.x - p.x))

/-- The sign of a number. -/
def Sign (x : ℚ) (s : Int) : Prop := (0 < x ∧ s = 1) ∨ (x = 0 ∧ s = 0) ∨ (x < 0 ∧ s = -1)

end Kigumi.Spec.Triangles

import Verif.Spec.Side
import Verif.Model.RegionBuilder

/-!
# Signed volumes
-/
namespace Kigumi.Spec.Side
open Kigumi Kigumi.Spec
variable {D : Type}

/-- Six times the signed volume of the tetrahedron with the apex `o` and the base `t`; it is positive if the apex is on the inner side. -/
def cone (o : P3) (t : Tri P3) : ℚ := (t.a.x - o.x) * (outward t).x + (t.a.y - o.y) * (outward t).y + (t.a.z - o.z) * (outward t).z

/-- Six times the signed volume enclosed by triangles, summed up over tetrahedra with the apex `o`. -/
def enclosed (o : P3) (ts : List (Tri P3)) : ℚ := (ts.map (cone o)).sum

/-- The corners of the face number `f` of a soup. -/
def cornersOf (points : List P3) (f : Tri Nat) : Tri P3 := ⟨points[f.a]?.getD ⟨0, 0, 0⟩, points[f.b]?.getD ⟨0, 0, 0⟩, points[f.c]?.getD ⟨0, 0, 0⟩⟩

/-- Six times the signed volume of a region: the volume of a bounded set, minus the volume of the complement if that is bounded. -/
def volume (o : P3) (r : Region P3 D) : ℚ := enclosed o (r.boundary.faces.map (cornersOf r.boundary.points))

end Kigumi.Spec.Side

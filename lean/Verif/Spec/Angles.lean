import Verif.Spec.Boxes
import Verif.Spec.Mesh
import Verif.Model.BooleanOperator
import Mathlib.Analysis.SpecialFunctions.Trigonometric.Basic

/-! # Angles around an edge (spec)

Euclidean angles, as real numbers.
-/
namespace Kigumi.Spec

/-- `θ` is the angle, in `[0, 2π)`, of the half plane bounded by the line through `p` and `q` that contains `r`, measured counterclockwise around the direction `n = q - p` from the direction `u` (a
non-zero vector orthogonal to `n`): up to a multiple of `n`, `r - p` is a positive multiple of `cos θ · e₁ + sin θ · e₂`, where `e₁` is the unit vector in direction `u` and
`e₂` the one in direction `n × u`. -/
def AngleAround (p q u r : P3) (θ : ℝ) : Prop :=
  let nx : ℝ := q.x - p.x
  let ny : ℝ := q.y - p.y
  let nz : ℝ := q.z - p.z
  let vx : ℝ := ny * u.z - nz * u.y
  let vy : ℝ := nz * u.x - nx * u.z
  let vz : ℝ := nx * u.y - ny * u.x
  let lu : ℝ := Real.sqrt (u.x * u.x + u.y * u.y + u.z * u.z)
  let lv : ℝ := Real.sqrt (vx * vx + vy * vy + vz * vz)
  0 ≤ θ ∧ θ < 2 * Real.pi ∧ ∃ t ρ : ℝ, 0 < ρ ∧
    (r.x : ℝ) - p.x = t * nx + ρ * (Real.cos θ * (u.x / lu) + Real.sin θ * (vx / lv)) ∧
    (r.y : ℝ) - p.y = t * ny + ρ * (Real.cos θ * (u.y / lu) + Real.sin θ * (vy / lv)) ∧
    (r.z : ℝ) - p.z = t * nz + ρ * (Real.cos θ * (u.z / lu) + Real.sin θ * (vz / lv))

/-- Scalar product of `N` and the unit vector with angle `φ` around the edge `pq`. -/
noncomputable def dirDot (p q u : P3) (φ : ℝ) (N : P3) : ℝ :=
  let nx : ℝ := q.x - p.x
  let ny : ℝ := q.y - p.y
  let nz : ℝ := q.z - p.z
  let vx : ℝ := ny * u.z - nz * u.y
  let vy : ℝ := nz * u.x - nx * u.z
  let vz : ℝ := nx * u.y - ny * u.x
  let lu : ℝ := Real.sqrt (u.x * u.x + u.y * u.y + u.z * u.z)
  let lv : ℝ := Real.sqrt (vx * vx + vy * vy + vz * vz)
  (Real.cos φ * (u.x / lu) + Real.sin φ * (vx / lv)) * N.x + (Real.cos φ * (u.y / lu) + Real.sin φ * (vy / lv)) * N.y +
    (Real.cos φ * (u.z / lu) + Real.sin φ * (vz / lv)) * N.z

/-- The normal of a triangle; it points to the outer side of a face. -/
def normal (a b c : P3) : P3 :=
  ⟨(b.y - a.y) * (c.z - a.z) - (b.z - a.z) * (c.y - a.y), (b.z - a.z) * (c.x - a.x) - (b.x - a.x) * (c.z - a.z),
    (b.x - a.x) * (c.y - a.y) - (b.y - a.y) * (c.x - a.x)⟩

/-- Around the edge `pq`, the faces `l` (with their numbers) bound two regions: `In x φ` says whether one is inside the region of operand `x` when one leaves an
interior point of the edge in the direction with angle `φ`. -/
structure RegionsAround (pts : Nat → P3) (p q : Nat) (u : P3) (l : List (Nat × Tri Nat)) (owner : Nat → Bool) (In : Bool → ℝ → Bool) : Prop where
  /-- A full turn changes nothing. -/
  periodic : ∀ x φ, In x (φ + 2 * Real.pi) = In x φ
  /-- One stays inside or outside of a region unless one meets one of its faces. -/
  const : ∀ x α β, α ≤ β →
    (∀ g ∈ l, owner g.1 = x → ∀ r θ, Apex p q g.2 r → AngleAround (pts p) (pts q) u (pts r) θ → ∀ k : ℤ, ¬ (α ≤ θ + 2 * Real.pi * k ∧ θ + 2 * Real.pi * k ≤ β)) →
    In x α = In x β
  /-- Next to a face, the side its normal points to is outside of its region and the other side is inside. -/
  cross : ∀ g ∈ l, ∀ r θ, Apex p q g.2 r → AngleAround (pts p) (pts q) u (pts r) θ → ∃ ε, 0 < ε ∧ ∀ φ, |φ - θ| < ε →
    (0 < dirDot (pts p) (pts q) u φ (normal (pts g.2.a) (pts g.2.b) (pts g.2.c)) → In (owner g.1) φ = false) ∧
    (dirDot (pts p) (pts q) u φ (normal (pts g.2.a) (pts g.2.b) (pts g.2.c)) < 0 → In (owner g.1) φ = true)
  /-- Two faces in the same direction belong to different operands and have the same corners. -/
  meet : ∀ g ∈ l, ∀ h ∈ l, g.1 ≠ h.1 → ∀ r r' θ, Apex p q g.2 r → Apex p q h.2 r' → AngleAround (pts p) (pts q) u (pts r) θ →
    AngleAround (pts p) (pts q) u (pts r') θ → owner g.1 ≠ owner h.1 ∧ r = r'

/-- The right tag of the face `g` around the edge `pq`. -/
def RightTagAround (pts : Nat → P3) (p q : Nat) (u : P3) (l : List (Nat × Tri Nat)) (owner : Nat → Bool) (In : Bool → ℝ → Bool) (g : Nat × Tri Nat) : Tag → Prop
  | .unknown => False
  | .coplanar => ∃ h ∈ l, h.1 ≠ g.1 ∧ SameFace g.2 h.2
  | .opposite => ∃ h ∈ l, h.1 ≠ g.1 ∧ SameFace g.2.flip h.2
  | .interior => (∀ h ∈ l, h.1 ≠ g.1 → ¬ SameFace g.2 h.2 ∧ ¬ SameFace g.2.flip h.2) ∧
      ∃ r θ, Apex p q g.2 r ∧ AngleAround (pts p) (pts q) u (pts r) θ ∧ In (!owner g.1) θ = true
  | .exterior => (∀ h ∈ l, h.1 ≠ g.1 → ¬ SameFace g.2 h.2 ∧ ¬ SameFace g.2.flip h.2) ∧
      ∃ r θ, Apex p q g.2 r ∧ AngleAround (pts p) (pts q) u (pts r) θ ∧ In (!owner g.1) θ = false

/-- `r` is on the line through `p` and `q`. -/
def OnLine (p q r : P3) : Prop := ∃ t : ℚ, r.x - p.x = t * (q.x - p.x) ∧ r.y - p.y = t * (q.y - p.y) ∧ r.z - p.z = t * (q.z - p.z)

end Kigumi.Spec

import Verif.Proofs.Convex
import Verif.Proofs.SideOracle
import Verif.Spec.Solid

/-! # Three beams, each of which passes in front of the next, seen from the origin -/
namespace Kigumi.Space
open Kigumi Outcome Geo Spec.Triangles Spec.Side FaceFace
open Kigumi.Side (Aff plane eval_neg)

def beam1 : List (Tri P3) := tetra ⟨24, -8, 0⟩ ⟨-8, 8, 0⟩ ⟨10, 0, 1⟩ ⟨10, 0, -1⟩
def beam2 : List (Tri P3) := tetra ⟨0, 24, -8⟩ ⟨0, -8, 8⟩ ⟨1, 10, 0⟩ ⟨-1, 10, 0⟩
def beam3 : List (Tri P3) := tetra ⟨-8, 0, 24⟩ ⟨8, 0, -8⟩ ⟨0, 1, 10⟩ ⟨0, -1, 10⟩

theorem det1 : 0 < det4 ⟨24, -8, 0⟩ ⟨-8, 8, 0⟩ ⟨10, 0, 1⟩ ⟨10, 0, -1⟩ := by decide +kernel
theorem det2 : 0 < det4 ⟨0, 24, -8⟩ ⟨0, -8, 8⟩ ⟨1, 10, 0⟩ ⟨-1, 10, 0⟩ := by decide +kernel
theorem det3 : 0 < det4 ⟨-8, 0, 24⟩ ⟨8, 0, -8⟩ ⟨0, 1, 10⟩ ⟨0, -1, 10⟩ := by decide +kernel

/-- The points of a convex solid, with its surface. -/
def Closed (ts : List (Tri P3)) (x : P3) : Prop := ∀ u ∈ ts, (plane u).eval x ≤ 0

theorem closed_of_within {ts : List (Tri P3)} {x : P3} (h : Within ts x) : Closed ts x := fun u hu => (h u hu).le
theorem closed_of_surface {ts : List (Tri P3)} (hc : Convex ts) {x : P3} (h : Surface ts x) : Closed ts x := by
  obtain ⟨t, ht, hx⟩ := h
  exact ((hc t ht x).1 hx).2

theorem apart12 {x : P3} (h1 : Closed beam1 x) (h2 : Closed beam2 x) : False := by
  have a := tetra_positive det1 (f := ⟨⟨-1, -2, -4⟩, 15⟩) (by decide +kernel) (by decide +kernel) (by decide +kernel) (by decide +kernel) h1
  have b := tetra_positive det2 (f := ⟨⟨1, 2, 4⟩, -15⟩) (by decide +kernel) (by decide +kernel) (by decide +kernel) (by decide +kernel) h2
  simp only [Aff.eval, dot] at a b
  linarith
theorem apart23 {x : P3} (h1 : Closed beam2 x) (h2 : Closed beam3 x) : False := by
  have a := tetra_positive det2 (f := ⟨⟨-4, -1, -2⟩, 15⟩) (by decide +kernel) (by decide +kernel) (by decide +kernel) (by decide +kernel) h1
  have b := tetra_positive det3 (f := ⟨⟨4, 1, 2⟩, -15⟩) (by decide +kernel) (by decide +kernel) (by decide +kernel) (by decide +kernel) h2
  simp only [Aff.eval, dot] at a b
  linarith
theorem apart31 {x : P3} (h1 : Closed beam3 x) (h2 : Closed beam1 x) : False := by
  have a := tetra_positive det3 (f := ⟨⟨-2, -4, -1⟩, 15⟩) (by decide +kernel) (by decide +kernel) (by decide +kernel) (by decide +kernel) h1
  have b := tetra_positive det1 (f := ⟨⟨2, 4, 1⟩, -15⟩) (by decide +kernel) (by decide +kernel) (by decide +kernel) (by decide +kernel) h2
  simp only [Aff.eval, dot] at a b
  linarith

def beams : List (Tri P3) := (beam1 ++ beam2) ++ beam3
def beamsInside (x : P3) : Prop := (Within beam1 x ∨ Within beam2 x) ∨ Within beam3 x

theorem conv1 : Convex beam1 := tetra_convex det1
theorem conv2 : Convex beam2 := tetra_convex det2
theorem conv3 : Convex beam3 := tetra_convex det3

theorem surf12 (x : P3) : Surface beam1 x → ¬ Surface beam2 x := fun h h' => apart12 (closed_of_surface conv1 h) (closed_of_surface conv2 h')
theorem surf123 (x : P3) : Surface (beam1 ++ beam2) x → ¬ Surface beam3 x := fun h h' => by
  rcases surface_append.1 h with h | h
  · exact apart31 (closed_of_surface conv3 h') (closed_of_surface conv1 h)
  · exact apart23 (closed_of_surface conv2 h) (closed_of_surface conv3 h')

theorem beams_complex : Complex beams := complex_append (complex_append (tetra_complex det1) (tetra_complex det2) surf12) (tetra_complex det3) surf123
theorem beams_once : Once beams := once_append (once_append (tetra_once det1.ne') (tetra_once det2.ne') surf12) (tetra_once det3.ne') surf123
theorem beams_bounds : Spec.Side.Bounds beams beamsInside := by
  have h12 := complex_append (tetra_complex det1) (tetra_complex det2) surf12
  refine bounds_append h12.proper (tetra_proper det3.ne') (bounds_append (tetra_proper det1.ne') (tetra_proper det2.ne') (tetra_bound det1) (tetra_bound det2) surf12 ?_ ?_) (tetra_bound det3) surf123 ?_ ?_
  · exact fun x h h' => apart12 (closed_of_surface conv1 h) (closed_of_within h')
  · exact fun x h h' => apart12 (closed_of_within h') (closed_of_surface conv2 h)
  · intro x h h'
    rcases surface_append.1 h with h | h
    · exact apart31 (closed_of_within h') (closed_of_surface conv1 h)
    · exact apart23 (closed_of_surface conv2 h) (closed_of_within h')
  · rintro x h (h' | h')
    · exact apart31 (closed_of_surface conv3 h) (closed_of_within h')
    · exact apart23 (closed_of_within h') (closed_of_surface conv3 h)

/-- The three beams. -/
def beamsRegion : Region P3 Unit := ⟨.boundaryDefined, ⟨[⟨24, -8, 0⟩, ⟨-8, 8, 0⟩, ⟨10, 0, 1⟩, ⟨10, 0, -1⟩, ⟨0, 24, -8⟩, ⟨0, -8, 8⟩, ⟨1, 10, 0⟩, ⟨-1, 10, 0⟩, ⟨-8, 0, 24⟩, ⟨8, 0, -8⟩, ⟨0, 1, 10⟩, ⟨0, -1, 10⟩],
  [⟨1, 2, 3⟩, ⟨0, 3, 2⟩, ⟨0, 1, 3⟩, ⟨0, 2, 1⟩, ⟨5, 6, 7⟩, ⟨4, 7, 6⟩, ⟨4, 5, 7⟩, ⟨4, 6, 5⟩, ⟨9, 10, 11⟩, ⟨8, 11, 10⟩, ⟨8, 9, 11⟩, ⟨8, 10, 9⟩], List.replicate 12 ()⟩⟩

theorem beams_ties : Side.sideOf (Side.exactEnv 12) beamsRegion.boundary ⟨0, 0, 0⟩ = exn "cannot determine the side of the point" := by decide +kernel

end Kigumi.Space

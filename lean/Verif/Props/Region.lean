import Verif.Model.TriangleRegion
import Verif.Spec.Simplex
import Verif.Tactics

/-! # C36: simplex codes form a faithful lattice -/
namespace Kigumi.Props
open Kigumi Outcome Region Spec.Simplex

/-- Join and meet compute union and intersection of the vertex sets, for all codes. -/
theorem C36_join_meet (r s k : Nat) :
    (Has (hull r s) k ↔ Has r k ∨ Has s k) ∧ (Has (inter r s) k ↔ Has r k ∧ Has s k) := by
  simp [Has, hull, inter, Nat.testBit_or, Nat.testBit_and]

example : Has (hull 3 8) 3 ∧ ¬ Has (inter 3 6) 0 := by decide

/-- Joining a left and a right simplex and projecting back recovers both; so the join is injective. -/
theorem C36_project {l r : Nat} (hl : l < 256) (hr : r < 256) (hL : InLeft l) (hR : InRight r) :
    inter (hull l r) LF = l ∧ inter (hull l r) RF = r := by
  have h1 : ∀ l, l < 256 → InLeft l → l < 8 := by decide +kernel
  have h2 : ∀ r, r < 256 → InRight r → r % 8 = 0 ∧ r < 64 := by decide +kernel
  have hl' := h1 l hl hL
  obtain ⟨hr1, hr2⟩ := h2 r hr hR
  have h3 : ∀ l : Nat, l < 8 → ∀ r : Nat, r < 8 → inter (hull l (8 * r)) LF = l ∧ inter (hull l (8 * r)) RF = 8 * r := by decide
  have hk : r = 8 * (r / 8) := by omega
  have := h3 l hl' (r / 8) (by omega)
  rwa [← hk] at this

theorem C36_join_injective {l r l' r' : Nat} (hl : l < 256) (hr : r < 256) (hl' : l' < 256) (hr' : r' < 256)
    (hL : InLeft l) (hR : InRight r) (hL' : InLeft l') (hR' : InRight r') (h : hull l r = hull l' r') :
    l = l' ∧ r = r' := by
  have h1 := C36_project hl hr hL hR
  have h2 := C36_project hl' hr' hL' hR'
  rw [h] at h1
  exact ⟨h1.1.symm.trans h2.1, h1.2.symm.trans h2.2⟩

example : inter (hull LE12 RV2) LF = LE12 ∧ inter (hull LE12 RV2) RF = RV2 :=
  C36_project (by decide) (by decide) (by decide) (by decide)

/-- The dimension of a code is one less than the number of its vertices if the code is a simplex; every other code is
rejected. -/
theorem C36_dimension (c : Nat) (hc : c < 256) :
    (IsSimplex c → ∃ d, dimension c = ok d ∧ d + 1 = size c) ∧
    (¬ IsSimplex c → dimension c = exn "the region must be a simplex") := by
  have h : ∀ c, c < 256 → (IsSimplex c → dimension c = ok (size c - 1) ∧ 0 < size c) ∧
    (¬ IsSimplex c → dimension c = exn "the region must be a simplex") := by decide +kernel
  refine ⟨fun hs => ⟨_, ((h c hc).1 hs).1, ?_⟩, (h c hc).2⟩
  have := ((h c hc).1 hs).2
  omega

example : IsSimplex RE20 ∧ ¬ IsSimplex 9 ∧ ¬ IsSimplex 0 ∧ ¬ IsSimplex 64 := by decide

/-- `edge_vertices` returns the start and end vertex (in cyclic order) of exactly the codes with two vertices of one
triangle, and rejects all others. -/
theorem C36_edge_vertices (c : Nat) (hc : c < 256) :
    (IsSimplex c ∧ size c = 2 → ∃ k, k < 6 ∧ edgeVertices c = ok (single k, single (nextV k)) ∧
      c = hull (single k) (single (nextV k))) ∧
    (¬ (IsSimplex c ∧ size c = 2) → edgeVertices c = exn "the region must be an edge") := by
  have h : ∀ c, c < 256 → (IsSimplex c ∧ size c = 2 → ∃ k, k < 6 ∧ edgeVertices c = ok (single k, single (nextV k)) ∧
      c = hull (single k) (single (nextV k))) ∧
    (¬ (IsSimplex c ∧ size c = 2) → edgeVertices c = exn "the region must be an edge") := by decide +kernel
  exact h c hc

example : edgeVertices RE20 = ok (single 5, single 3) := by decide

/-- The edges and vertices of the two face codes, in cyclic order: the i-th edge runs from the i-th to the next vertex;
every other code is rejected. -/
theorem C36_faces (c : Nat) (hc : c < 256) :
    (IsSimplex c ∧ size c = 3 → ∃ v0 v1 v2, faceVertices c = ok (v0, v1, v2) ∧
      faceEdges c = ok (hull v0 v1, hull v1 v2, hull v2 v0) ∧ c = hull (hull v0 v1) v2 ∧
      edgeVertices (hull v0 v1) = ok (v0, v1) ∧ edgeVertices (hull v1 v2) = ok (v1, v2) ∧
      edgeVertices (hull v2 v0) = ok (v2, v0)) ∧
    (¬ (IsSimplex c ∧ size c = 3) → faceVertices c = exn "the region must be a face" ∧
      faceEdges c = exn "the region must be a face") := by
  have h1 : ∀ c, c < 256 → IsSimplex c ∧ size c = 3 → c = LF ∨ c = RF := by decide +kernel
  have h2 : ∀ c, c < 256 → ¬ (IsSimplex c ∧ size c = 3) → faceVertices c = exn "the region must be a face" := by
    decide +kernel
  have h3 : ∀ c, c < 256 → ¬ (IsSimplex c ∧ size c = 3) → faceEdges c = exn "the region must be a face" := by
    decide +kernel
  refine ⟨fun hs => ?_, fun hs => ⟨h2 c hc hs, h3 c hc hs⟩⟩
  rcases h1 c hc hs with rfl | rfl
  · exact ⟨LV0, LV1, LV2, by decide⟩
  · exact ⟨RV0, RV1, RV2, by decide⟩

/-- `is_left_region` holds exactly for the sets of left vertices. -/
theorem C36_is_left (c : Nat) (hc : c < 256) : isLeft c = true ↔ InLeft c := by
  have h : ∀ c, c < 256 → (isLeft c = true ↔ InLeft c) := by decide +kernel
  exact h c hc

example : isLeft LE20 = true ∧ isLeft RV0 = false := by decide

end Kigumi.Props

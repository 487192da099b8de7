import Verif.Proofs.Mixed

/-! # An example: two tetrahedra with a common face -/
namespace Kigumi.Space
open Kigumi Geo Spec.Triangles Spec.Side FaceFace
open Kigumi.Spec (SameTri Apex SameFace HasEdge Seams Coincide IsBorder HasCorners operandTris RegionInv)
open Kigumi.Side (tetraFaces tetraInside tetra_bounds tetra_ok)

/-- Functions that give the weight of each vertex show that triangles meet only in common vertices and edges. -/
theorem complex_of_hats {fs : List (Tri Nat)} {pts : Nat → P3} (c : Nat → P3 → ℚ) (hp : ∀ f ∈ fs, Proper (tri pts f))
    (h : ∀ f ∈ fs, ∀ w0 w1 w2 : ℚ, w0 + w1 + w2 = 1 → 0 ≤ w0 → 0 ≤ w1 → 0 ≤ w2 → ∀ x, x = combo w0 w1 w2 (pts f.a) (pts f.b) (pts f.c) →
      c f.a x = w0 ∧ c f.b x = w1 ∧ c f.c x = w2) (h0 : ∀ f ∈ fs, ∀ g ∈ fs, ∀ v ∈ f.toList, v ∉ g.toList → ∀ x, In (tri pts g) x → c v x = 0) : Complex (fs.map (tri pts)) where
  proper t ht := by
    obtain ⟨f, hf, rfl⟩ := List.mem_map.1 ht
    exact hp f hf
  meet t ht u hu x hx hy := by
    obtain ⟨f, hf, rfl⟩ := List.mem_map.1 ht
    obtain ⟨g, hg, rfl⟩ := List.mem_map.1 hu
    obtain ⟨w0, w1, w2, hs, rfl, p0, p1, p2⟩ := hx
    obtain ⟨e0, e1, e2⟩ := h f hf w0 w1 w2 hs p0 p1 p2 _ rfl
    have key : ∀ v ∈ f.toList, ∀ w, c v (combo w0 w1 w2 (tri pts f).a (tri pts f).b (tri pts f).c) = w → w ≠ 0 → pts v ∈ (tri pts g).toList := by
      intro v hv w e hw
      have : v ∈ g.toList := by
        by_contra hc
        exact hw (e ▸ h0 f hf g hg v hv hc _ hy)
      simp only [Tri.toList, List.mem_cons, List.not_mem_nil, or_false, tri] at this ⊢
      rcases this with rfl | rfl | rfl <;> simp
    exact ⟨w0, w1, w2, hs, rfl, p0, p1, p2, key f.a (by simp [Tri.toList]) w0 e0, key f.b (by simp [Tri.toList]) w1 e1, key f.c (by simp [Tri.toList]) w2 e2⟩

/-- Mirror at the plane `z = 0`. -/
def mirror (x : P3) : P3 := ⟨x.x, x.y, -x.z⟩
def mirrorTri (t : Tri P3) : Tri P3 := ⟨mirror t.a, mirror t.c, mirror t.b⟩

theorem mirror_mirror (x : P3) : mirror (mirror x) = x := by simp [mirror]

theorem mirror_in {t : Tri P3} {x : P3} : In (mirrorTri t) x ↔ In t (mirror x) := by
  constructor
  · rintro ⟨u, v, w, h, rfl, h1, h2, h3⟩
    exact ⟨u, w, v, by linarith, by apply p3_ext <;> simp only [mirrorTri, mirror, combo] <;> ring, h1, h3, h2⟩
  · rintro ⟨u, v, w, h, e, h1, h2, h3⟩
    refine ⟨u, w, v, by linarith, ?_, h1, h3, h2⟩
    rw [← mirror_mirror x, e]
    apply p3_ext <;> simp only [mirrorTri, mirror, combo] <;> ring

theorem mirror_surface {ts : List (Tri P3)} {x : P3} : Surface (ts.map mirrorTri) x ↔ Surface ts (mirror x) := by
  unfold Surface
  simp only [List.mem_map, exists_exists_and_eq_and, mirror_in]

theorem mirror_bounds {ts : List (Tri P3)} {χ : P3 → Prop} (h : Spec.Side.Bounds ts χ) : Spec.Side.Bounds (ts.map mirrorTri) (fun x => χ (mirror x)) where
  const x y hxy := h.const _ _ (fun z hz hs => by
    refine hxy (mirror z) ?_ (mirror_surface.2 (by rwa [mirror_mirror]))
    obtain ⟨s, t, h1, h2, h3, rfl⟩ := hz
    exact ⟨s, t, h1, h2, h3, by apply p3_ext <;> simp only [mirror] <;> ring⟩)
  jump i t x ht hs := by
    rw [List.getElem?_map, Option.map_eq_some_iff] at ht
    obtain ⟨t', ht', rfl⟩ := ht
    obtain ⟨t0, h0, hin, hall⟩ := hs
    obtain ⟨e, he, k⟩ := h.jump i t' (mirror x) ht' ⟨t', ht', by
      rw [List.getElem?_map, ht'] at h0
      cases h0
      exact mirror_in.1 hin, fun j u hu hu' => hall j (mirrorTri u) (by rw [List.getElem?_map, hu]; rfl) (mirror_in.2 hu')⟩
    refine ⟨e, he, fun s h1 h2 => ?_⟩
    have e1 : ∀ s, mirror (shift x s (outward (mirrorTri t'))) = shift (mirror x) s (outward t') := by
      intro s
      apply p3_ext <;> simp only [mirror, shift, outward, mirrorTri] <;> ring
    rw [e1, e1]
    exact k s h1 h2

/-- The vertices of both. -/
def doublePoints : List P3 := [⟨0, 0, 0⟩, ⟨1, 0, 0⟩, ⟨0, 1, 0⟩, ⟨0, 0, 1⟩, ⟨0, 0, -1⟩]
/-- The faces of both: upper faces from the first, lower faces from the second operand. -/
def doubleFaces : List (Tri Nat) := [⟨0, 3, 2⟩, ⟨0, 1, 3⟩, ⟨0, 2, 1⟩, ⟨1, 2, 3⟩, ⟨0, 2, 4⟩, ⟨0, 4, 1⟩, ⟨0, 1, 2⟩, ⟨1, 4, 2⟩]
def doubleData : List (MixedData Unit) :=
  [⟨true, .unknown, ()⟩, ⟨true, .unknown, ()⟩, ⟨true, .opposite, ()⟩, ⟨true, .unknown, ()⟩, ⟨false, .unknown, ()⟩, ⟨false, .unknown, ()⟩, ⟨false, .opposite, ()⟩, ⟨false, .unknown, ()⟩]
/-- The mixed soup after corefinement. -/
def double : Soup P3 (MixedData Unit) := ⟨doublePoints, doubleFaces, doubleData⟩
def doubleBorder : List (Nat × Nat) := [(0, 1), (1, 2), (0, 2)]

/-- The lower tetrahedron. -/
def lowerFaces : List (Tri P3) := tetraFaces.map mirrorTri
def lowerInside (x : P3) : Prop := tetraInside (mirror x)
def doubleTris : List (Tri P3) := tetraFaces ++ lowerFaces
def doubleOrig (b : Bool) : List (Tri P3) := if b then tetraFaces else lowerFaces

/-- The weight of a vertex. -/
def hat (v : Nat) (x : P3) : ℚ := if v = 0 then 1 - x.x - x.y - |x.z| else if v = 1 then x.x else if v = 2 then x.y else if v = 3 then max x.z 0 else max (-x.z) 0

theorem lower_eq : lowerFaces = [⟨⟨0, 0, 0⟩, ⟨0, 1, 0⟩, ⟨0, 0, -1⟩⟩, ⟨⟨0, 0, 0⟩, ⟨0, 0, -1⟩, ⟨1, 0, 0⟩⟩, ⟨⟨0, 0, 0⟩, ⟨1, 0, 0⟩, ⟨0, 1, 0⟩⟩, ⟨⟨1, 0, 0⟩, ⟨0, 0, -1⟩, ⟨0, 1, 0⟩⟩] := by
  simp [lowerFaces, tetraFaces, mirrorTri, mirror]

theorem double_tris : doubleTris = doubleFaces.map (tri (Mix.pts doublePoints)) := by
  rw [doubleTris, lower_eq]
  rfl

theorem double_proper : ∀ t ∈ doubleTris, Proper t := by
  rw [doubleTris, lower_eq]
  unfold Proper
  decide +kernel

theorem double_complex : Complex doubleTris := by
  rw [double_tris]
  refine complex_of_hats hat (fun f hf => double_proper _ (by rw [double_tris]; exact List.mem_map_of_mem hf)) ?_ ?_
  · intro f hf w0 w1 w2 hs h0 h1 h2 x e
    simp only [doubleFaces, List.mem_cons, List.not_mem_nil, or_false] at hf
    rcases hf with rfl | rfl | rfl | rfl | rfl | rfl | rfl | rfl <;>
      simp [Mix.pts, doublePoints, combo] at e <;> subst e <;> simp [hat, abs_of_nonneg, h0, h1, h2] <;>
      (first | done | linarith | (constructor <;> linarith))
  · intro f hf g hg v hv hvg x hx
    have hall : ∀ f ∈ doubleFaces, ∀ v ∈ f.toList, v = 0 ∨ v = 1 ∨ v = 2 ∨ v = 3 ∨ v = 4 := by decide +kernel
    have hv' := hall f hf v hv
    obtain ⟨w0, w1, w2, hs, e, h0, h1, h2⟩ := hx
    simp only [doubleFaces, List.mem_cons, List.not_mem_nil, or_false] at hg
    rcases hg with rfl | rfl | rfl | rfl | rfl | rfl | rfl | rfl <;>
      simp [tri, Mix.pts, doublePoints, combo] at e <;> subst e <;>
      rcases hv' with rfl | rfl | rfl | rfl | rfl <;> simp [Tri.toList] at hvg <;> simp [hat, abs_of_nonneg, h0, h1, h2] <;> linarith

theorem double_operand (b : Bool) : operandTris doubleTris doubleData b = doubleOrig b := by
  cases b <;> rw [doubleTris, doubleOrig, lower_eq] <;> rfl

theorem double_once (b : Bool) : Once (doubleOrig b) := by
  rw [once_pairwise]
  cases b
  · show List.Pairwise (fun t u => ¬ (SameTri t u ∨ SameTri t.flip u)) lowerFaces
    rw [lower_eq]
    decide +kernel
  · show List.Pairwise (fun t u => ¬ (SameTri t u ∨ SameTri t.flip u)) tetraFaces
    decide +kernel

theorem refines_self (ts : List (Tri P3)) : Refines ts ts id where
  part i p hp := ⟨p, hp, fun _ h => h, 1, by norm_num, by simp⟩
  cover j t x ht hx := ⟨j, t, ht, rfl, hx⟩

theorem double_corners : HasCorners doublePoints doubleFaces doubleTris := by
  rw [doubleTris, lower_eq]
  unfold HasCorners doubleFaces tetraFaces
  simp [doublePoints]

/-- Every edge of both faces is a border edge. -/
def Bordered (f g : Tri Nat) : Prop := ∀ v ∈ f.toList, ∀ w ∈ f.toList, v = w ∨ v ∉ g.toList ∨ w ∉ g.toList ∨ (min v w, max v w) ∈ doubleBorder

instance (f g : Tri Nat) : Decidable (Bordered f g) := by unfold Bordered; infer_instance

/-- Every edge with faces of both operands is a border edge. -/
theorem double_edges : ∀ i < 8, ∀ j < 8, ownerOf doubleData i = ownerOf doubleData j ∨ Bordered (doubleFaces[i]?.getD ⟨0, 0, 0⟩) (doubleFaces[j]?.getD ⟨0, 0, 0⟩) := by
  decide +kernel

theorem double_seams : Seams doubleFaces (ownerOf doubleData) doubleBorder := by
  have key : ∀ p q, ¬ IsBorder doubleBorder p q → ∀ i j, HasEdge doubleFaces p q i → HasEdge doubleFaces p q j → ownerOf doubleData i ≠ ownerOf doubleData j → False := by
    rintro p q hb i j ⟨f, r, hf, ha⟩ ⟨g, s, hg, ha'⟩ ho
    obtain ⟨h1, h2, -⟩ := apex_mem ha
    obtain ⟨h3, h4, -⟩ := apex_mem ha'
    have hall : ∀ f ∈ doubleFaces, (∀ v ∈ f.toList, v < 5) ∧ f.a ≠ f.b ∧ f.b ≠ f.c ∧ f.c ≠ f.a := by decide +kernel
    have hpq : p ≠ q := by
      have := (hall f (List.mem_of_getElem? hf)).2
      rintro rfl
      rcases ha with (rfl | rfl | rfl) | (rfl | rfl | rfl) <;> simp [Tri.rot] at this
    rcases double_edges i (List.getElem?_eq_some_iff.1 hf).1 j (List.getElem?_eq_some_iff.1 hg).1 with h | h
    · exact ho h
    rw [hf, hg] at h
    rcases h p h1 q h2 with h | h | h | h
    · exact hpq h
    · exact h h3
    · exact h h4
    · exact hb h
  exact ⟨fun p q hb i j hi hj ho => (key p q hb i j hi hj ho).elim, fun p q hb i j hi hj ho => (key p q hb i j hi hj ho).elim⟩

/-- **The two tetrahedra are cut as they should be.** -/
theorem double_corefined : Corefined doubleOrig double doubleTris doubleBorder where
  data := rfl
  corners := double_corners
  complex := double_complex
  once b := by
    show Once (operandTris doubleTris doubleData b)
    rw [double_operand]; exact double_once b
  refines b := by
    refine ⟨id, ?_⟩
    show Refines (doubleOrig b) (operandTris doubleTris doubleData b) id
    rw [double_operand]; exact refines_self _
  points := by
    show ∀ f ∈ doubleFaces, ∀ g ∈ doubleFaces, ∀ v ∈ f.toList, ∀ w ∈ g.toList, doublePoints[v]? = doublePoints[w]? → v = w
    decide +kernel
  edges := by decide
  seams := double_seams
  tags := by
    show ∀ x ∈ doubleTris.zip doubleData, x.2.tag = .unknown ∨ (x.2.tag = .coplanar ∧ ∃ u ∈ operandTris doubleTris doubleData (!x.2.fromLeft), SameTri x.1 u) ∨
      (x.2.tag = .opposite ∧ ∃ u ∈ operandTris doubleTris doubleData (!x.2.fromLeft), SameTri x.1.flip u)
    rw [doubleTris, lower_eq]
    decide +kernel

theorem double_bounds (b : Bool) : Spec.Side.Bounds (doubleOrig b) (if b then tetraInside else lowerInside) := by
  cases b
  · exact mirror_bounds tetra_bounds
  · exact tetra_bounds

end Kigumi.Space

import Verif.Proofs.CdtExists
import Verif.Proofs.Hull
import Verif.Tactics

/-!
# Operands whose faces do not overlap
-/
namespace Kigumi.Crossing
open Kigumi Spec.Triangles Spec.Side
open Kigumi.Spec (P3)
open Kigumi.FaceFace (p3_ext)
open Kigumi.Space (in_match match_symm)
open Kigumi.Cutting (in_convex)
variable {op : Bool → List (Tri P3)}

/-- The common points are convex. -/
theorem common_convex {t u : Tri P3} {x y z : P3} (hy : Common t u y) (hz : Common t u z) (h : OnSegment y z x) : Common t u x :=
  ⟨in_convex t x y z hy.1 hz.1 h, in_convex u x y z hy.2 hz.2 h⟩

theorem in_hull {t p : Tri P3} (ha : In t p.a) (hb : In t p.b) (hc : In t p.c) {x : P3} (hx : In p x) : In t x := by
  obtain ⟨r, s, q, one, rfl, r0, s0, q0⟩ := hx
  rcases eq_or_lt_of_le (add_nonneg s0 q0) with h | h
  · have hs : s = 0 := by linarith
    have hq : q = 0 := by linarith
    have hr : r = 1 := by linarith
    subst hs hq hr
    have : combo 1 0 0 p.a p.b p.c = p.a := by apply p3_ext <;> simp [combo]
    rw [this]; exact ha
  · have hn := h.ne'
    have hm : In t ⟨s / (s + q) * p.b.x + q / (s + q) * p.c.x, s / (s + q) * p.b.y + q / (s + q) * p.c.y, s / (s + q) * p.b.z + q / (s + q) * p.c.z⟩ :=
      in_convex t _ _ _ hb hc ⟨_, _, by rw [← add_div, div_self hn], div_nonneg s0 h.le, div_nonneg q0 h.le, rfl⟩
    refine in_convex t _ _ _ ha hm ⟨r, s + q, by linarith, r0, h.le, ?_⟩
    apply p3_ext <;> simp only [combo] <;> field_simp <;> ring

/-- Of three points on a line, one is between the others. -/
theorem between {w x y : P3} (h : outward ⟨w, x, y⟩ = ⟨0, 0, 0⟩) (hne : x ≠ w) : OnSegment y x w ∨ OnSegment w x y ∨ OnSegment w y x := by
  have h1 := congrArg P3.x h; have h2 := congrArg P3.y h; have h3 := congrArg P3.z h
  simp only [outward] at h1 h2 h3
  obtain ⟨s, e1, e2, e3⟩ : ∃ s : ℚ, y.x = w.x + s * (x.x - w.x) ∧ y.y = w.y + s * (x.y - w.y) ∧ y.z = w.z + s * (x.z - w.z) := by
    by_cases hx : x.x - w.x = 0
    · by_cases hy : x.y - w.y = 0
      · have hz : x.z - w.z ≠ 0 := fun hz => hne (p3_ext (by linarith) (by linarith) (by linarith))
        refine ⟨(y.z - w.z) / (x.z - w.z), ?_, ?_, ?_⟩ <;> field_simp <;> linarith
      · refine ⟨(y.y - w.y) / (x.y - w.y), ?_, ?_, ?_⟩ <;> field_simp <;> linarith
    · refine ⟨(y.x - w.x) / (x.x - w.x), ?_, ?_, ?_⟩ <;> field_simp <;> linarith
  rcases lt_or_ge s 0 with hs | hs
  · have hd : 1 - s ≠ 0 := by linarith
    refine .inl ⟨1 / (1 - s), -s / (1 - s), by field_simp; ring, div_nonneg zero_le_one (by linarith), div_nonneg (by linarith) (by linarith), ?_⟩
    apply p3_ext <;> simp only [e1, e2, e3] <;> field_simp <;> ring
  · rcases le_or_gt s 1 with h' | h'
    · refine .inr (.inl ⟨1 - s, s, by ring, by linarith, hs, ?_⟩)
      apply p3_ext <;> simp only [e1, e2, e3] <;> ring
    · have hd : s ≠ 0 := by linarith
      refine .inr (.inr ⟨1 - 1 / s, 1 / s, by ring, ?_, by positivity, ?_⟩)
      · have : 1 / s ≤ 1 := by rw [div_le_one (by linarith)]; exact h'.le
        linarith
      · apply p3_ext <;> simp only [e1, e2, e3] <;> field_simp <;> ring

/-- At most two points are extreme. -/
theorem two_extreme (h : NoOverlap op) {t u : Tri P3} (ht : t ∈ op true) (hu : u ∈ op false) {w x y : P3} (hw : Extreme (Common t u) w) (hx : Extreme (Common t u) x) (hy : Extreme (Common t u) y) : w = x ∨ w = y ∨ x = y := by
  by_cases hp : Proper ⟨w, x, y⟩
  · exact absurd (fun z hz => ⟨in_hull hw.1.1 hx.1.1 hy.1.1 hz, in_hull hw.1.2 hx.1.2 hy.1.2 hz⟩) (h t ht u hu ⟨w, x, y⟩ hp)
  · rw [Proper, not_not] at hp
    by_cases hne : x = w
    · exact .inl hne.symm
    · rcases between hp hne with k | k | k
      · rcases hw.2 _ _ hy.1 hx.1 k with e | e
        exacts [.inr (.inl e.symm), .inl e.symm]
      · rcases hy.2 _ _ hw.1 hx.1 k with e | e
        exacts [.inr (.inl e), .inr (.inr e)]
      · rcases hx.2 _ _ hw.1 hy.1 k with e | e
        exacts [.inl e, .inr (.inr e.symm)]

theorem noFour (h : NoOverlap op) : NoFourOnCircle op := by
  intro t ht u hu o w x y z hw hx hy _ _ _ _
  rcases two_extreme h ht hu hw hx hy with e | e | e
  exacts [.inl e, .inr (.inl e), .inr (.inr (.inr (.inl e)))]

theorem no_match (h : NoOverlap op) {t u : Tri P3} (ht : t ∈ op true) (hu : u ∈ op false) (hp : Proper t) : ¬ Match t u :=
  fun hm => h t ht u hu t hp fun _ hx => ⟨hx, in_match hm hx⟩

theorem manifold (h : NoOverlap op) (hp : ∀ t ∈ op true, Proper t) : ManifoldWhereCoinciding op := by
  rintro b t ht ⟨u, hu, hm⟩
  exfalso
  cases b
  · exact no_match h hu ht (hp u hu) (match_symm hm)
  · exact no_match h ht hu (hp t ht) hm

/-- Faces with different directions do not overlap. -/
theorem of_normals (h : ∀ t ∈ op true, ∀ u ∈ op false, ¬ ((outward t).y * (outward u).z = (outward t).z * (outward u).y ∧ (outward t).z * (outward u).x = (outward t).x * (outward u).z ∧
    (outward t).x * (outward u).y = (outward t).y * (outward u).x)) : NoOverlap op := by
  intro t ht u hu p hp hall
  have key : ∀ v : Tri P3, (∀ x, In p x → In v x) → ∃ k : ℚ, outward p = ⟨k * (outward v).x, k * (outward v).y, k * (outward v).z⟩ := by
    intro v hv
    obtain ⟨a, ea, -⟩ := Cdt3.in0.1 (hv p.a (Cutting.in_corner (by simp [Tri.toList])))
    obtain ⟨b, eb, -⟩ := Cdt3.in0.1 (hv p.b (Cutting.in_corner (by simp [Tri.toList])))
    obtain ⟨c, ec, -⟩ := Cdt3.in0.1 (hv p.c (Cutting.in_corner (by simp [Tri.toList])))
    refine ⟨Plane.D a b c, ?_⟩
    rw [← Cdt3.outward_T]
    congr 1
    cases p
    simp only [Cdt3.T, ← ea, ← eb, ← ec]
  obtain ⟨k, hk⟩ := key t fun x hx => (hall x hx).1
  obtain ⟨l, hl⟩ := key u fun x hx => (hall x hx).2
  have hk0 : k ≠ 0 := fun e => hp (by rw [hk, e]; apply p3_ext <;> simp)
  have hl0 : l ≠ 0 := fun e => hp (by rw [hl, e]; apply p3_ext <;> simp)
  rw [hk, P3.mk.injEq] at hl
  obtain ⟨e1, e2, e3⟩ := hl
  have hkl := mul_ne_zero hk0 hl0
  refine h t ht u hu ⟨?_, ?_, ?_⟩ <;> apply mul_left_cancel₀ hkl
  · linear_combination l * (outward u).z * e2 - l * (outward u).y * e3
  · linear_combination l * (outward u).x * e3 - l * (outward u).z * e1
  · linear_combination l * (outward u).y * e1 - l * (outward u).x * e2

end Kigumi.Crossing

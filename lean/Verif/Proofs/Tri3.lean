import Verif.Spec.Triangles
import Verif.Model.FaceFace
import Mathlib.Tactic.LinearCombination
import Mathlib.Tactic.FieldSimp
import Mathlib.Tactic.Ring
import Verif.Tactics

/-! # A segment and a triangle in space: algebra -/
namespace Kigumi.FaceFace
open Kigumi Geo Spec.Triangles

theorem p3_ext {a b : P3} (hx : a.x = b.x) (hy : a.y = b.y) (hz : a.z = b.z) : a = b := by
  cases a; cases b; simp_all

/-- A point of the line through two points. -/
def seg (s t : ℚ) (a b : P3) : P3 := ⟨s * a.x + t * b.x, s * a.y + t * b.y, s * a.z + t * b.z⟩

theorem det_sum (a b p q r : P3) : det4 a b p q + det4 a b q r + det4 a b r p = det4 a p q r - det4 b p q r := by
  simp only [det4, dot, cross, sub]; ring

theorem det_seg (s t : ℚ) (h : s + t = 1) (a b p q r : P3) : det4 (seg s t a b) p q r = s * det4 a p q r + t * det4 b p q r := by
  have ht : t = 1 - s := by linarith
  subst ht
  simp only [det4, dot, cross, sub, seg]; ring

theorem det_combo_first (u v w : ℚ) (h : u + v + w = 1) (p q r : P3) : det4 (combo u v w p q r) p q r = 0 := by
  have hw : w = 1 - u - v := by linarith
  subst hw
  simp only [det4, dot, cross, sub, combo]; ring

theorem det_combo_last (u v w : ℚ) (h : u + v + w = 1) (a b d p q r : P3) :
    det4 a b d (combo u v w p q r) = u * det4 a b d p + v * det4 a b d q + w * det4 a b d r := by
  have hw : w = 1 - u - v := by linarith
  subst hw
  simp only [det4, dot, cross, sub, combo]; ring

theorem det_seg_last (s t : ℚ) (h : s + t = 1) (a b d : P3) : det4 a b d (seg s t a b) = 0 := by
  have ht : t = 1 - s := by linarith
  subst ht
  simp only [det4, dot, cross, sub, seg]; ring

theorem det_swap34 (a b p q : P3) : det4 a b q p = - det4 a b p q := by simp only [det4, dot, cross, sub]; ring
theorem det_eq34 (a b p : P3) : det4 a b p p = 0 := by simp only [det4, dot, cross, sub]; ring
theorem det_swap12 (a b p q : P3) : det4 b a p q = - det4 a b p q := by simp only [det4, dot, cross, sub]; ring
theorem det_swap23 (a b p q : P3) : det4 a p b q = - det4 a b p q := by simp only [det4, dot, cross, sub]; ring

/-- The weights of a common point of the line and the plane. -/
theorem common_weights {a b p q r : P3} {s t u v w : ℚ} (h1 : s + t = 1) (h2 : u + v + w = 1) (h : seg s t a b = combo u v w p q r) :
    s * det4 a p q r + t * det4 b p q r = 0 ∧
    u * (det4 a p q r - det4 b p q r) = det4 a b q r ∧ v * (det4 a p q r - det4 b p q r) = det4 a b r p ∧
    w * (det4 a p q r - det4 b p q r) = det4 a b p q ∧
    s * (det4 a p q r - det4 b p q r) = - det4 b p q r ∧ t * (det4 a p q r - det4 b p q r) = det4 a p q r := by
  have e0 : s * det4 a p q r + t * det4 b p q r = 0 := by
    rw [← det_seg s t h1, h, det_combo_first u v w h2]
  have ep : det4 a b p (combo u v w p q r) = 0 := by rw [← h]; exact det_seg_last s t h1 a b p
  have eq : det4 a b q (combo u v w p q r) = 0 := by rw [← h]; exact det_seg_last s t h1 a b q
  have er : det4 a b r (combo u v w p q r) = 0 := by rw [← h]; exact det_seg_last s t h1 a b r
  rw [det_combo_last u v w h2, det_eq34] at ep eq er
  rw [det_swap34 a b r p] at ep
  rw [det_swap34 a b p q] at eq
  rw [det_swap34 a b q r] at er
  have hs := det_sum a b p q r
  refine ⟨e0, ?_, ?_, ?_, ?_, ?_⟩
  · rw [← hs]; linear_combination (det4 a b q r) * h2 - eq + er
  · rw [← hs]; linear_combination (det4 a b r p) * h2 + ep - er
  · rw [← hs]; linear_combination (det4 a b p q) * h2 - ep + eq
  · linear_combination e0 - (det4 b p q r) * h1
  · linear_combination -e0 + (det4 a p q r) * h1

/-- The common point exists. -/
theorem common_point (a b p q r : P3) (h : det4 a p q r - det4 b p q r ≠ 0) :
    seg (- det4 b p q r / (det4 a p q r - det4 b p q r)) (det4 a p q r / (det4 a p q r - det4 b p q r)) a b =
    combo (det4 a b q r / (det4 a p q r - det4 b p q r)) (det4 a b r p / (det4 a p q r - det4 b p q r)) (det4 a b p q / (det4 a p q r - det4 b p q r)) p q r := by
  apply p3_ext <;> simp only [seg, combo] <;> field_simp <;> simp only [det4, dot, cross, sub] <;> ring

/-- Relative interior of (part of) a segment. -/
def Seg (k0 k1 : Bool) (a b x : P3) : Prop := ∃ s t : ℚ, s + t = 1 ∧ x = seg s t a b ∧ Weight k0 s ∧ Weight k1 t

/-- In the transversal case there is one candidate; its weights decide. -/
theorem transversal {a b p q r : P3} (h : det4 a p q r - det4 b p q r ≠ 0) (k0 k1 m0 m1 m2 : Bool) (x : P3) :
    (Seg k0 k1 a b x ∧ Open m0 m1 m2 p q r x) ↔
    x = seg (- det4 b p q r / (det4 a p q r - det4 b p q r)) (det4 a p q r / (det4 a p q r - det4 b p q r)) a b ∧
    Weight k0 (- det4 b p q r / (det4 a p q r - det4 b p q r)) ∧ Weight k1 (det4 a p q r / (det4 a p q r - det4 b p q r)) ∧
    Weight m0 (det4 a b q r / (det4 a p q r - det4 b p q r)) ∧ Weight m1 (det4 a b r p / (det4 a p q r - det4 b p q r)) ∧
    Weight m2 (det4 a b p q / (det4 a p q r - det4 b p q r)) := by
  constructor
  · rintro ⟨⟨s, t, h1, rfl, hk0, hk1⟩, u, v, w, h2, e, hm0, hm1, hm2⟩
    obtain ⟨_, e1, e2, e3, e4, e5⟩ := common_weights h1 h2 e
    rw [← e1, ← e2, ← e3]
    have hs : - det4 b p q r / (det4 a p q r - det4 b p q r) = s := by rw [← e4]; field_simp
    have ht : det4 a p q r / (det4 a p q r - det4 b p q r) = t := by rw [div_eq_iff h, e5]
    rw [hs, ht]
    refine ⟨rfl, hk0, hk1, ?_, ?_, ?_⟩
    · rwa [mul_div_cancel_right₀ _ h]
    · rwa [mul_div_cancel_right₀ _ h]
    · rwa [mul_div_cancel_right₀ _ h]
  · rintro ⟨rfl, hk0, hk1, hm0, hm1, hm2⟩
    refine ⟨⟨_, _, ?_, rfl, hk0, hk1⟩, _, _, _, ?_, common_point a b p q r h, hm0, hm1, hm2⟩
    · field_simp; ring
    · have := det_sum a b p q r
      field_simp; linarith

end Kigumi.FaceFace

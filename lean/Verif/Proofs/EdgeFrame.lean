import Verif.Proofs.Fan

/-! # Directions around an edge: coordinates -/
namespace Kigumi.Fan
open Kigumi Geo Real FaceFace Spec.Side Spec.Triangles Radial

theorem dir_same {X Y : P3 → ℝ} {a : P3} {θ θ' : ℝ} (h : Dir X Y a θ) (h' : Dir X Y a θ') : ∃ k : ℤ, θ' = θ + 2 * π * k := by
  obtain ⟨ρ, r0, r1, r2⟩ := h
  obtain ⟨σ, s0, s1, s2⟩ := h'
  have e1 : ρ * cos θ = σ * cos θ' := by rw [← r1, ← s1]
  have e2 : ρ * sin θ = σ * sin θ' := by rw [← r2, ← s2]
  have c1 := sin_sq_add_cos_sq θ
  have c2 := sin_sq_add_cos_sq θ'
  have hs : ρ = σ := by
    have hsq : ρ * ρ = σ * σ := by
      have a1 : (ρ * sin θ) * (ρ * sin θ) + (ρ * cos θ) * (ρ * cos θ) = ρ * ρ := by linear_combination (ρ * ρ) * c1
      have a2 : (σ * sin θ') * (σ * sin θ') + (σ * cos θ') * (σ * cos θ') = σ * σ := by linear_combination (σ * σ) * c2
      rw [← a1, ← a2, e1, e2]
    exact le_antisymm (le_of_mul_self_le r0.le s0.le hsq.le) (le_of_mul_self_le s0.le r0.le hsq.ge)
  subst hs
  have e1 := mul_left_cancel₀ r0.ne' e1
  have e2 := mul_left_cancel₀ r0.ne' e2
  have : cos (θ' - θ) = 1 := by
    rw [cos_sub, ← e1, ← e2]; linarith
  obtain ⟨k, hk⟩ := (cos_eq_one_iff _).1 this
  exact ⟨k, by linarith⟩

/-- Coordinates of a vector orthogonal to an edge. -/
noncomputable def ex (u d : P3) : ℝ := ((dot d u : ℚ) : ℝ) / len u
noncomputable def ey (P Q u d : P3) : ℝ := ((dot d (cross (sub Q P) u) : ℚ) : ℝ) / len (cross (sub Q P) u)

section
variable {P Q u : P3} (hpq : P ≠ Q) (hu : dot u (sub Q P) = 0) (hu0 : u ≠ ⟨0, 0, 0⟩)

theorem ex_n (hu : dot u (sub Q P) = 0) : ex u (sub Q P) = 0 := by
  unfold ex
  have : dot (sub Q P) u = 0 := by rw [← hu]; simp only [dot]; ring
  rw [this]; simp

theorem ey_n (P Q u : P3) : ey P Q u (sub Q P) = 0 := by
  unfold ey
  have : dot (sub Q P) (cross (sub Q P) u) = 0 := by simp only [dot, cross]; ring
  rw [this]; simp

theorem len_dot (a : P3) : ((dot a a : ℚ) : ℝ) = len a * len a := by rw [len_sq]; unfold dot; push_cast; ring

include hpq hu hu0 in
theorem frame : Frame (ex u) (ey P Q u) := by
  have l1 := len_pos hu0
  have l2 := len_pos (cross_ne hu (sub_ne hpq) hu0)
  constructor
  · intro A B d e
    unfold ex
    have : dot (seg A B d e) u = A * dot d u + B * dot e u := by simp only [dot, seg]; ring
    rw [this]; push_cast; ring
  · intro A B d e
    unfold ey
    have : dot (seg A B d e) (cross (sub Q P) u) = A * dot d (cross (sub Q P) u) + B * dot e (cross (sub Q P) u) := by simp only [dot, seg]; ring
    rw [this]; push_cast; ring
  · intro a b
    refine ⟨seg a b u (cross (sub Q P) u), len u, len (cross (sub Q P) u), l1, l2, ?_, ?_⟩
    · unfold ex
      have : dot (seg a b u (cross (sub Q P) u)) u = a * dot u u := by simp only [dot, seg, cross]; ring
      rw [this, Rat.cast_mul, len_dot]; field_simp
    · unfold ey
      have : dot (seg a b u (cross (sub Q P) u)) (cross (sub Q P) u) = b * dot (cross (sub Q P) u) (cross (sub Q P) u) := by simp only [dot, seg, cross]; ring
      rw [this, Rat.cast_mul, len_dot]; field_simp

include hpq hu hu0 in
theorem dir_of_angle {R : P3} {θ : ℝ} (h : Spec.AngleAround P Q u R θ) : Dir (ex u) (ey P Q u) (sub R P) θ := by
  have l1 := len_pos hu0
  have l2 := len_pos (cross_ne hu (sub_ne hpq) hu0)
  obtain ⟨-, -, ρ, r0, r1, r2⟩ := angle_planar hpq hu hu0 h
  refine ⟨ρ, r0, ?_, ?_⟩
  · unfold ex; simp only at r1; rw [r1]; field_simp
  · unfold ey; simp only at r2; rw [r2]; field_simp

include hpq hu hu0 in
/-- The normal of the half plane is the direction, turned by a right angle. -/
theorem turn (a : P3) : ∃ κ : ℝ, 0 < κ ∧ ex u (cross (sub Q P) a) = -(κ * ey P Q u a) ∧ ey P Q u (cross (sub Q P) a) = κ * ex u a := by
  have l1 := len_pos hu0
  have l2 := len_pos (cross_ne hu (sub_ne hpq) hu0)
  refine ⟨len (cross (sub Q P) u) / len u, by positivity, ?_, ?_⟩
  · unfold ex ey
    have : dot (cross (sub Q P) a) u = - dot a (cross (sub Q P) u) := by simp only [dot, cross]; ring
    rw [this]; push_cast; field_simp
  · unfold ex ey
    have h1 : dot (cross (sub Q P) a) (cross (sub Q P) u) = dot (sub Q P) (sub Q P) * dot a u := by
      have : dot (cross (sub Q P) a) (cross (sub Q P) u) = dot (sub Q P) (sub Q P) * dot a u - dot u (sub Q P) * dot a (sub Q P) := by simp only [dot, cross]; ring
      rw [this, hu]; ring
    have h2 : ((dot (sub Q P) (sub Q P) : ℚ) : ℝ) * (len u * len u) = len (cross (sub Q P) u) * len (cross (sub Q P) u) := by
      rw [← len_dot, ← len_dot, lagrange _ _ hu]; push_cast; ring
    rw [h1]; push_cast
    field_simp
    linear_combination ((dot a u : ℚ) : ℝ) * h2
end

/-- A small step to the left or to the right of a direction changes the angle a little. -/
theorem tilt {X Y : P3 → ℝ} (F : Frame X Y) {a N : P3} {θ ε κ : ℝ} (ha : Dir X Y a θ) (hκ : 0 < κ) (hx : X N = -(κ * Y a)) (hy : Y N = κ * X a) (e0 : 0 < ε) (e1 : ε < π) {b : ℚ} (hb : 0 < b) :
    ∃ s0 : ℚ, 0 < s0 ∧ ∀ s, 0 < s → s ≤ s0 → (∃ ψ, θ < ψ ∧ ψ < θ + ε ∧ Dir X Y (seg b s a N) ψ) ∧ (∃ ψ, θ - ε < ψ ∧ ψ < θ ∧ Dir X Y (seg b (-s) a N) ψ) := by
  have hb' : (0 : ℝ) < b := by exact_mod_cast hb
  have hsin : 0 < sin ε := sin_pos_of_pos_of_lt_pi e0 e1
  obtain ⟨s0, h1, h2⟩ := exists_rat_btwn (show (0 : ℝ) < b * sin ε / κ by positivity)
  have h1' : 0 < s0 := by exact_mod_cast h1
  refine ⟨s0, h1', fun s hs hs0 => ?_⟩
  have hs' : (0 : ℝ) < s := by exact_mod_cast hs
  have hs0' : (s : ℝ) ≤ s0 := by exact_mod_cast hs0
  obtain ⟨ρ, r0, r1, r2⟩ := ha
  have small : 0 < b * sin ε - s * κ * cos ε := by
    rw [lt_div_iff₀ hκ] at h2
    have a1 : s * κ ≤ s0 * κ := mul_le_mul_of_nonneg_right hs0' hκ.le
    have a2 : s * κ * cos ε ≤ s * κ := by
      have := mul_le_mul_of_nonneg_left (cos_le_one ε) (show 0 ≤ s * κ by positivity)
      linarith
    linarith
  have c1 := sin_sq_add_cos_sq θ
  constructor
  · refine sector (X := X) (Y := Y) (by linarith) (by linarith) ?_ ?_
    · rw [F.x, F.y, hx, hy, r1, r2]
      have : cos θ * (b * (ρ * sin θ) + s * (κ * (ρ * cos θ))) - sin θ * (b * (ρ * cos θ) + s * -(κ * (ρ * sin θ))) = s * κ * ρ := by
        linear_combination (s * κ * ρ) * c1
      rw [this]; positivity
    · rw [F.x, F.y, hx, hy, r1, r2]
      have : sin (θ + ε) * (b * (ρ * cos θ) + s * -(κ * (ρ * sin θ))) - cos (θ + ε) * (b * (ρ * sin θ) + s * (κ * (ρ * cos θ))) = ρ * (b * sin ε - s * κ * cos ε) := by
        rw [sin_add, cos_add]; linear_combination (ρ * (b * sin ε - s * κ * cos ε)) * c1
      rw [this]; exact mul_pos r0 small
  · refine sector (X := X) (Y := Y) (by linarith) (by linarith) ?_ ?_
    · rw [F.x, F.y, hx, hy, r1, r2]
      push_cast
      have : cos (θ - ε) * (b * (ρ * sin θ) + -s * (κ * (ρ * cos θ))) - sin (θ - ε) * (b * (ρ * cos θ) + -s * -(κ * (ρ * sin θ))) = ρ * (b * sin ε - s * κ * cos ε) := by
        rw [sin_sub, cos_sub]; linear_combination (ρ * (b * sin ε - s * κ * cos ε)) * c1
      rw [this]; exact mul_pos r0 small
    · rw [F.x, F.y, hx, hy, r1, r2]
      push_cast
      have : sin θ * (b * (ρ * cos θ) + -s * -(κ * (ρ * sin θ))) - cos θ * (b * (ρ * sin θ) + -s * (κ * (ρ * cos θ))) = s * κ * ρ := by
        linear_combination (s * κ * ρ) * c1
      rw [this]; positivity

/-- Two vectors with the same angle differ by a positive factor and a multiple of the edge. -/
theorem same_angle {P Q u a a' : P3} (hpq : P ≠ Q) (hu : dot u (sub Q P) = 0) (hu0 : u ≠ ⟨0, 0, 0⟩) {θ : ℝ} (h : Dir (ex u) (ey P Q u) a θ) (h' : Dir (ex u) (ey P Q u) a' θ) :
    ∃ k l : ℚ, 0 < k ∧ a' = seg k l a (sub Q P) := by
  have l1 := len_pos hu0
  have hv := cross_ne hu (sub_ne hpq) hu0
  have l2 := len_pos hv
  obtain ⟨ρ, r0, r1, r2⟩ := h
  obtain ⟨σ, s0, s1, s2⟩ := h'
  unfold ex at r1 s1
  unfold ey at r2 s2
  rw [div_eq_iff l1.ne'] at r1 s1
  rw [div_eq_iff l2.ne'] at r2 s2
  -- the factor is rational
  obtain ⟨k, hk, k1, k2⟩ : ∃ k : ℚ, 0 < k ∧ dot a' u = k * dot a u ∧ dot a' (cross (sub Q P) u) = k * dot a (cross (sub Q P) u) := by
    have key : ∀ k : ℚ, (k : ℝ) = σ / ρ → 0 < k ∧ dot a' u = k * dot a u ∧ dot a' (cross (sub Q P) u) = k * dot a (cross (sub Q P) u) := by
      intro k hk
      refine ⟨?_, ?_, ?_⟩
      · have : (0 : ℝ) < k := by rw [hk]; positivity
        exact_mod_cast this
      · have : ((dot a' u : ℚ) : ℝ) = k * (dot a u : ℚ) := by rw [hk, r1, s1]; field_simp
        exact_mod_cast this
      · have : ((dot a' (cross (sub Q P) u) : ℚ) : ℝ) = k * (dot a (cross (sub Q P) u) : ℚ) := by rw [hk, r2, s2]; field_simp
        exact_mod_cast this
    by_cases hc : cos θ = 0
    · have hs : sin θ ≠ 0 := by
        intro hs
        have := sin_sq_add_cos_sq θ
        rw [hc, hs] at this; norm_num at this
      refine ⟨dot a' (cross (sub Q P) u) / dot a (cross (sub Q P) u), key _ ?_⟩
      rw [Rat.cast_div, r2, s2]; field_simp
    · refine ⟨dot a' u / dot a u, key _ ?_⟩
      rw [Rat.cast_div, r1, s1]; field_simp
  have nn := dot_self_ne (sub_ne hpq)
  have uu := dot_self_ne hu0
  refine ⟨k, (dot a' (sub Q P) - k * dot a (sub Q P)) / dot (sub Q P) (sub Q P), hk, ?_⟩
  -- the difference is orthogonal to all three base vectors
  have vv : dot (sub Q P) (sub Q P) * dot u u ≠ 0 := mul_ne_zero nn uu
  have dec : ∀ w : P3, dot w u = 0 → dot w (cross (sub Q P) u) = 0 → dot w (sub Q P) = 0 → w = ⟨0, 0, 0⟩ := by
    intro w h1 h2 h3
    generalize sub Q P = n at *
    have g1 : w.x * (dot n n * dot u u) = 0 := by
      have : w.x * (dot n n * dot u u) = dot w n * (n.x * dot u u - u.x * dot u n) + dot w u * (u.x * dot n n - n.x * dot u n) + dot w (cross n u) * (cross n u).x + w.x * (dot u n * dot u n) := by
        simp only [dot, cross]; ring
      rw [this, h1, h2, h3, hu]; ring
    have g2 : w.y * (dot n n * dot u u) = 0 := by
      have : w.y * (dot n n * dot u u) = dot w n * (n.y * dot u u - u.y * dot u n) + dot w u * (u.y * dot n n - n.y * dot u n) + dot w (cross n u) * (cross n u).y + w.y * (dot u n * dot u n) := by
        simp only [dot, cross]; ring
      rw [this, h1, h2, h3, hu]; ring
    have g3 : w.z * (dot n n * dot u u) = 0 := by
      have : w.z * (dot n n * dot u u) = dot w n * (n.z * dot u u - u.z * dot u n) + dot w u * (u.z * dot n n - n.z * dot u n) + dot w (cross n u) * (cross n u).z + w.z * (dot u n * dot u n) := by
        simp only [dot, cross]; ring
      rw [this, h1, h2, h3, hu]; ring
    exact p3_ext ((mul_eq_zero.1 g1).resolve_right vv) ((mul_eq_zero.1 g2).resolve_right vv) ((mul_eq_zero.1 g3).resolve_right vv)
  generalize hl : (dot a' (sub Q P) - k * dot a (sub Q P)) / dot (sub Q P) (sub Q P) = l
  rw [div_eq_iff nn] at hl
  have lin : ∀ c : P3, dot (sub a' (seg k l a (sub Q P))) c = dot a' c - k * dot a c - l * dot (sub Q P) c := by intro c; simp only [dot, sub, seg]; ring
  have hz := dec (sub a' (seg k l a (sub Q P)))
    (by rw [lin, k1]; have : dot (sub Q P) u = 0 := by rw [← hu]; simp only [dot]; ring
        rw [this]; ring)
    (by rw [lin, k2]; have : dot (sub Q P) (cross (sub Q P) u) = 0 := by simp only [dot, cross]; ring
        rw [this]; ring)
    (by rw [lin]; linarith)
  have hx := congrArg Spec.P3.x hz
  have hy := congrArg Spec.P3.y hz
  have hzz := congrArg Spec.P3.z hz
  simp only [sub] at hx hy hzz
  exact p3_ext (sub_eq_zero.1 hx) (sub_eq_zero.1 hy) (sub_eq_zero.1 hzz)

end Kigumi.Fan

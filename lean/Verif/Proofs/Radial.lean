import Verif.Model.RadialOrder
import Verif.Spec.Angles
import Mathlib.Analysis.SpecialFunctions.Complex.Arg
import Mathlib.Tactic.Linarith
import Mathlib.Tactic.LinearCombination
import Mathlib.Tactic.FieldSimp
import Mathlib.Tactic.IntervalCases

/-! # The radial order is the order by angle -/
namespace Kigumi.Radial
open Kigumi Geo Local Real

/-- Angle in the plane, with axes stretched by `k` and `l`. -/
def HasAngle (k l : ℝ) (d : P2) (θ : ℝ) : Prop := 0 ≤ θ ∧ θ < 2 * π ∧ ∃ ρ : ℝ, 0 < ρ ∧ (d.x : ℝ) = k * (ρ * cos θ) ∧ (d.y : ℝ) = l * (ρ * sin θ)

/-- Where the angle of a bin lies. -/
def BinRange (b : Nat) (θ : ℝ) : Prop :=
  (b = 0 ∧ θ = 0) ∨ (b = 1 ∧ 0 < θ ∧ θ < π / 2) ∨ (b = 2 ∧ θ = π / 2) ∨ (b = 3 ∧ π / 2 < θ ∧ θ < π) ∨ (b = 4 ∧ θ = π) ∨
  (b = 5 ∧ π < θ ∧ θ < 3 * π / 2) ∨ (b = 6 ∧ θ = 3 * π / 2) ∨ (b = 7 ∧ 3 * π / 2 < θ ∧ θ < 2 * π)

theorem cast_sign {a : ℚ} {k ρ c : ℝ} (hk : 0 < k) (hρ : 0 < ρ) (h : (a : ℝ) = k * (ρ * c)) : (0 < a ↔ 0 < c) ∧ (a < 0 ↔ c < 0) := by
  have hkr : 0 < k * ρ := mul_pos hk hρ
  rw [← mul_assoc] at h
  constructor
  · rw [← Rat.cast_pos (K := ℝ), h]
    exact mul_pos_iff_of_pos_left hkr
  · rw [← Rat.cast_lt_zero (K := ℝ), h]
    exact ⟨fun h => by by_contra hc; exact absurd h (not_lt.2 (mul_nonneg hkr.le (not_lt.1 hc))), fun h => mul_neg_of_pos_of_neg hkr h⟩

theorem bin_range {k l : ℝ} (hk : 0 < k) (hl : 0 < l) {d : P2} {θ : ℝ} (h : HasAngle k l d θ) : ∃ b, radialBin d = .ok b ∧ BinRange b θ := by
  obtain ⟨h0, h2, ρ, hρ, hx, hy⟩ := h
  obtain ⟨x1, x2⟩ := cast_sign hk hρ hx
  obtain ⟨y1, y2⟩ := cast_sign hl hρ hy
  have hp := pi_pos
  unfold radialBin
  simp only [sgn_pos, sgn_neg, x1, x2, y1, y2]
  have sinshift : sin θ = -sin (θ - π) := by rw [sin_sub_pi, neg_neg]
  have cosshift : cos θ = cos (2 * π - θ) := by rw [cos_two_pi_sub]
  rcases lt_trichotomy θ (π / 2) with ha | ha | ha
  · have hc : 0 < cos θ := cos_pos_of_mem_Ioo ⟨by linarith, ha⟩
    rcases h0.eq_or_lt with hb | hb
    · refine ⟨0, ?_, by simp [BinRange, ← hb]⟩
      rw [if_pos hc, if_neg (by rw [← hb]; simp), if_neg (by rw [← hb]; simp)]
    · have hs := sin_pos_of_pos_of_lt_pi hb (by linarith)
      exact ⟨1, by rw [if_pos hc, if_pos hs], by simp [BinRange, hb, ha]⟩
  · subst ha
    exact ⟨2, by simp, by simp [BinRange]⟩
  · rcases lt_trichotomy θ π with hb | hb | hb
    · have hc := cos_neg_of_pi_div_two_lt_of_lt ha (by linarith)
      have hs := sin_pos_of_pos_of_lt_pi (by linarith) hb
      exact ⟨3, by rw [if_neg (by linarith), if_pos hc, if_pos hs], by simp [BinRange, ha, hb]⟩
    · subst hb
      exact ⟨4, by simp [show ¬ (0 : ℝ) < -1 by norm_num], by simp [BinRange]⟩
    · rcases lt_trichotomy θ (3 * π / 2) with hc | hc | hc
      · have hcn := cos_neg_of_pi_div_two_lt_of_lt ha (by linarith)
        have hs := sin_pos_of_pos_of_lt_pi (x := θ - π) (by linarith) (by linarith)
        exact ⟨5, by rw [if_neg (by linarith), if_pos hcn, if_neg (by linarith), if_pos (by linarith)], by simp [BinRange, hb, hc]⟩
      · have e : θ - π = π / 2 := by linarith
        have hs : sin θ = -1 := by rw [sinshift, e, sin_pi_div_two]
        have hcz : cos θ = 0 := by rw [← neg_eq_zero, ← cos_sub_pi, e, cos_pi_div_two]
        refine ⟨6, ?_, by simp [BinRange, hc]⟩
        rw [hs, hcz]; norm_num
      · have hcp : 0 < cos θ := by rw [cosshift]; exact cos_pos_of_mem_Ioo ⟨by linarith, by linarith⟩
        have hs := sin_pos_of_pos_of_lt_pi (x := θ - π) (by linarith) (by linarith)
        exact ⟨7, by rw [if_pos hcp, if_neg (by linarith), if_pos (by linarith)], by simp [BinRange, hc, h2]⟩

theorem bin_mono {a b : Nat} {α β : ℝ} (ha : BinRange a α) (hb : BinRange b β) (h : a < b) : α < β := by
  have hp := pi_pos
  unfold BinRange at ha hb
  rcases ha with ⟨rfl, ha⟩ | ⟨rfl, ha⟩ | ⟨rfl, ha⟩ | ⟨rfl, ha⟩ | ⟨rfl, ha⟩ | ⟨rfl, ha⟩ | ⟨rfl, ha⟩ | ⟨rfl, ha⟩ <;>
  rcases hb with ⟨rfl, hb⟩ | ⟨rfl, hb⟩ | ⟨rfl, hb⟩ | ⟨rfl, hb⟩ | ⟨rfl, hb⟩ | ⟨rfl, hb⟩ | ⟨rfl, hb⟩ | ⟨rfl, hb⟩ <;>
  first | omega | linarith | (obtain ⟨a1, a2⟩ := ha; linarith) | (obtain ⟨b1, b2⟩ := hb; linarith) | (obtain ⟨a1, a2⟩ := ha; obtain ⟨b1, b2⟩ := hb; linarith)

theorem bin_close {b : Nat} {α β : ℝ} (ha : BinRange b α) (hb : BinRange b β) : -(π / 2) < β - α ∧ β - α < π / 2 := by
  have hp := pi_pos
  unfold BinRange at ha hb
  rcases ha with ⟨rfl, ha⟩ | ⟨rfl, ha⟩ | ⟨rfl, ha⟩ | ⟨rfl, ha⟩ | ⟨rfl, ha⟩ | ⟨rfl, ha⟩ | ⟨rfl, ha⟩ | ⟨rfl, ha⟩ <;>
  rcases hb with ⟨hb', hb⟩ | ⟨hb', hb⟩ | ⟨hb', hb⟩ | ⟨hb', hb⟩ | ⟨hb', hb⟩ | ⟨hb', hb⟩ | ⟨hb', hb⟩ | ⟨hb', hb⟩ <;>
  first | omega | (constructor <;> linarith) | (obtain ⟨a1, a2⟩ := ha; obtain ⟨b1, b2⟩ := hb; constructor <;> linarith)

theorem det_sin {k l : ℝ} {d e : P2} {α β : ℝ} (hk : 0 < k) (hl : 0 < l) (hd : HasAngle k l d α) (he : HasAngle k l e β) : ∃ c : ℝ, 0 < c ∧ (det2 d e : ℝ) = c * sin (β - α) := by
  obtain ⟨-, -, ρ, hρ, hx, hy⟩ := hd
  obtain ⟨-, -, σ, hσ, hx', hy'⟩ := he
  refine ⟨k * l * ρ * σ, by positivity, ?_⟩
  unfold det2
  push_cast
  rw [hx, hy, hx', hy', sin_sub]
  ring

/-- In the plane: comparing bins and then orientation is comparing angles. -/
theorem planar_order {k l : ℝ} (hk : 0 < k) (hl : 0 < l) {d e : P2} {α β : ℝ} (hd : HasAngle k l d α) (he : HasAngle k l e β) {a b : Nat}
    (ha : radialBin d = .ok a) (hb : radialBin e = .ok b) : (if a ≠ b then decide (a < b) else decide (sgn (det2 d e) > 0)) = true ↔ α < β := by
  obtain ⟨a', ha', ra⟩ := bin_range hk hl hd
  obtain ⟨b', hb', rb⟩ := bin_range hk hl he
  rw [ha] at ha'; cases ha'
  rw [hb] at hb'; cases hb'
  by_cases hab : a = b
  · subst hab
    simp only [ne_eq, not_true, if_false, decide_eq_true_eq, sgn_pos]
    obtain ⟨c, hc, hdet⟩ := det_sin hk hl hd he
    obtain ⟨h1, h2⟩ := bin_close ra rb
    rw [← Rat.cast_pos (K := ℝ), hdet, mul_pos_iff_of_pos_left hc]
    have hp := pi_pos
    constructor
    · intro h
      by_contra hn
      have : 0 ≤ sin (α - β) := sin_nonneg_of_nonneg_of_le_pi (by linarith) (by linarith)
      rw [← neg_sub, sin_neg] at this
      linarith
    · intro h
      exact sin_pos_of_pos_of_lt_pi (by linarith) (by linarith)
  · simp only [ne_eq, hab, not_false_eq_true, if_true, decide_eq_true_eq]
    constructor
    · exact bin_mono ra rb
    · intro h
      by_contra hn
      have := bin_mono rb ra (by omega)
      linarith

/-- Every non-zero direction has an angle. -/
theorem hasAngle_exists {k l : ℝ} (hk : 0 < k) (hl : 0 < l) {d : P2} (hd : ¬ (d.x = 0 ∧ d.y = 0)) : ∃ θ, HasAngle k l d θ := by
  let z : ℂ := ⟨d.x / k, d.y / l⟩
  have hz : z ≠ 0 := by
    intro h
    have h1 : (d.x : ℝ) / k = 0 := congrArg Complex.re h
    have h2 : (d.y : ℝ) / l = 0 := congrArg Complex.im h
    rw [div_eq_zero_iff] at h1 h2
    refine hd ⟨?_, ?_⟩
    · rcases h1 with h | h
      · exact_mod_cast h
      · exact absurd h hk.ne'
    · rcases h2 with h | h
      · exact_mod_cast h
      · exact absurd h hl.ne'
  have hr := Complex.norm_mul_cos_arg z
  have hi := Complex.norm_mul_sin_arg z
  have hb := Complex.arg_mem_Ioc z
  have hn : 0 < ‖z‖ := norm_pos_iff.2 hz
  have e1 : (d.x : ℝ) = k * (‖z‖ * cos z.arg) := by
    rw [hr]
    show (d.x : ℝ) = k * (d.x / k)
    field_simp
  have e2 : (d.y : ℝ) = l * (‖z‖ * sin z.arg) := by
    rw [hi]
    show (d.y : ℝ) = l * (d.y / l)
    field_simp
  have hp := pi_pos
  by_cases h0 : 0 ≤ z.arg
  · exact ⟨z.arg, h0, by linarith [hb.2], ‖z‖, hn, e1, e2⟩
  · refine ⟨z.arg + 2 * π, by linarith [hb.1], by linarith, ‖z‖, hn, ?_, ?_⟩
    · rw [cos_add_two_pi]; exact e1
    · rw [sin_add_two_pi]; exact e2

/-! ## From space to the plane -/

theorem sq_pos_of {x y z : ℝ} (h : ¬ (x = 0 ∧ y = 0 ∧ z = 0)) : 0 < x * x + y * y + z * z := by
  by_contra hn
  have hx := mul_self_nonneg x
  have hy := mul_self_nonneg y
  have hz := mul_self_nonneg z
  exact h ⟨mul_self_eq_zero.1 (by linarith), mul_self_eq_zero.1 (by linarith), mul_self_eq_zero.1 (by linarith)⟩

/-- Projection of a vector with given cylinder coordinates, over the reals. -/
theorem project {nx ny nz ux uy uz wx wy wz t ρ c s lu lv : ℝ} (ho : ux * nx + uy * ny + uz * nz = 0) (hlu : lu ≠ 0) (hlv : lv ≠ 0)
    (hu : lu * lu = ux * ux + uy * uy + uz * uz)
    (hv : lv * lv = (ny * uz - nz * uy) * (ny * uz - nz * uy) + (nz * ux - nx * uz) * (nz * ux - nx * uz) + (nx * uy - ny * ux) * (nx * uy - ny * ux))
    (hx : wx = t * nx + ρ * (c * (ux / lu) + s * ((ny * uz - nz * uy) / lv)))
    (hy : wy = t * ny + ρ * (c * (uy / lu) + s * ((nz * ux - nx * uz) / lv)))
    (hz : wz = t * nz + ρ * (c * (uz / lu) + s * ((nx * uy - ny * ux) / lv))) :
    wx * ux + wy * uy + wz * uz = lu * (ρ * c) ∧
    wx * (ny * uz - nz * uy) + wy * (nz * ux - nx * uz) + wz * (nx * uy - ny * ux) = lv * (ρ * s) := by
  subst hx hy hz
  constructor
  · have e : lu * (ρ * c) = ρ * c * ((lu * lu) / lu) := by field_simp
    rw [e, hu]
    linear_combination t * ho
  · have e : lv * (ρ * s) = ρ * s * ((lv * lv) / lv) := by field_simp
    rw [e, hv]
    ring

/-- Decomposition along `n`, `u` and `n × u`. -/
theorem decompose {nx ny nz ux uy uz wx wy wz t A B N : ℝ} (ho : ux * nx + uy * ny + uz * nz = 0) (hN : N ≠ 0) (hU : ux * ux + uy * uy + uz * uz ≠ 0)
    (hNn : N = nx * nx + ny * ny + nz * nz) (ht : t * N = wx * nx + wy * ny + wz * nz) (hA : A * (ux * ux + uy * uy + uz * uz) = wx * ux + wy * uy + wz * uz)
    (hB : B * (N * (ux * ux + uy * uy + uz * uz)) = wx * (ny * uz - nz * uy) + wy * (nz * ux - nx * uz) + wz * (nx * uy - ny * ux)) :
    wx = t * nx + A * ux + B * (ny * uz - nz * uy) ∧ wy = t * ny + A * uy + B * (nz * ux - nx * uz) ∧ wz = t * nz + A * uz + B * (nx * uy - ny * ux) := by
  have hNU : N * (ux * ux + uy * uy + uz * uz) ≠ 0 := mul_ne_zero hN hU
  subst hNn
  refine ⟨?_, ?_, ?_⟩
  · apply mul_right_cancel₀ hNU
    linear_combination (-(ux * ux + uy * uy + uz * uz) * nx) * ht + (-(nx * nx + ny * ny + nz * nz) * ux) * hA + (-(ny * uz - nz * uy)) * hB +
      ((ux * nx + uy * ny + uz * nz) * wx - (wx * ux + wy * uy + wz * uz) * nx - (wx * nx + wy * ny + wz * nz) * ux) * ho
  · apply mul_right_cancel₀ hNU
    linear_combination (-(ux * ux + uy * uy + uz * uz) * ny) * ht + (-(nx * nx + ny * ny + nz * nz) * uy) * hA + (-(nz * ux - nx * uz)) * hB +
      ((ux * nx + uy * ny + uz * nz) * wy - (wx * ux + wy * uy + wz * uz) * ny - (wx * nx + wy * ny + wz * nz) * uy) * ho
  · apply mul_right_cancel₀ hNU
    linear_combination (-(ux * ux + uy * uy + uz * uz) * nz) * ht + (-(nx * nx + ny * ny + nz * nz) * uz) * hA + (-(nx * uy - ny * ux)) * hB +
      ((ux * nx + uy * ny + uz * nz) * wz - (wx * ux + wy * uy + wz * uz) * nz - (wx * nx + wy * ny + wz * nz) * uz) * ho

/-- Lengths of the base vectors. -/
noncomputable def len (a : P3) : ℝ := sqrt ((a.x : ℝ) * a.x + a.y * a.y + a.z * a.z)

theorem len_pos {a : P3} (h : a ≠ ⟨0, 0, 0⟩) : 0 < len a := by
  apply sqrt_pos.2
  apply sq_pos_of
  rintro ⟨h1, h2, h3⟩
  apply h
  obtain ⟨x, y, z⟩ := a
  simp only at h1 h2 h3
  norm_cast at h1 h2 h3
  subst h1 h2 h3; rfl

theorem len_sq (a : P3) : len a * len a = (a.x : ℝ) * a.x + a.y * a.y + a.z * a.z :=
  mul_self_sqrt (by nlinarith [mul_self_nonneg (a.x : ℝ), mul_self_nonneg (a.y : ℝ), mul_self_nonneg (a.z : ℝ)])

theorem lagrange (n u : P3) (ho : dot u n = 0) : dot (cross n u) (cross n u) = dot n n * dot u u := by
  unfold dot cross at *
  simp only
  linear_combination (-(u.x * n.x + u.y * n.y + u.z * n.z)) * ho

theorem dot_self_ne {a : P3} (h : a ≠ ⟨0, 0, 0⟩) : dot a a ≠ 0 := by
  intro hc
  apply h
  obtain ⟨x, y, z⟩ := a
  simp only [dot] at hc
  have hx := mul_self_nonneg x
  have hy := mul_self_nonneg y
  have hz := mul_self_nonneg z
  simp only [Spec.P3.mk.injEq]
  exact ⟨mul_self_eq_zero.1 (by linarith), mul_self_eq_zero.1 (by linarith), mul_self_eq_zero.1 (by linarith)⟩

theorem cross_ne {n u : P3} (ho : dot u n = 0) (hn : n ≠ ⟨0, 0, 0⟩) (hu : u ≠ ⟨0, 0, 0⟩) : cross n u ≠ ⟨0, 0, 0⟩ := by
  intro h
  have := lagrange n u ho
  rw [h] at this
  simp only [dot, mul_zero, add_zero] at this
  exact mul_ne_zero (dot_self_ne hn) (dot_self_ne hu) (by simpa [dot] using this.symm)

theorem sub_ne {p q : P3} (h : p ≠ q) : sub q p ≠ ⟨0, 0, 0⟩ := by
  intro hc
  apply h
  obtain ⟨a, b, c⟩ := p
  obtain ⟨d, e, f⟩ := q
  simp only [sub, Spec.P3.mk.injEq] at hc ⊢
  exact ⟨by linarith, by linarith, by linarith⟩

/-- The Euclidean angle of `r` around the edge is the (stretched) planar angle of the direction the code computes. -/
theorem angle_planar {p q u r : P3} {θ : ℝ} (hpq : p ≠ q) (hu : dot u (sub q p) = 0) (hu0 : u ≠ ⟨0, 0, 0⟩) (h : Spec.AngleAround p q u r θ) :
    HasAngle (len u) (len (cross (sub q p) u)) ⟨dot (sub r p) u, dot (sub r p) (cross (sub q p) u)⟩ θ := by
  have hn := sub_ne hpq
  obtain ⟨h0, h2, t, ρ, hρ, hx, hy, hz⟩ := h
  have ho : (u.x : ℝ) * ((q.x : ℝ) - p.x) + u.y * ((q.y : ℝ) - p.y) + u.z * ((q.z : ℝ) - p.z) = 0 := by
    unfold dot sub at hu
    exact_mod_cast hu
  have l1 := (len_pos hu0).ne'
  have l2 := (len_pos (cross_ne hu hn hu0)).ne'
  have s1 := len_sq u
  have s2 := len_sq (cross (sub q p) u)
  simp only [cross, sub] at s2
  push_cast at s2
  have ev : len (cross (sub q p) u) = sqrt ((((q.y : ℝ) - p.y) * u.z - (q.z - p.z) * u.y) * ((q.y - p.y) * u.z - (q.z - p.z) * u.y) +
      ((q.z - p.z) * u.x - (q.x - p.x) * u.z) * ((q.z - p.z) * u.x - (q.x - p.x) * u.z) + ((q.x - p.x) * u.y - (q.y - p.y) * u.x) * ((q.x - p.x) * u.y - (q.y - p.y) * u.x)) := by
    unfold len cross sub
    push_cast
    rfl
  have key := project (wx := (r.x : ℝ) - p.x) (wy := (r.y : ℝ) - p.y) (wz := (r.z : ℝ) - p.z) (t := t) (ρ := ρ) (c := cos θ) (s := sin θ) ho l1 l2 s1 s2 (by rw [ev]; exact hx) (by rw [ev]; exact hy) (by rw [ev]; exact hz)
  refine ⟨h0, h2, ρ, hρ, ?_, ?_⟩
  · simp only [dot, sub]; push_cast; exact key.1
  · simp only [dot, cross, sub]; push_cast; exact key.2

/-- Every point off the line has an angle. -/
theorem angle_exists {p q u r : P3} (hpq : p ≠ q) (hu : dot u (sub q p) = 0) (hu0 : u ≠ ⟨0, 0, 0⟩) (hr : ¬ Spec.OnLine p q r) : ∃ θ, Spec.AngleAround p q u r θ := by
  have hn := sub_ne hpq
  have hv := cross_ne hu hn hu0
  have ho : (u.x : ℝ) * ((q.x : ℝ) - p.x) + u.y * ((q.y : ℝ) - p.y) + u.z * ((q.z : ℝ) - p.z) = 0 := by
    unfold dot sub at hu
    exact_mod_cast hu
  have nn := dot_self_ne hn
  have uu := dot_self_ne hu0
  have hlag := lagrange _ _ hu
  -- the decomposition over the rationals
  have dec := decompose (nx := (sub q p).x) (ny := (sub q p).y) (nz := (sub q p).z) (ux := u.x) (uy := u.y) (uz := u.z)
    (wx := (sub r p).x) (wy := (sub r p).y) (wz := (sub r p).z) (t := ((dot (sub r p) (sub q p) / dot (sub q p) (sub q p) : ℚ) : ℝ))
    (A := ((dot (sub r p) u / dot u u : ℚ) : ℝ)) (B := ((dot (sub r p) (cross (sub q p) u) / (dot (sub q p) (sub q p) * dot u u) : ℚ) : ℝ))
    (N := ((dot (sub q p) (sub q p) : ℚ) : ℝ))
    (by unfold dot at hu; exact_mod_cast hu) (by exact_mod_cast nn) (by unfold dot at uu; exact_mod_cast uu) (by unfold dot; push_cast; ring)
    (by rw [← Rat.cast_mul, div_mul_cancel₀ _ nn]; unfold dot; push_cast; ring)
    (by
      have : ((u.x : ℝ) * u.x + u.y * u.y + u.z * u.z) = ((dot u u : ℚ) : ℝ) := by unfold dot; push_cast; ring
      rw [this, ← Rat.cast_mul, div_mul_cancel₀ _ uu]; unfold dot; push_cast; ring)
    (by
      have : ((u.x : ℝ) * u.x + u.y * u.y + u.z * u.z) = ((dot u u : ℚ) : ℝ) := by unfold dot; push_cast; ring
      rw [this, ← Rat.cast_mul, ← Rat.cast_mul, div_mul_cancel₀ _ (mul_ne_zero nn uu)]; unfold dot cross; push_cast; ring)
  have hd : ¬ ((⟨dot (sub r p) u, dot (sub r p) (cross (sub q p) u)⟩ : P2).x = 0 ∧ (⟨dot (sub r p) u, dot (sub r p) (cross (sub q p) u)⟩ : P2).y = 0) := by
    rintro ⟨h1, h2⟩
    simp only at h1 h2
    rw [h1, h2] at dec
    simp only [zero_div, Rat.cast_zero, zero_mul, add_zero] at dec
    refine hr ⟨dot (sub r p) (sub q p) / dot (sub q p) (sub q p), ?_, ?_, ?_⟩
    · have := dec.1; simp only [sub] at this ⊢; exact_mod_cast this
    · have := dec.2.1; simp only [sub] at this ⊢; exact_mod_cast this
    · have := dec.2.2; simp only [sub] at this ⊢; exact_mod_cast this
  have l1 := len_pos hu0
  have l2 := len_pos hv
  obtain ⟨θ, h0, h2, ρ, hρ, hx, hy⟩ := hasAngle_exists l1 l2 hd
  simp only at hx hy
  have s1 := len_sq u
  have s2 := len_sq (cross (sub q p) u)
  have eu : ((dot u u : ℚ) : ℝ) = len u * len u := by rw [s1]; unfold dot; push_cast; ring
  have env : ((dot (sub q p) (sub q p) * dot u u : ℚ) : ℝ) = len (cross (sub q p) u) * len (cross (sub q p) u) := by
    rw [s2, ← hlag]; unfold dot; push_cast; ring
  have eA : ((dot (sub r p) u / dot u u : ℚ) : ℝ) = ρ * cos θ / len u := by
    rw [Rat.cast_div, hx, eu]; field_simp
  have eB : ((dot (sub r p) (cross (sub q p) u) / (dot (sub q p) (sub q p) * dot u u) : ℚ) : ℝ) = ρ * sin θ / len (cross (sub q p) u) := by
    rw [Rat.cast_div, hy, env]; field_simp
  rw [eA, eB] at dec
  have ev : len (cross (sub q p) u) = sqrt ((((q.y : ℝ) - p.y) * u.z - (q.z - p.z) * u.y) * ((q.y - p.y) * u.z - (q.z - p.z) * u.y) +
      ((q.z - p.z) * u.x - (q.x - p.x) * u.z) * ((q.z - p.z) * u.x - (q.x - p.x) * u.z) + ((q.x - p.x) * u.y - (q.y - p.y) * u.x) * ((q.x - p.x) * u.y - (q.y - p.y) * u.x)) := by
    unfold len cross sub
    push_cast
    rfl
  rw [ev] at dec
  generalize ((dot (sub r p) (sub q p) / dot (sub q p) (sub q p) : ℚ) : ℝ) = t at dec
  refine ⟨θ, h0, h2, t, ρ, hρ, ?_, ?_, ?_⟩
  · have := dec.1
    simp only [sub] at this; push_cast at this
    rw [this]; unfold len; ring
  · have := dec.2.1
    simp only [sub] at this; push_cast at this
    rw [this]; unfold len; ring
  · have := dec.2.2
    simp only [sub] at this; push_cast at this
    rw [this]; unfold len; ring

/-- A point on the line has no direction: the constructor throws. -/
theorem on_line_throws {p q u r : P3} (hu : dot u (sub q p) = 0) (hr : Spec.OnLine p q r) :
    radialBin ⟨dot (sub r p) u, dot (sub r p) (cross (sub q p) u)⟩ = .exn "degenerate face" := by
  obtain ⟨t, h1, h2, h3⟩ := hr
  have e1 : dot (sub r p) u = 0 := by
    unfold dot sub at *; simp only at *; rw [h1, h2, h3]; linear_combination t * hu
  have e2 : dot (sub r p) (cross (sub q p) u) = 0 := by
    unfold dot cross sub at *; simp only at *; rw [h1, h2, h3]; ring
  rw [e1, e2]
  decide +kernel

/-- The side of the face `pqr` on which the direction with angle `φ` lies. -/
theorem dirDot_sin {p q u r : P3} {θ : ℝ} (hpq : p ≠ q) (hu : dot u (sub q p) = 0) (hu0 : u ≠ ⟨0, 0, 0⟩) (h : Spec.AngleAround p q u r θ) :
    ∃ c : ℝ, 0 < c ∧ ∀ φ, Spec.dirDot p q u φ (Spec.normal p q r) = c * sin (φ - θ) := by
  have hn := sub_ne hpq
  have hv := cross_ne hu hn hu0
  have l1 := len_pos hu0
  have l2 := len_pos hv
  obtain ⟨-, -, ρ, hρ, hx, hy⟩ := angle_planar hpq hu hu0 h
  refine ⟨ρ * (len (cross (sub q p) u) / len u), mul_pos hρ (div_pos l2 l1), ?_⟩
  intro φ
  have ho : (u.x : ℝ) * ((q.x : ℝ) - p.x) + u.y * ((q.y : ℝ) - p.y) + u.z * ((q.z : ℝ) - p.z) = 0 := by
    unfold dot sub at hu
    exact_mod_cast hu
  have ev : len (cross (sub q p) u) = sqrt ((((q.y : ℝ) - p.y) * u.z - (q.z - p.z) * u.y) * ((q.y - p.y) * u.z - (q.z - p.z) * u.y) +
      ((q.z - p.z) * u.x - (q.x - p.x) * u.z) * ((q.z - p.z) * u.x - (q.x - p.x) * u.z) + ((q.x - p.x) * u.y - (q.y - p.y) * u.x) * ((q.x - p.x) * u.y - (q.y - p.y) * u.x)) := by
    unfold len cross sub
    push_cast
    rfl
  have eu : len u = sqrt ((u.x : ℝ) * u.x + u.y * u.y + u.z * u.z) := rfl
  have s1 := len_sq u
  have s2 := len_sq (cross (sub q p) u)
  have hl := lagrange _ _ hu
  have s3 : len (cross (sub q p) u) * len (cross (sub q p) u) = ((dot (sub q p) (sub q p) : ℚ) : ℝ) * (len u * len u) := by
    rw [s1, s2]
    have : ((dot (cross (sub q p) u) (cross (sub q p) u) : ℚ) : ℝ) = ((dot (sub q p) (sub q p) * dot u u : ℚ) : ℝ) := by rw [hl]
    unfold dot at this ⊢
    push_cast at this ⊢
    rw [this]
  unfold Spec.dirDot Spec.normal
  simp only
  rw [← ev, ← eu, sin_sub]
  clear eu ev
  generalize hL : len u = L at *
  generalize hM : len (cross (sub q p) u) = M at *
  simp only [dot, cross, sub] at hx hy s3
  push_cast at hx hy s3 ⊢
  have hM0 : M ≠ 0 := l2.ne'
  have hL0 : L ≠ 0 := l1.ne'
  generalize sin φ = sφ
  generalize cos φ = cφ
  generalize hs : sin θ = sθ at *
  generalize hc : cos θ = cθ at *
  -- both coordinates of the normal
  have hy' : -( ((u.x : ℝ)) * (((q.y : ℝ) - p.y) * (r.z - p.z) - (q.z - p.z) * (r.y - p.y)) + u.y * ((q.z - p.z) * (r.x - p.x) - (q.x - p.x) * (r.z - p.z)) +
      u.z * ((q.x - p.x) * (r.y - p.y) - (q.y - p.y) * (r.x - p.x))) = M * (ρ * sθ) := by
    rw [← hy]; ring
  have hx' : (((q.y : ℝ) - p.y) * u.z - (q.z - p.z) * u.y) * (((q.y : ℝ) - p.y) * (r.z - p.z) - (q.z - p.z) * (r.y - p.y)) +
      ((q.z - p.z) * u.x - (q.x - p.x) * u.z) * ((q.z - p.z) * (r.x - p.x) - (q.x - p.x) * (r.z - p.z)) +
      ((q.x - p.x) * u.y - (q.y - p.y) * u.x) * ((q.x - p.x) * (r.y - p.y) - (q.y - p.y) * (r.x - p.x)) =
      (((q.x : ℝ) - p.x) * (q.x - p.x) + (q.y - p.y) * (q.y - p.y) + (q.z - p.z) * (q.z - p.z)) * (L * (ρ * cθ)) := by
    rw [← hx]
    linear_combination (-(((r.x : ℝ) - p.x) * (q.x - p.x) + (r.y - p.y) * (q.y - p.y) + (r.z - p.z) * (q.z - p.z))) * ho
  generalize hN : (((q.x : ℝ) - p.x) * (q.x - p.x) + (q.y - p.y) * (q.y - p.y) + (q.z - p.z) * (q.z - p.z)) = N at *
  have e : N * (L / M) = M / L := by
    field_simp
    linear_combination -s3
  calc _ = cφ / L * ((u.x : ℝ) * (((q.y : ℝ) - p.y) * (r.z - p.z) - (q.z - p.z) * (r.y - p.y)) + u.y * ((q.z - p.z) * (r.x - p.x) - (q.x - p.x) * (r.z - p.z)) +
      u.z * ((q.x - p.x) * (r.y - p.y) - (q.y - p.y) * (r.x - p.x))) + sφ / M * ((((q.y : ℝ) - p.y) * u.z - (q.z - p.z) * u.y) * (((q.y : ℝ) - p.y) * (r.z - p.z) - (q.z - p.z) * (r.y - p.y)) +
      ((q.z - p.z) * u.x - (q.x - p.x) * u.z) * ((q.z - p.z) * (r.x - p.x) - (q.x - p.x) * (r.z - p.z)) +
      ((q.x - p.x) * u.y - (q.y - p.y) * u.x) * ((q.x - p.x) * (r.y - p.y) - (q.y - p.y) * (r.x - p.x))) := by ring
    _ = cφ / L * (-(M * (ρ * sθ))) + sφ / M * (N * (L * (ρ * cθ))) := by rw [hx', ← hy']; ring
    _ = ρ * (sφ * cθ) * (N * (L / M)) - ρ * (cφ * sθ) * (M / L) := by ring
    _ = ρ * (M / L) * (sφ * cθ - cφ * sθ) := by rw [e]; ring

theorem normal_rot (a b c : P3) : Spec.normal b c a = Spec.normal a b c := by
  unfold Spec.normal
  simp only [Spec.P3.mk.injEq]
  refine ⟨by ring, by ring, by ring⟩

theorem normal_swap (a b c : P3) : Spec.normal b a c = ⟨-(Spec.normal a b c).x, -(Spec.normal a b c).y, -(Spec.normal a b c).z⟩ := by
  unfold Spec.normal
  simp only [Spec.P3.mk.injEq]
  refine ⟨by ring, by ring, by ring⟩

theorem dirDot_neg (p q u : P3) (φ : ℝ) (N : P3) : Spec.dirDot p q u φ ⟨-N.x, -N.y, -N.z⟩ = -Spec.dirDot p q u φ N := by
  unfold Spec.dirDot
  push_cast
  ring

theorem normal_same {pts : Nat → P3} {f g : Tri Nat} (h : Spec.SameFace f g) : Spec.normal (pts g.a) (pts g.b) (pts g.c) = Spec.normal (pts f.a) (pts f.b) (pts f.c) := by
  rcases h with rfl | rfl | rfl
  · rfl
  · simp only [Tri.rot]; exact normal_rot _ _ _
  · simp only [Tri.rot]; rw [normal_rot, normal_rot]

end Kigumi.Radial

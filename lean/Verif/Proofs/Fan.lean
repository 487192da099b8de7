import Verif.Proofs.Space
import Verif.Proofs.Radial
import Mathlib.Topology.Instances.Rat
import Mathlib.Analysis.SpecialFunctions.Trigonometric.Bounds

/-! # Directions around an edge

A point close to an inner point of an edge is inside or outside of a region depending on the angle of its direction; directions with rational coordinates are dense. -/
namespace Kigumi.Fan
open Kigumi Geo Real FaceFace Spec.Side Spec.Triangles

/-- `d` is a positive multiple of the unit vector with angle `φ`, in coordinates `X`, `Y`. -/
def Dir (X Y : P3 → ℝ) (d : P3) (φ : ℝ) : Prop := ∃ ρ : ℝ, 0 < ρ ∧ X d = ρ * cos φ ∧ Y d = ρ * sin φ

/-- Coordinates are linear. -/
structure Frame (X Y : P3 → ℝ) : Prop where
  x : ∀ (A B : ℚ) (d e : P3), X (seg A B d e) = A * X d + B * X e
  y : ∀ (A B : ℚ) (d e : P3), Y (seg A B d e) = A * Y d + B * Y e
  onto : ∀ a b : ℚ, ∃ d k l, 0 < k ∧ 0 < l ∧ X d = k * a ∧ Y d = l * b

theorem dir_shift {X Y : P3 → ℝ} {d : P3} {φ : ℝ} (h : Dir X Y d φ) (k : ℤ) : Dir X Y d (φ + 2 * π * k) := by
  obtain ⟨ρ, h0, h1, h2⟩ := h
  refine ⟨ρ, h0, ?_, ?_⟩
  · rw [h1, show φ + 2 * π * k = φ + k * (2 * π) by ring, cos_add_int_mul_two_pi]
  · rw [h2, show φ + 2 * π * k = φ + k * (2 * π) by ring, sin_add_int_mul_two_pi]

/-- Any angle can be moved into a given turn. -/
theorem dir_from {X Y : P3 → ℝ} {d : P3} {φ : ℝ} (h : Dir X Y d φ) (α : ℝ) : ∃ ψ, Dir X Y d ψ ∧ α ≤ ψ ∧ ψ < α + 2 * π := by
  have hp : 0 < 2 * π := by have := pi_pos; linarith
  refine ⟨φ + 2 * π * (-⌊(φ - α) / (2 * π)⌋ : ℤ), dir_shift h _, ?_, ?_⟩
  · have := Int.floor_le ((φ - α) / (2 * π))
    rw [le_div_iff₀ hp] at this
    push_cast; linarith
  · have := Int.lt_floor_add_one ((φ - α) / (2 * π))
    rw [div_lt_iff₀ hp] at this
    push_cast; linarith

theorem dir_exists {X Y : P3 → ℝ} {d : P3} (h : ¬ (X d = 0 ∧ Y d = 0)) : ∃ φ, Dir X Y d φ := by
  have hz : (⟨X d, Y d⟩ : ℂ) ≠ 0 := by
    intro h0
    rw [Complex.ext_iff] at h0
    exact h h0
  refine ⟨Complex.arg ⟨X d, Y d⟩, ‖(⟨X d, Y d⟩ : ℂ)‖, norm_pos_iff.2 hz, ?_, ?_⟩
  · rw [Complex.norm_mul_cos_arg]
  · rw [Complex.norm_mul_sin_arg]

/-- A vector on the left of one direction and on the right of another one. -/
theorem sector {X Y : P3 → ℝ} {d : P3} {α β : ℝ} (h1 : α < β) (h2 : β < α + π) (ha : 0 < cos α * Y d - sin α * X d) (hb : 0 < sin β * X d - cos β * Y d) : ∃ φ, α < φ ∧ φ < β ∧ Dir X Y d φ := by
  obtain ⟨φ0, h0⟩ := dir_exists (X := X) (Y := Y) (d := d) (by rintro ⟨e1, e2⟩; rw [e1, e2] at ha; simp at ha)
  obtain ⟨φ, hφ, l1, l2⟩ := dir_from h0 α
  obtain ⟨ρ, hρ, ex, ey⟩ := id hφ
  have s1 : 0 < sin (φ - α) := by
    have : cos α * Y d - sin α * X d = ρ * sin (φ - α) := by rw [ex, ey, sin_sub]; ring
    rw [this] at ha
    exact (mul_pos_iff_of_pos_left hρ).1 ha
  have s2 : 0 < sin (β - φ) := by
    have : sin β * X d - cos β * Y d = ρ * sin (β - φ) := by rw [ex, ey, sin_sub]; ring
    rw [this] at hb
    exact (mul_pos_iff_of_pos_left hρ).1 hb
  have k1 : φ - α < π := by
    by_contra hc
    push Not at hc
    have : sin (φ - α) ≤ 0 := by
      have := sin_nonneg_of_nonneg_of_le_pi (x := φ - α - π) (by linarith) (by linarith)
      rw [sin_sub_pi] at this; linarith
    linarith
  have k2 : 0 < φ - α := by
    rcases lt_or_eq_of_le (show 0 ≤ φ - α by linarith) with h | h
    · exact h
    · rw [← h] at s1; simp at s1
  have k3 : 0 < β - φ := by
    by_contra hc
    push Not at hc
    have := sin_nonpos_of_nonpos_of_neg_pi_le hc (by linarith)
    linarith
  exact ⟨φ, by linarith, by linarith, hφ⟩

theorem dir_pos {X Y : P3 → ℝ} (F : Frame X Y) {d : P3} {φ : ℝ} (h : Dir X Y d φ) {k : ℚ} (hk : 0 < k) : Dir X Y (seg k 0 d d) φ := by
  obtain ⟨ρ, h0, h1, h2⟩ := h
  have hk' : (0 : ℝ) < k := by exact_mod_cast hk
  refine ⟨k * ρ, mul_pos hk' h0, ?_, ?_⟩
  · rw [F.x, h1]; push_cast; ring
  · rw [F.y, h2]; push_cast; ring

/-- Combinations of two directions are between them. -/
theorem dir_between {X Y : P3 → ℝ} (F : Frame X Y) {d e : P3} {α β : ℝ} (hd : Dir X Y d α) (he : Dir X Y e β) (h1 : α ≤ β) (h2 : β < α + π) {A B : ℚ} (hA : 0 ≤ A) (hB : 0 ≤ B) (hAB : A + B = 1) :
    ∃ φ, α ≤ φ ∧ φ ≤ β ∧ Dir X Y (seg A B d e) φ := by
  obtain ⟨ρ, r0, r1, r2⟩ := id hd
  obtain ⟨σ, s0, s1, s2⟩ := id he
  have ex := F.x A B d e
  have ey := F.y A B d e
  rcases lt_or_eq_of_le hA with hA | rfl
  · rcases lt_or_eq_of_le hB with hB | rfl
    · rcases lt_or_eq_of_le h1 with h1 | rfl
      · have hA' : (0 : ℝ) < A := by exact_mod_cast hA
        have hB' : (0 : ℝ) < B := by exact_mod_cast hB
        have hs : 0 < sin (β - α) := sin_pos_of_pos_of_lt_pi (by linarith) (by linarith)
        obtain ⟨φ, k1, k2, k3⟩ := sector (X := X) (Y := Y) (d := seg A B d e) h1 h2 (by
            rw [ex, ey, r1, r2, s1, s2]
            have : cos α * (A * (ρ * sin α) + B * (σ * sin β)) - sin α * (A * (ρ * cos α) + B * (σ * cos β)) = B * (σ * sin (β - α)) := by rw [sin_sub]; ring
            rw [this]; positivity) (by
            rw [ex, ey, r1, r2, s1, s2]
            have : sin β * (A * (ρ * cos α) + B * (σ * cos β)) - cos β * (A * (ρ * sin α) + B * (σ * sin β)) = A * (ρ * sin (β - α)) := by rw [sin_sub]; ring
            rw [this]; positivity)
        exact ⟨φ, k1.le, k2.le, k3⟩
      · have hA' : (0 : ℝ) < A := by exact_mod_cast hA
        have hB' : (0 : ℝ) < B := by exact_mod_cast hB
        refine ⟨α, le_refl _, le_refl _, A * ρ + B * σ, by positivity, ?_, ?_⟩
        · rw [ex, r1, s1]; ring
        · rw [ey, r2, s2]; ring
    · have hA1 : (A : ℝ) = 1 := by have : A = 1 := by linarith
                                   rw [this]; norm_num
      refine ⟨α, le_refl _, h1, ρ, r0, ?_, ?_⟩
      · rw [ex, r1, hA1]; push_cast; ring
      · rw [ey, r2, hA1]; push_cast; ring
  · have hB1 : (B : ℝ) = 1 := by have : B = 1 := by linarith
                                 rw [this]; norm_num
    refine ⟨β, h1, le_refl _, σ, s0, ?_, ?_⟩
    · rw [ex, s1, hB1]; push_cast; ring
    · rw [ey, s2, hB1]; push_cast; ring

/-- Directions with rational coordinates are dense. -/
theorem dir_dense {X Y : P3 → ℝ} (F : Frame X Y) {α β : ℝ} (h : α < β) : ∃ d φ, α < φ ∧ φ < β ∧ Dir X Y d φ := by
  have hp := pi_pos
  -- a smaller sector
  obtain ⟨β', h1, h2, h3⟩ : ∃ β', α < β' ∧ β' ≤ β ∧ β' < α + π := ⟨min β (α + π / 2), lt_min h (by linarith), min_le_left _ _, lt_of_le_of_lt (min_le_right _ _) (by linarith)⟩
  -- the lengths of the coordinate directions
  obtain ⟨d1, k, l', hk, _, x1, y1⟩ := F.onto 1 0
  obtain ⟨d2, k', l, _, hl, x2, y2⟩ := F.onto 0 1
  simp only [Rat.cast_one, Rat.cast_zero, mul_one, mul_zero] at x1 y1 x2 y2
  let U : Set (ℝ × ℝ) := {z | 0 < cos α * (l * z.2) - sin α * (k * z.1)} ∩ {z | 0 < sin β' * (k * z.1) - cos β' * (l * z.2)}
  have hU : IsOpen U := by
    apply IsOpen.inter
    · exact isOpen_lt continuous_const (by fun_prop)
    · exact isOpen_lt continuous_const (by fun_prop)
  have hne : U.Nonempty := by
    refine ⟨(cos ((α + β') / 2) / k, sin ((α + β') / 2) / l), ?_, ?_⟩
    · show 0 < cos α * (l * (sin ((α + β') / 2) / l)) - sin α * (k * (cos ((α + β') / 2) / k))
      rw [mul_div_cancel₀ _ hl.ne', mul_div_cancel₀ _ hk.ne']
      have : cos α * sin ((α + β') / 2) - sin α * cos ((α + β') / 2) = sin ((β' - α) / 2) := by
        rw [show (β' - α) / 2 = (α + β') / 2 - α by ring, sin_sub]; ring
      rw [this]; exact sin_pos_of_pos_of_lt_pi (by linarith) (by linarith)
    · show 0 < sin β' * (k * (cos ((α + β') / 2) / k)) - cos β' * (l * (sin ((α + β') / 2) / l))
      rw [mul_div_cancel₀ _ hl.ne', mul_div_cancel₀ _ hk.ne']
      have : sin β' * cos ((α + β') / 2) - cos β' * sin ((α + β') / 2) = sin ((β' - α) / 2) := by
        rw [show (β' - α) / 2 = β' - (α + β') / 2 by ring, sin_sub]
      rw [this]; exact sin_pos_of_pos_of_lt_pi (by linarith) (by linarith)
  have hd : DenseRange (Prod.map (fun q : ℚ => (q : ℝ)) (fun q : ℚ => (q : ℝ))) := DenseRange.prodMap Rat.denseRange_cast Rat.denseRange_cast
  obtain ⟨⟨a, b⟩, hab⟩ := hd.exists_mem_open hU hne
  obtain ⟨ha, hb⟩ := hab
  have ex : X (seg a b d1 d2) = k * a := by rw [F.x, x1, x2]; ring
  have ey : Y (seg a b d1 d2) = l * b := by rw [F.y, y1, y2]; ring
  obtain ⟨φ, p1, p2, p3⟩ := sector (X := X) (Y := Y) (d := seg a b d1 d2) h1 h3 (by rw [ex, ey]; exact ha) (by rw [ex, ey]; exact hb)
  exact ⟨_, φ, p1, by linarith, p3⟩

/-! ## A region around an edge -/

/-- Close to `m`, membership `χ` only changes across the half planes spanned by the edge and the vectors of the list. -/
structure Pencil (X Y : P3 → ℝ) (χ : P3 → Prop) (m : P3) (e : ℚ) (as : List P3) : Prop where
  frame : Frame X Y
  pos : 0 < e
  const : ∀ d d', Near e (shift m 1 d) m → Near e (shift m 1 d') m →
    (∀ A B, 0 ≤ A → 0 ≤ B → A + B = 1 → ∀ a ∈ as, ∀ φ, Dir X Y a φ → ¬ Dir X Y (seg A B d d') φ) → (∀ A B, 0 ≤ A → 0 ≤ B → A + B = 1 → ∃ φ, Dir X Y (seg A B d d') φ) →
    (χ (shift m 1 d) ↔ χ (shift m 1 d'))

/-- No vector of the list has an angle between the two. -/
def FreeOn (X Y : P3 → ℝ) (as : List P3) (α β : ℝ) : Prop := ∀ a ∈ as, ∀ θ, Dir X Y a θ → ¬ (α ≤ θ ∧ θ ≤ β)

theorem FreeOn.mono {X Y : P3 → ℝ} {as : List P3} {α β α' β' : ℝ} (h : FreeOn X Y as α β) (h1 : α ≤ α') (h2 : β' ≤ β) : FreeOn X Y as α' β' :=
  fun a ha θ hθ hin => h a ha θ hθ ⟨by linarith [hin.1], by linarith [hin.2]⟩

theorem scale_near {e : ℚ} (he : 0 < e) (m d : P3) : ∃ k > 0, Near e (shift m 1 (seg k 0 d d)) m := by
  obtain ⟨k, hk, _, h⟩ := Side.shift_near he d
  refine ⟨k, hk, ?_⟩
  have := h k (by linarith) (le_refl _) m
  have e1 : shift m 1 (seg k 0 d d) = shift m k d := by apply p3_ext <;> simp [shift, seg]
  rwa [e1]

section
variable {X Y : P3 → ℝ} {χ : P3 → Prop} {m : P3} {e : ℚ} {as : List P3}

theorem Pencil.short (P : Pencil X Y χ m e as) {d d' : P3} {α β : ℝ} (hd : Dir X Y d α) (hd' : Dir X Y d' β) (h1 : α ≤ β) (h2 : β < α + π) (n1 : Near e (shift m 1 d) m) (n2 : Near e (shift m 1 d') m)
    (hf : FreeOn X Y as α β) : χ (shift m 1 d) ↔ χ (shift m 1 d') := by
  apply P.const d d' n1 n2
  · intro A B hA hB hAB a ha φ hφ hs
    obtain ⟨ψ, p1, p2, hψ⟩ := dir_between P.frame hd hd' h1 h2 hA hB hAB
    -- the vector has both angles, so the half plane has the angle in between
    apply hf a ha ψ _ ⟨p1, p2⟩
    obtain ⟨ρ, r0, r1, r2⟩ := hφ
    obtain ⟨σ, s0, s1, s2⟩ := hs
    obtain ⟨τ, t0, t1, t2⟩ := hψ
    refine ⟨ρ / σ * τ, by positivity, ?_, ?_⟩
    · rw [r1]; rw [s1] at t1
      have : cos φ = τ * cos ψ / σ := by rw [← t1]; field_simp
      rw [this]; field_simp
    · rw [r2]; rw [s2] at t2
      have : sin φ = τ * sin ψ / σ := by rw [← t2]; field_simp
      rw [this]; field_simp
  · intro A B hA hB hAB
    obtain ⟨ψ, p1, p2, hψ⟩ := dir_between P.frame hd hd' h1 h2 hA hB hAB
    exact ⟨ψ, hψ⟩

theorem Pencil.long (P : Pencil X Y χ m e as) : ∀ (n : Nat) {d d' : P3} {α β : ℝ}, Dir X Y d α → Dir X Y d' β → α ≤ β → β - α ≤ n * (π / 4) → Near e (shift m 1 d) m → Near e (shift m 1 d') m →
    FreeOn X Y as α β → (χ (shift m 1 d) ↔ χ (shift m 1 d')) := by
  intro n
  have hp := pi_pos
  induction n with
  | zero =>
    intro d d' α β hd hd' h1 h2 n1 n2 hf
    simp only [Nat.cast_zero, zero_mul] at h2
    exact P.short hd hd' h1 (by linarith) n1 n2 hf
  | succ n ih =>
    intro d d' α β hd hd' h1 h2 n1 n2 hf
    by_cases hs : β < α + π
    · exact P.short hd hd' h1 hs n1 n2 hf
    · push Not at hs
      obtain ⟨c, φ, p1, p2, hc⟩ := dir_dense P.frame (show α + π / 4 < α + π / 2 by linarith)
      obtain ⟨k, hk, hn⟩ := scale_near P.pos m c
      have hc' := dir_pos P.frame hc hk
      refine (P.short hd hc' (by linarith) (by linarith) n1 hn (hf.mono (le_refl _) (by linarith))).trans ?_
      refine ih hc' hd' (by linarith) ?_ hn n2 (hf.mono (by linarith) (le_refl _))
      push_cast at h2; linarith

theorem Pencil.along (P : Pencil X Y χ m e as) {d d' : P3} {α β : ℝ} (hd : Dir X Y d α) (hd' : Dir X Y d' β) (n1 : Near e (shift m 1 d) m) (n2 : Near e (shift m 1 d') m)
    (hf : FreeOn X Y as (min α β) (max α β)) : χ (shift m 1 d) ↔ χ (shift m 1 d') := by
  have hp := pi_pos
  have big : ∀ x : ℝ, ∃ n : Nat, x ≤ n * (π / 4) := by
    intro x
    obtain ⟨n, hn⟩ := exists_nat_ge (x / (π / 4))
    exact ⟨n, by rwa [div_le_iff₀ (by linarith)] at hn⟩
  rcases le_total α β with h | h
  · rw [min_eq_left h, max_eq_right h] at hf
    obtain ⟨n, hn⟩ := big (β - α)
    exact P.long n hd hd' h hn n1 n2 hf
  · rw [min_eq_right h, max_eq_left h] at hf
    obtain ⟨n, hn⟩ := big (α - β)
    exact (P.long n hd' hd h hn n2 n1 hf).symm

/-- Inside, when one leaves in the direction with angle `φ`. -/
def inside (X Y : P3 → ℝ) (χ : P3 → Prop) (m : P3) (e : ℚ) (as : List P3) (φ : ℝ) : Prop :=
  ∃ ψ d, Dir X Y d ψ ∧ Near e (shift m 1 d) m ∧ FreeOn X Y as (min φ ψ) (max φ ψ) ∧ χ (shift m 1 d)

theorem freeOn_join {α β γ : ℝ} (h1 : FreeOn X Y as (min α β) (max α β)) (h2 : FreeOn X Y as (min α γ) (max α γ)) : FreeOn X Y as (min β γ) (max β γ) := by
  intro a ha θ hθ ⟨l1, l2⟩
  rcases min_le_iff.1 l1 with l1 | l1 <;> rcases le_max_iff.1 l2 with l2 | l2
  · rcases le_total α θ with h | h
    · exact h1 a ha θ hθ ⟨(min_le_left _ _).trans h, l2.trans (le_max_right _ _)⟩
    · exact h1 a ha θ hθ ⟨(min_le_right _ _).trans l1, h.trans (le_max_left _ _)⟩
  · rcases le_total α θ with h | h
    · exact h2 a ha θ hθ ⟨(min_le_left _ _).trans h, l2.trans (le_max_right _ _)⟩
    · exact h1 a ha θ hθ ⟨(min_le_right _ _).trans l1, h.trans (le_max_left _ _)⟩
  · rcases le_total α θ with h | h
    · exact h1 a ha θ hθ ⟨(min_le_left _ _).trans h, l2.trans (le_max_right _ _)⟩
    · exact h2 a ha θ hθ ⟨(min_le_right _ _).trans l1, h.trans (le_max_left _ _)⟩
  · rcases le_total α θ with h | h
    · exact h2 a ha θ hθ ⟨(min_le_left _ _).trans h, l2.trans (le_max_right _ _)⟩
    · exact h2 a ha θ hθ ⟨(min_le_right _ _).trans l1, h.trans (le_max_left _ _)⟩

theorem Pencil.inside_iff (P : Pencil X Y χ m e as) {φ ψ : ℝ} {d : P3} (hd : Dir X Y d ψ) (hn : Near e (shift m 1 d) m) (hf : FreeOn X Y as (min φ ψ) (max φ ψ)) :
    inside X Y χ m e as φ ↔ χ (shift m 1 d) := by
  constructor
  · rintro ⟨ψ', d', h1, h2, h3, h4⟩
    exact (P.along hd h1 hn h2 (freeOn_join hf h3)).2 h4
  · intro h
    exact ⟨ψ, d, hd, hn, hf, h⟩

theorem Pencil.inside_const (P : Pencil X Y χ m e as) {α β : ℝ} (h : α ≤ β) (hf : FreeOn X Y as α β) : inside X Y χ m e as α ↔ inside X Y χ m e as β := by
  rcases lt_or_eq_of_le h with h | rfl
  · obtain ⟨c, φ, p1, p2, hc⟩ := dir_dense P.frame h
    obtain ⟨k, hk, hn⟩ := scale_near P.pos m c
    have hc' := dir_pos P.frame hc hk
    rw [P.inside_iff hc' hn (φ := α) (by rw [min_eq_left p1.le, max_eq_right p1.le]; exact hf.mono (le_refl _) p2.le),
      P.inside_iff hc' hn (φ := β) (by rw [min_eq_right p2.le, max_eq_left p2.le]; exact hf.mono p1.le (le_refl _))]
  · rfl

theorem inside_periodic (φ : ℝ) : inside X Y χ m e as (φ + 2 * π) ↔ inside X Y χ m e as φ := by
  have key : ∀ φ (k : ℤ), inside X Y χ m e as φ → inside X Y χ m e as (φ + 2 * π * k) := by
    rintro φ k ⟨ψ, d, h1, h2, h3, h4⟩
    refine ⟨ψ + 2 * π * k, d, dir_shift h1 k, h2, ?_, h4⟩
    intro a ha θ hθ ⟨l1, l2⟩
    refine h3 a ha (θ + 2 * π * (-k : ℤ)) (dir_shift hθ _) ?_
    rw [min_add_add_right] at l1
    rw [max_add_add_right] at l2
    push_cast
    constructor <;> linarith
  constructor
  · intro h
    have := key _ (-1) h
    rwa [show φ + 2 * π + 2 * π * ((-1 : ℤ) : ℝ) = φ by push_cast; ring] at this
  · intro h
    have := key _ 1 h
    rwa [show φ + 2 * π * ((1 : ℤ) : ℝ) = φ + 2 * π by push_cast; ring] at this

theorem le_of_mul_self_le {a b : ℝ} (_ : 0 ≤ a) (hb : 0 ≤ b) (h : a * a ≤ b * b) : a ≤ b := by
  by_contra hc
  push Not at hc
  nlinarith

/-- The vectors of the list with other angles keep a distance. -/
theorem isolated (X Y : P3 → ℝ) {a : P3} {θ : ℝ} (ha : Dir X Y a θ) (as : List P3) : ∃ ε : ℝ, 0 < ε ∧ ε < π ∧ ∀ b ∈ as, ∀ φ, Dir X Y b φ → |φ - θ| < ε → φ = θ := by
  have hp := pi_pos
  induction as with
  | nil => exact ⟨π / 2, by linarith, by linarith, by simp⟩
  | cons b as ih =>
    obtain ⟨ε, e0, e1, h⟩ := ih
    obtain ⟨ε', e0', h'⟩ : ∃ ε' : ℝ, 0 < ε' ∧ ∀ φ, Dir X Y b φ → |φ - θ| < ε' → φ = θ := by
      obtain ⟨ρ, r0, r1, r2⟩ := ha
      by_cases hdet : X a * Y b - Y a * X b = 0
      · refine ⟨π, hp, fun φ hφ hlt => ?_⟩
        obtain ⟨σ, s0, s1, s2⟩ := hφ
        have hs : ρ * σ * sin (φ - θ) = 0 := by
          have : X a * Y b - Y a * X b = ρ * σ * sin (φ - θ) := by rw [r1, r2, s1, s2, sin_sub]; ring
          rw [← this, hdet]
        have hs : sin (φ - θ) = 0 := (mul_eq_zero.1 hs).resolve_left (by positivity)
        rw [abs_lt] at hlt
        have := (sin_eq_zero_iff_of_lt_of_lt hlt.1 hlt.2).1 hs
        linarith
      · refine ⟨|X a * Y b - Y a * X b| / (ρ * (|X b| + |Y b| + 1)), ?_, fun φ hφ hlt => ?_⟩
        · have := abs_nonneg (X b); have := abs_nonneg (Y b); have := abs_pos.2 hdet; positivity
        · exfalso
          obtain ⟨σ, s0, s1, s2⟩ := hφ
          have hs : X a * Y b - Y a * X b = ρ * σ * sin (φ - θ) := by rw [r1, r2, s1, s2, sin_sub]; ring
          have hσ : σ ≤ |X b| + |Y b| := by
            have h1 : σ * σ ≤ (|X b| + |Y b|) * (|X b| + |Y b|) := by
              have : σ * σ = X b * X b + Y b * Y b := by rw [s1, s2]; have := sin_sq_add_cos_sq φ; nlinarith
              rw [this]
              have a1 := abs_mul_abs_self (X b); have a2 := abs_mul_abs_self (Y b)
              have := mul_nonneg (abs_nonneg (X b)) (abs_nonneg (Y b))
              nlinarith
            exact le_of_mul_self_le s0.le (by positivity) h1
          have hb : |sin (φ - θ)| ≤ |φ - θ| := abs_sin_le_abs
          have hM : 0 < |X b| + |Y b| + 1 := by positivity
          rw [lt_div_iff₀ (by positivity)] at hlt
          have : |X a * Y b - Y a * X b| ≤ |φ - θ| * (ρ * (|X b| + |Y b| + 1)) := by
            rw [hs, abs_mul, abs_of_pos (show 0 < ρ * σ by positivity)]
            have h1 : ρ * σ * |sin (φ - θ)| ≤ ρ * σ * |φ - θ| := mul_le_mul_of_nonneg_left hb (by positivity)
            have h2 : ρ * σ * |φ - θ| ≤ |φ - θ| * (ρ * (|X b| + |Y b| + 1)) := by
              have := abs_nonneg (φ - θ)
              have h3 : ρ * σ ≤ ρ * (|X b| + |Y b| + 1) := mul_le_mul_of_nonneg_left (by linarith) r0.le
              nlinarith
            linarith
          linarith
    refine ⟨min ε ε', lt_min e0 e0', lt_of_le_of_lt (min_le_left _ _) e1, fun c hc φ hφ hlt => ?_⟩
    rcases List.mem_cons.1 hc with rfl | hc
    · exact h' φ hφ (lt_of_lt_of_le hlt (min_le_right _ _))
    · exact h c hc φ hφ (lt_of_lt_of_le hlt (min_le_left _ _))
end

end Kigumi.Fan

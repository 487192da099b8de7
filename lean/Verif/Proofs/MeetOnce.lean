import Verif.Proofs.TriPlane
import Verif.Spec.Constructions
import Mathlib.Algebra.Order.Ring.Abs

/-!
# Simplices whose relative interiors meet in one point
-/
namespace Kigumi.FaceFace
open Kigumi Geo Spec.Triangles

/-- The open segment. -/
def OpenSeg (a b x : P3) : Prop := ∃ s t : ℚ, s + t = 1 ∧ 0 < s ∧ 0 < t ∧ x = seg s t a b

/-- The open triangle. -/
def OpenTri (a b c x : P3) : Prop := ∃ u v w : ℚ, u + v + w = 1 ∧ 0 < u ∧ 0 < v ∧ 0 < w ∧ x = combo u v w a b c

/-- A small step keeps a positive number positive. -/
theorem small (u e : ℚ) (hu : 0 < u) : ∃ d > 0, ∀ t, -d ≤ t → t ≤ d → 0 < u + t * e := by
  have hpos : 0 < |e| + 1 := by have := abs_nonneg e; linarith
  have hq : 0 < u / (2 * (|e| + 1)) := div_pos hu (by linarith)
  refine ⟨u / (2 * (|e| + 1)), hq, fun t h1 h2 => ?_⟩
  have hd : u / (2 * (|e| + 1)) * (|e| + 1) = u / 2 := by field_simp
  have ht : |t| ≤ u / (2 * (|e| + 1)) := abs_le.2 ⟨h1, h2⟩
  have h3 : |t * e| ≤ u / 2 := by
    rw [abs_mul, ← hd]
    exact mul_le_mul ht (by linarith) (abs_nonneg _) hq.le
  have := (abs_le.1 h3).1
  linarith

/-- A point of an open segment can move along it. -/
theorem seg_room {a b x : P3} (h : OpenSeg a b x) {d : P3} {k : ℚ} (hd : ∀ f : P3 → ℚ, f = Spec.P3.x ∨ f = Spec.P3.y ∨ f = Spec.P3.z → f d = k * (f b - f a)) :
    ∃ e > 0, ∀ t, -e ≤ t → t ≤ e → OpenSeg a b ⟨x.x + t * d.x, x.y + t * d.y, x.z + t * d.z⟩ := by
  obtain ⟨s, t, hst, hs, ht, rfl⟩ := h
  obtain ⟨e1, p1, h1⟩ := small s (-k) hs
  obtain ⟨e2, p2, h2⟩ := small t k ht
  refine ⟨min e1 e2, lt_min p1 p2, fun r r1 r2 => ?_⟩
  refine ⟨s + r * (-k), t + r * k, by linarith, h1 r (by linarith [min_le_left e1 e2]) (by linarith [min_le_left e1 e2]), h2 r (by linarith [min_le_right e1 e2]) (by linarith [min_le_right e1 e2]), ?_⟩
  have hx := hd _ (Or.inl rfl); have hy := hd _ (Or.inr (Or.inl rfl)); have hz := hd _ (Or.inr (Or.inr rfl))
  apply p3_ext <;> simp only [seg, hx, hy, hz] <;> ring

/-- A point of an open triangle can move in its plane. -/
theorem tri_room {a b c x : P3} (hn : dot (normal a b c) (normal a b c) ≠ 0) (h : OpenTri a b c x) {d : P3} (hd : dot (normal a b c) d = 0) :
    ∃ e > 0, ∀ t, -e ≤ t → t ≤ e → OpenTri a b c ⟨x.x + t * d.x, x.y + t * d.y, x.z + t * d.z⟩ := by
  obtain ⟨u, v, w, hs, hu, hv, hw, rfl⟩ := h
  obtain ⟨u', v', w', hs', he⟩ := plane_weights hn (x := ⟨a.x + d.x, a.y + d.y, a.z + d.z⟩) (by
    have : det4 ⟨a.x + d.x, a.y + d.y, a.z + d.z⟩ a b c = - dot (normal a b c) d := by simp only [det4, normal, dot, cross, sub]; ring
    rw [this, hd, neg_zero])
  have ex : a.x + d.x = u' * a.x + v' * b.x + w' * c.x := congrArg Spec.P3.x he
  have ey : a.y + d.y = u' * a.y + v' * b.y + w' * c.y := congrArg Spec.P3.y he
  have ez : a.z + d.z = u' * a.z + v' * b.z + w' * c.z := congrArg Spec.P3.z he
  obtain ⟨e1, p1, h1⟩ := small u (u' - 1) hu
  obtain ⟨e2, p2, h2⟩ := small v v' hv
  obtain ⟨e3, p3, h3⟩ := small w w' hw
  have m1 : min e1 (min e2 e3) ≤ e1 := min_le_left _ _
  have m2 : min e1 (min e2 e3) ≤ e2 := (min_le_right _ _).trans (min_le_left _ _)
  have m3 : min e1 (min e2 e3) ≤ e3 := (min_le_right _ _).trans (min_le_right _ _)
  refine ⟨min e1 (min e2 e3), lt_min p1 (lt_min p2 p3), fun t r1 r2 => ?_⟩
  refine ⟨u + t * (u' - 1), v + t * v', w + t * w', by linear_combination hs + t * hs', h1 t (by linarith) (by linarith), h2 t (by linarith) (by linarith), h3 t (by linarith) (by linarith), ?_⟩
  apply p3_ext <;> simp only [combo]
  · linear_combination t * ex
  · linear_combination t * ey
  · linear_combination t * ez

/-- No common direction when there is only one common point. -/
theorem no_step {A B : P3 → Prop} {x d : P3} (hx : ∀ y, A y → B y → y = x)
    (hA : ∃ e > 0, ∀ t, -e ≤ t → t ≤ e → A ⟨x.x + t * d.x, x.y + t * d.y, x.z + t * d.z⟩)
    (hB : ∃ e > 0, ∀ t, -e ≤ t → t ≤ e → B ⟨x.x + t * d.x, x.y + t * d.y, x.z + t * d.z⟩) : d.x = 0 ∧ d.y = 0 ∧ d.z = 0 := by
  obtain ⟨e1, p1, h1⟩ := hA
  obtain ⟨e2, p2, h2⟩ := hB
  have hp : 0 < min e1 e2 := lt_min p1 p2
  have hm1 := min_le_left e1 e2; have hm2 := min_le_right e1 e2
  have := hx _ (h1 (min e1 e2) (by linarith) hm1) (h2 (min e1 e2) (by linarith) hm2)
  have k : ∀ u v : ℚ, u + min e1 e2 * v = u → v = 0 := by
    intro u v h
    have : min e1 e2 * v = 0 := by linarith
    rcases mul_eq_zero.1 this with h | h
    · linarith
    · exact h
  exact ⟨k _ _ (congrArg Spec.P3.x this), k _ _ (congrArg Spec.P3.y this), k _ _ (congrArg Spec.P3.z this)⟩

theorem ne_sub {a b : P3} (h : a ≠ b) : dot (sub b a) (sub b a) ≠ 0 := by
  intro h0
  obtain ⟨x, y, z⟩ := dot_self_zero h0
  simp only [sub] at x y z
  exact h (p3_ext (by linarith) (by linarith) (by linarith))

/-- Two vectors with cross product zero are parallel. -/
theorem parallel {u v : P3} (hv : dot v v ≠ 0) (h : dot (cross u v) (cross u v) = 0) : ∃ k : ℚ, u = ⟨k * v.x, k * v.y, k * v.z⟩ := by
  obtain ⟨x, y, z⟩ := dot_self_zero h
  simp only [cross] at x y z
  refine ⟨dot u v / dot v v, ?_⟩
  have key : ∀ (f g : ℚ), dot v v * f = dot u v * g → f = dot u v / dot v v * g := by
    intro f g h
    rw [div_mul_eq_mul_div, eq_div_iff hv]; linarith
  apply p3_ext
  · apply key; simp only [dot]; linear_combination v.y * z - v.z * y
  · apply key; simp only [dot]; linear_combination v.z * x - v.x * z
  · apply key; simp only [dot]; linear_combination v.x * y - v.y * x

/-- Two open segments that meet once are not parallel. -/
theorem seg_seg {a b p q x : P3} (hab : a ≠ b) (hpq : p ≠ q) (h1 : OpenSeg a b x) (h2 : OpenSeg p q x) (hx : ∀ y, OpenSeg a b y → OpenSeg p q y → y = x) :
    dot (cross (sub b a) (sub q p)) (cross (sub b a) (sub q p)) ≠ 0 := by
  intro h0
  obtain ⟨k, hk⟩ := parallel (ne_sub hpq) h0
  have A := seg_room h1 (d := sub b a) (k := 1) (by rintro f (rfl | rfl | rfl) <;> simp [sub])
  have B := seg_room h2 (d := sub b a) (k := k) (by
    have hx := congrArg Spec.P3.x hk; have hy := congrArg Spec.P3.y hk; have hz := congrArg Spec.P3.z hk
    rintro f (rfl | rfl | rfl)
    · exact hx
    · exact hy
    · exact hz)
  obtain ⟨x0, y0, z0⟩ := no_step hx A B
  exact ne_sub hab (by simp [dot, x0, y0, z0])

/-- An open triangle and an open segment that meet once: the segment is not parallel to the plane. -/
theorem tri_seg {a b c p q x : P3} (hn : dot (normal a b c) (normal a b c) ≠ 0) (hpq : p ≠ q) (h1 : OpenTri a b c x) (h2 : OpenSeg p q x) (hx : ∀ y, OpenTri a b c y → OpenSeg p q y → y = x) :
    dot (normal a b c) (sub q p) ≠ 0 := by
  intro h0
  have B := seg_room h2 (d := sub q p) (k := 1) (by rintro f (rfl | rfl | rfl) <;> simp [sub])
  obtain ⟨x0, y0, z0⟩ := no_step hx (tri_room hn h1 h0) B
  exact ne_sub hpq (by simp [dot, x0, y0, z0])

/-- Two open triangles never meet in exactly one point. -/
theorem tri_tri {a b c p q r x : P3} (hn : dot (normal a b c) (normal a b c) ≠ 0) (hm : dot (normal p q r) (normal p q r) ≠ 0) (h1 : OpenTri a b c x) (h2 : OpenTri p q r x)
    (hx : ∀ y, OpenTri a b c y → OpenTri p q r y → y = x) : False := by
  by_cases hd : dot (cross (normal a b c) (normal p q r)) (cross (normal a b c) (normal p q r)) = 0
  · obtain ⟨k, hk⟩ := parallel hm hd
    have hk0 : k ≠ 0 := by
      rintro rfl
      rw [hk] at hn; simp [dot] at hn
    have hab : dot (sub b a) (sub b a) ≠ 0 := by
      intro h0
      obtain ⟨x0, y0, z0⟩ := dot_self_zero h0
      apply hn
      simp only [normal, cross, dot, x0, y0, z0]; ring
    have d1 : dot (normal a b c) (sub b a) = 0 := by simp only [normal, dot, cross, sub]; ring
    have d2 : dot (normal p q r) (sub b a) = 0 := by
      rw [hk] at d1
      have : k * dot (normal p q r) (sub b a) = 0 := by
        rw [← d1]; simp only [dot]; ring
      exact (mul_eq_zero.1 this).resolve_left hk0
    obtain ⟨x0, y0, z0⟩ := no_step hx (tri_room hn h1 d1) (tri_room hm h2 d2)
    exact hab (by simp [dot, x0, y0, z0])
  · have d1 : dot (normal a b c) (cross (normal a b c) (normal p q r)) = 0 := by
      generalize normal a b c = n; generalize normal p q r = m; simp only [dot, cross]; ring
    have d2 : dot (normal p q r) (cross (normal a b c) (normal p q r)) = 0 := by
      generalize normal a b c = n; generalize normal p q r = m; simp only [dot, cross]; ring
    obtain ⟨x0, y0, z0⟩ := no_step hx (tri_room hn h1 d1) (tri_room hm h2 d2)
    exact hd (by simp [dot, x0, y0, z0])

/-- Lines that are not parallel have at most one common point. -/
theorem lines_once {a b p q x : P3} (h : dot (cross (sub b a) (sub q p)) (cross (sub b a) (sub q p)) ≠ 0) (h1 : OnLine a b x) (h2 : OnLine p q x) : OnlyCommon (OnLine a b) (OnLine p q) x := by
  refine ⟨h1, h2, fun y k1 k2 => ?_⟩
  obtain ⟨s, t, hs, rfl⟩ := h1
  obtain ⟨s', t', hs', e⟩ := h2
  obtain ⟨u, v, hu, rfl⟩ := k1
  obtain ⟨u', v', hu', e'⟩ := k2
  have e1 := congrArg Spec.P3.x e; have e2 := congrArg Spec.P3.y e; have e3 := congrArg Spec.P3.z e
  have f1 := congrArg Spec.P3.x e'; have f2 := congrArg Spec.P3.y e'; have f3 := congrArg Spec.P3.z e'
  simp only at e1 e2 e3 f1 f2 f3
  have hs : s = 1 - t := by linarith
  have hs' : s' = 1 - t' := by linarith
  have hu : u = 1 - v := by linarith
  have hu' : u' = 1 - v' := by linarith
  subst hs hs' hu hu'
  have g1 : (t - v) * (b.x - a.x) = (t' - v') * (q.x - p.x) := by linear_combination e1 - f1
  have g2 : (t - v) * (b.y - a.y) = (t' - v') * (q.y - p.y) := by linear_combination e2 - f2
  have g3 : (t - v) * (b.z - a.z) = (t' - v') * (q.z - p.z) := by linear_combination e3 - f3
  have hz : t - v = 0 := by
    by_contra hne
    apply h
    have c1 : (cross (sub b a) (sub q p)).x = 0 := by
      have : (t - v) * (cross (sub b a) (sub q p)).x = 0 := by simp only [cross, sub]; linear_combination (q.z - p.z) * g2 - (q.y - p.y) * g3
      exact (mul_eq_zero.1 this).resolve_left hne
    have c2 : (cross (sub b a) (sub q p)).y = 0 := by
      have : (t - v) * (cross (sub b a) (sub q p)).y = 0 := by simp only [cross, sub]; linear_combination (q.x - p.x) * g3 - (q.z - p.z) * g1
      exact (mul_eq_zero.1 this).resolve_left hne
    have c3 : (cross (sub b a) (sub q p)).z = 0 := by
      have : (t - v) * (cross (sub b a) (sub q p)).z = 0 := by simp only [cross, sub]; linear_combination (q.y - p.y) * g1 - (q.x - p.x) * g2
      exact (mul_eq_zero.1 this).resolve_left hne
    simp [dot, c1, c2, c3]
  have : v = t := by linarith
  subst this; rfl

/-- A plane and a line that is not parallel to it have at most one common point. -/
theorem plane_line_once {a b c p q x : P3} (h : dot (normal a b c) (sub q p) ≠ 0) (h1 : InPlane a b c x) (h2 : OnLine p q x) : OnlyCommon (InPlane a b c) (OnLine p q) x := by
  refine ⟨h1, h2, fun y k1 k2 => ?_⟩
  obtain ⟨u, v, w, hs, e⟩ := h1
  obtain ⟨u', v', w', hs', e'⟩ := k1
  have d1 : det4 x a b c = 0 := by rw [e]; exact det_combo_first u v w hs a b c
  have d2 : det4 y a b c = 0 := by rw [e']; exact det_combo_first u' v' w' hs' a b c
  obtain ⟨s, t, hst, rfl⟩ := h2
  obtain ⟨s', t', hst', rfl⟩ := k2
  have hs : s = 1 - t := by linarith
  have hs' : s' = 1 - t' := by linarith
  subst hs hs'
  have : (t - t') * dot (normal a b c) (sub q p) = 0 := by
    have : det4 ⟨(1 - t') * p.x + t' * q.x, (1 - t') * p.y + t' * q.y, (1 - t') * p.z + t' * q.z⟩ a b c - det4 ⟨(1 - t) * p.x + t * q.x, (1 - t) * p.y + t * q.y, (1 - t) * p.z + t * q.z⟩ a b c = (t - t') * dot (normal a b c) (sub q p) := by
      simp only [det4, normal, dot, cross, sub]; ring
    rw [← this, d1, d2]; ring
  have : t' = t := by
    rcases mul_eq_zero.1 this with h' | h'
    · linarith
    · exact absurd h' h
  rw [this]

/-- Two segments with a common end never meet once in their open segments. -/
theorem seg_ends {a b p q x : P3} (h : dot (cross (sub b a) (sub q p)) (cross (sub b a) (sub q p)) ≠ 0) (h1 : OpenSeg a b x) (h2 : OpenSeg p q x) : a ≠ p ∧ a ≠ q ∧ b ≠ p ∧ b ≠ q := by
  have on : ∀ {a b : P3}, OnLine a b a ∧ OnLine a b b := by
    intro a b; exact ⟨⟨1, 0, by norm_num, by apply p3_ext <;> simp⟩, ⟨0, 1, by norm_num, by apply p3_ext <;> simp⟩⟩
  have opn : ∀ {a b x : P3}, OpenSeg a b x → OnLine a b x := by rintro a b x ⟨s, t, hs, -, -, e⟩; exact ⟨s, t, hs, e⟩
  have noend : ∀ {a b x : P3}, OpenSeg a b x → (x = a ∨ x = b) → a = b := by
    rintro a b x ⟨s, t, hs, ps, pt, rfl⟩ (e | e)
    · have hs : s = 1 - t := by linarith
      subst hs
      have k : ∀ u v : ℚ, (1 - t) * u + t * v = u → u = v := by
        intro u v h
        have : t * (v - u) = 0 := by linarith
        rcases mul_eq_zero.1 this with h' | h'
        · linarith
        · linarith
      exact p3_ext (k _ _ (congrArg Spec.P3.x e)) (k _ _ (congrArg Spec.P3.y e)) (k _ _ (congrArg Spec.P3.z e))
    · have hs : t = 1 - s := by linarith
      subst hs
      have k : ∀ u v : ℚ, s * u + (1 - s) * v = v → u = v := by
        intro u v h
        have : s * (u - v) = 0 := by linarith
        rcases mul_eq_zero.1 this with h' | h'
        · linarith
        · linarith
      exact p3_ext (k _ _ (congrArg Spec.P3.x e)) (k _ _ (congrArg Spec.P3.y e)) (k _ _ (congrArg Spec.P3.z e))
  have hab : a ≠ b := by
    rintro rfl; apply h; simp only [dot, cross, sub]; ring
  have once := (lines_once h (opn h1) (opn h2)).2.2
  refine ⟨?_, ?_, ?_, ?_⟩ <;> rintro rfl
  · exact hab (noend h1 (Or.inl (once _ on.1 on.1).symm))
  · exact hab (noend h1 (Or.inl (once _ on.1 on.2).symm))
  · exact hab (noend h1 (Or.inr (once _ on.2 on.1).symm))
  · exact hab (noend h1 (Or.inr (once _ on.2 on.2).symm))

end Kigumi.FaceFace

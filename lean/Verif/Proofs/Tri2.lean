import Verif.Proofs.TriSigns

/-! # A segment and a triangle in a plane -/
namespace Kigumi.FaceFace
open Kigumi Geo Spec.Triangles

/-- Twice the area vector. -/
def normal (p q r : P3) : P3 := cross (sub q p) (sub r p)

theorem dot_self_pos {n : P3} (h : dot n n ≠ 0) : 0 < dot n n :=
  lt_of_le_of_ne (by unfold dot; nlinarith [mul_self_nonneg n.x, mul_self_nonneg n.y, mul_self_nonneg n.z]) (Ne.symm h)

theorem dot_self_zero {n : P3} (h : dot n n = 0) : n.x = 0 ∧ n.y = 0 ∧ n.z = 0 := by
  unfold dot at h
  have h1 := mul_self_nonneg n.x; have h2 := mul_self_nonneg n.y; have h3 := mul_self_nonneg n.z
  exact ⟨mul_self_eq_zero.1 (by linarith), mul_self_eq_zero.1 (by linarith), mul_self_eq_zero.1 (by linarith)⟩

theorem plane_identity (p q r x : P3) (f : P3 → ℚ) (hf : f = Spec.P3.x ∨ f = Spec.P3.y ∨ f = Spec.P3.z) :
    dot (normal p q r) (normal p q r) * (f x - f p) = dot (cross (sub x p) (sub r p)) (normal p q r) * (f q - f p) +
      dot (cross (sub q p) (sub x p)) (normal p q r) * (f r - f p) + dot (normal p q r) (sub x p) * f (normal p q r) := by
  rcases hf with rfl | rfl | rfl <;> simp only [normal, dot, cross, sub] <;> ring

/-- Points of the plane of a triangle have weights. -/
theorem plane_weights {p q r x : P3} (hn : dot (normal p q r) (normal p q r) ≠ 0) (h : det4 x p q r = 0) :
    ∃ u v w : ℚ, u + v + w = 1 ∧ x = combo u v w p q r := by
  generalize hv' : dot (cross (sub x p) (sub r p)) (normal p q r) / dot (normal p q r) (normal p q r) = v
  generalize hw' : dot (cross (sub q p) (sub x p)) (normal p q r) / dot (normal p q r) (normal p q r) = w
  refine ⟨1 - v - w, v, w, by ring, ?_⟩
  have hv : v * dot (normal p q r) (normal p q r) = dot (cross (sub x p) (sub r p)) (normal p q r) := by rw [← hv']; exact div_mul_cancel₀ _ hn
  have hw : w * dot (normal p q r) (normal p q r) = dot (cross (sub q p) (sub x p)) (normal p q r) := by rw [← hw']; exact div_mul_cancel₀ _ hn
  have h' : dot (normal p q r) (sub x p) = 0 := by
    have : dot (normal p q r) (sub x p) = - det4 x p q r := by simp only [normal, det4, dot, cross, sub]; ring
    rw [this, h, neg_zero]
  have fin : ∀ (f : P3 → ℚ), f = Spec.P3.x ∨ f = Spec.P3.y ∨ f = Spec.P3.z → f x = (1 - v - w) * f p + v * f q + w * f r := by
    intro f hf
    have k := plane_identity p q r x f hf
    rw [h', ← hv, ← hw] at k
    have : dot (normal p q r) (normal p q r) * (f x - ((1 - v - w) * f p + v * f q + w * f r)) = 0 := by linear_combination k
    rcases mul_eq_zero.1 this with h0 | h0
    · exact absurd h0 hn
    · linarith
  apply p3_ext
  · exact fin _ (Or.inl rfl)
  · exact fin _ (Or.inr (Or.inl rfl))
  · exact fin _ (Or.inr (Or.inr rfl))

/-- Weights are unique. -/
theorem weights_unique {p q r : P3} (hn : dot (normal p q r) (normal p q r) ≠ 0) {u v w u' v' w' : ℚ} (h : u + v + w = 1) (h' : u' + v' + w' = 1)
    (e : combo u v w p q r = combo u' v' w' p q r) : u = u' ∧ v = v' ∧ w = w' := by
  have hx : (combo u v w p q r).x = (combo u' v' w' p q r).x := by rw [e]
  have hy : (combo u v w p q r).y = (combo u' v' w' p q r).y := by rw [e]
  have hz : (combo u v w p q r).z = (combo u' v' w' p q r).z := by rw [e]
  simp only [combo] at hx hy hz
  have hu : u = 1 - v - w := by linarith
  have hu' : u' = 1 - v' - w' := by linarith
  subst hu; subst hu'
  have e1 : (v - v') * (q.x - p.x) + (w - w') * (r.x - p.x) = 0 := by linear_combination hx
  have e2 : (v - v') * (q.y - p.y) + (w - w') * (r.y - p.y) = 0 := by linear_combination hy
  have e3 : (v - v') * (q.z - p.z) + (w - w') * (r.z - p.z) = 0 := by linear_combination hz
  have hv : v - v' = 0 := by
    by_contra hne
    apply hn
    have z : (v - v') * (normal p q r).z = 0 := by simp only [normal, cross, sub]; linear_combination (r.y - p.y) * e1 - (r.x - p.x) * e2
    have x : (v - v') * (normal p q r).x = 0 := by simp only [normal, cross, sub]; linear_combination (r.z - p.z) * e2 - (r.y - p.y) * e3
    have y : (v - v') * (normal p q r).y = 0 := by simp only [normal, cross, sub]; linear_combination (r.x - p.x) * e3 - (r.z - p.z) * e1
    rw [dot, (mul_eq_zero.1 x).resolve_left hne, (mul_eq_zero.1 y).resolve_left hne, (mul_eq_zero.1 z).resolve_left hne]; ring
  have hw : w - w' = 0 := by
    by_contra hne
    apply hn
    have z : (w - w') * (normal p q r).z = 0 := by simp only [normal, cross, sub]; linear_combination (q.x - p.x) * e2 - (q.y - p.y) * e1
    have x : (w - w') * (normal p q r).x = 0 := by simp only [normal, cross, sub]; linear_combination (q.y - p.y) * e3 - (q.z - p.z) * e2
    have y : (w - w') * (normal p q r).y = 0 := by simp only [normal, cross, sub]; linear_combination (q.z - p.z) * e1 - (q.x - p.x) * e3
    rw [dot, (mul_eq_zero.1 x).resolve_left hne, (mul_eq_zero.1 y).resolve_left hne, (mul_eq_zero.1 z).resolve_left hne]; ring
  refine ⟨by linarith, by linarith, by linarith⟩

/-- Orientation of points given by weights. -/
theorem orientation_combo {u1 v1 w1 u2 v2 w2 u3 v3 w3 : ℚ} (h1 : u1 + v1 + w1 = 1) (h2 : u2 + v2 + w2 = 1) (h3 : u3 + v3 + w3 = 1) (p q r : P3) :
    coplanarOrientation (combo u1 v1 w1 p q r) (combo u2 v2 w2 p q r) (combo u3 v3 w3 p q r) =
    sgn (u1 * (v2 * w3 - w2 * v3) - v1 * (u2 * w3 - w2 * u3) + w1 * (u2 * v3 - v2 * u3)) * coplanarOrientation p q r := by
  have a1 : u1 = 1 - v1 - w1 := by linarith
  have a2 : u2 = 1 - v2 - w2 := by linarith
  have a3 : u3 = 1 - v3 - w3 := by linarith
  subst a1; subst a2; subst a3
  generalize hD : (1 - v1 - w1) * (v2 * w3 - w2 * v3) - v1 * ((1 - v2 - w2) * w3 - w2 * (1 - v3 - w3)) + w1 * ((1 - v2 - w2) * v3 - v2 * (1 - v3 - w3)) = D
  have exy : detXY (combo (1 - v1 - w1) v1 w1 p q r) (combo (1 - v2 - w2) v2 w2 p q r) (combo (1 - v3 - w3) v3 w3 p q r) = D * detXY p q r := by
    rw [← hD]; simp only [detXY, combo]; ring
  have eyz : detYZ (combo (1 - v1 - w1) v1 w1 p q r) (combo (1 - v2 - w2) v2 w2 p q r) (combo (1 - v3 - w3) v3 w3 p q r) = D * detYZ p q r := by
    rw [← hD]; simp only [detYZ, combo]; ring
  have exz : detXZ (combo (1 - v1 - w1) v1 w1 p q r) (combo (1 - v2 - w2) v2 w2 p q r) (combo (1 - v3 - w3) v3 w3 p q r) = D * detXZ p q r := by
    rw [← hD]; simp only [detXZ, combo]; ring
  unfold coplanarOrientation
  rw [exy, eyz, exz, sgn_mul, sgn_mul, sgn_mul]
  by_cases h0 : sgn D = 0
  · simp [h0]
  · by_cases h1 : sgn (detXY p q r) = 0
    · by_cases h2 : sgn (detYZ p q r) = 0
      · simp [h1, h2]
      · simp [h0, h1, h2]
    · simp [h0, h1]

theorem combo_p (p q r : P3) : combo 1 0 0 p q r = p := by apply p3_ext <;> simp [combo]
theorem combo_q (p q r : P3) : combo 0 1 0 p q r = q := by apply p3_ext <;> simp [combo]
theorem combo_r (p q r : P3) : combo 0 0 1 p q r = r := by apply p3_ext <;> simp [combo]
theorem combo_rot (u v w : ℚ) (p q r : P3) : combo u v w p q r = combo v w u q r p := by apply p3_ext <;> simp only [combo] <;> ring

theorem open_rot (m0 m1 m2 : Bool) (p q r x : P3) : Open m0 m1 m2 p q r x ↔ Open m1 m2 m0 q r p x := by
  constructor
  · rintro ⟨u, v, w, h, rfl, h0, h1, h2⟩
    exact ⟨v, w, u, by linarith, combo_rot _ _ _ _ _ _, h1, h2, h0⟩
  · rintro ⟨v, w, u, h, rfl, h1, h2, h0⟩
    exact ⟨u, v, w, by linarith, (combo_rot _ _ _ _ _ _).symm, h0, h1, h2⟩

theorem normal_rot (p q r : P3) : normal q r p = normal p q r := by apply p3_ext <;> simp only [normal, cross, sub] <;> ring

/-- A triangle that is not degenerate has an orientation. -/
theorem orientation_ne {p q r : P3} (hn : dot (normal p q r) (normal p q r) ≠ 0) : coplanarOrientation p q r = 1 ∨ coplanarOrientation p q r = -1 := by
  have key : ∀ s ∈ signs, s ≠ 0 → s = 1 ∨ s = -1 := by decide
  unfold coplanarOrientation
  split
  · rename_i h; exact key _ (sgn_mem _) h
  · split
    · rename_i h; exact key _ (sgn_mem _) h
    · rename_i h1 h2
      refine key _ (sgn_mem _) ?_
      intro h3
      rw [not_not, sgn_zero] at h1 h2
      rw [sgn_zero] at h3
      apply hn
      have z : (normal p q r).z = 0 := by rw [← h1]; simp only [normal, cross, sub, detXY]; ring
      have x : (normal p q r).x = 0 := by rw [← h2]; simp only [normal, cross, sub, detYZ]; ring
      have y : (normal p q r).y = 0 := by rw [← neg_eq_zero, ← h3]; simp only [normal, cross, sub, detXZ]; ring
      rw [dot, x, y, z]; ring

/-- Lexicographic comparison with the ends of a segment. -/
theorem compareLex_seg (t : ℚ) (p q : P3) : compareLex (seg (1 - t) t p q) p = sgn t * compareLex q p := by
  have hx : (seg (1 - t) t p q).x - p.x = t * (q.x - p.x) := by simp only [seg]; ring
  have hy : (seg (1 - t) t p q).y - p.y = t * (q.y - p.y) := by simp only [seg]; ring
  have hz : (seg (1 - t) t p q).z - p.z = t * (q.z - p.z) := by simp only [seg]; ring
  unfold compareLex
  rw [hx, hy, hz, sgn_mul, sgn_mul, sgn_mul]
  by_cases h0 : sgn t = 0
  · simp [h0]
  · by_cases h1 : sgn (q.x - p.x) = 0
    · by_cases h2 : sgn (q.y - p.y) = 0
      · simp [h1, h2]
      · simp [h0, h1, h2]
    · simp [h0, h1]

theorem compareLex_swap (p q : P3) : compareLex q p = - compareLex p q := by
  unfold compareLex
  rw [← neg_sub p.x q.x, ← neg_sub p.y q.y, ← neg_sub p.z q.z, sgn_neg', sgn_neg', sgn_neg']
  by_cases h1 : sgn (p.x - q.x) = 0
  · by_cases h2 : sgn (p.y - q.y) = 0
    · simp [h1, h2]
    · simp [h1, h2]
  · simp [h1]

theorem compareLex_ne {p q : P3} (h : p ≠ q) : compareLex p q = 1 ∨ compareLex p q = -1 := by
  have key : ∀ s ∈ signs, s ≠ 0 → s = 1 ∨ s = -1 := by decide
  unfold compareLex
  split
  · rename_i h; exact key _ (sgn_mem _) h
  · split
    · rename_i h; exact key _ (sgn_mem _) h
    · rename_i h1 h2
      refine key _ (sgn_mem _) ?_
      intro h3
      rw [not_not, sgn_zero] at h1 h2
      rw [sgn_zero] at h3
      exact h (p3_ext (by linarith) (by linarith) (by linarith))

/-- A small step keeps positive weights positive. -/
theorem small_step {u : ℚ} (hu : 0 < u) (e : ℚ) : ∃ d > 0, ∀ x : ℚ, 0 < x → x ≤ d → 0 < u + x * e := by
  by_cases he : 0 ≤ e
  · exact ⟨1, by norm_num, fun x hx _ => by have := mul_nonneg hx.le he; linarith⟩
  · have he : 0 < -e := by linarith
    refine ⟨u / (2 * -e), div_pos hu (by linarith), fun x _ hx => ?_⟩
    rw [le_div_iff₀ (by linarith)] at hx
    nlinarith

theorem small_step_weight {m : Bool} {u : ℚ} (hu : Weight m u) {e : ℚ} (he : m = false → e = 0) :
    ∃ d > 0, ∀ x : ℚ, 0 < x → x ≤ d → Weight m (u + x * e) := by
  cases m
  · have : u = 0 := by simpa [Weight] using hu
    exact ⟨1, by norm_num, fun x _ _ => by simp [Weight, he rfl, this]⟩
  · obtain ⟨d, hd, h⟩ := small_step (by simpa [Weight] using hu : 0 < u) e
    exact ⟨d, hd, fun x h1 h2 => by simpa [Weight] using h x h1 h2⟩

/-- A segment inside the directions of a simplex never meets its relative interior in a single point. -/
theorem not_once {a b p q r : P3} {u1 v1 w1 u2 v2 w2 : ℚ} (h1 : u1 + v1 + w1 = 1) (h2 : u2 + v2 + w2 = 1)
    (ha : a = combo u1 v1 w1 p q r) (hb : b = combo u2 v2 w2 p q r) (hab : a ≠ b) {m : Pat}
    (hm0 : m.1 = false → u1 = u2) (hm1 : m.2.1 = false → v1 = v2) (hm2 : m.2.2 = false → w1 = w2) :
    ¬ MeetOnce (Seg true true a b) (Open m.1 m.2.1 m.2.2 p q r) := by
  rintro ⟨x, ⟨⟨s, t, hst, rfl, hs, ht⟩, u, v, w, huvw, e, hu, hv, hw⟩, huniq⟩
  obtain ⟨d0, p0, f0⟩ := small_step_weight hs (e := -1) (by simp)
  obtain ⟨d1, p1, f1⟩ := small_step_weight ht (e := 1) (by simp)
  obtain ⟨d2, p2, f2⟩ := small_step_weight hu (e := u2 - u1) (fun h => by rw [hm0 h]; ring)
  obtain ⟨d3, p3, f3⟩ := small_step_weight hv (e := v2 - v1) (fun h => by rw [hm1 h]; ring)
  obtain ⟨d4, p4, f4⟩ := small_step_weight hw (e := w2 - w1) (fun h => by rw [hm2 h]; ring)
  let z := min d0 (min d1 (min d2 (min d3 d4)))
  have hz : 0 < z := by simp only [z, lt_min_iff]; exact ⟨p0, p1, p2, p3, p4⟩
  have z0 : z ≤ d0 := min_le_left _ _
  have z1 : z ≤ d1 := (min_le_right _ _).trans (min_le_left _ _)
  have z2 : z ≤ d2 := (min_le_right _ _).trans ((min_le_right _ _).trans (min_le_left _ _))
  have z3 : z ≤ d3 := (min_le_right _ _).trans ((min_le_right _ _).trans ((min_le_right _ _).trans (min_le_left _ _)))
  have z4 : z ≤ d4 := (min_le_right _ _).trans ((min_le_right _ _).trans ((min_le_right _ _).trans (min_le_right _ _)))
  clear_value z
  have hy := huniq (seg (s + z * -1) (t + z * 1) a b) ⟨_, _, by linarith, rfl, f0 z hz z0, f1 z hz z1⟩
    ⟨u + z * (u2 - u1), v + z * (v2 - v1), w + z * (w2 - w1), by linear_combination huvw + z * h2 - z * h1, by
      have ex := congrArg Spec.P3.x e; have ey := congrArg Spec.P3.y e; have ez := congrArg Spec.P3.z e
      have ax := congrArg Spec.P3.x ha; have ay := congrArg Spec.P3.y ha; have az := congrArg Spec.P3.z ha
      have bx := congrArg Spec.P3.x hb; have by' := congrArg Spec.P3.y hb; have bz := congrArg Spec.P3.z hb
      simp only [seg, combo] at ex ey ez ax ay az bx by' bz
      apply p3_ext <;> simp only [seg, combo]
      · linear_combination ex - z * ax + z * bx
      · linear_combination ey - z * ay + z * by'
      · linear_combination ez - z * az + z * bz, f2 z hz z2, f3 z hz z3, f4 z hz z4⟩
  apply hab
  have hx := congrArg Spec.P3.x hy; have hyy := congrArg Spec.P3.y hy; have hzz := congrArg Spec.P3.z hy
  simp only [seg] at hx hyy hzz
  have k : ∀ c d : ℚ, (s + z * -1) * c + (t + z * 1) * d = s * c + t * d → c = d := by
    intro c d h
    have : z * (d - c) = 0 := by linear_combination h
    rcases mul_eq_zero.1 this with h | h
    · linarith
    · linarith
  exact p3_ext (k _ _ hx) (k _ _ hyy) (k _ _ hzz)

/-- A vertex meets a simplex once iff it is in its relative interior. -/
theorem once_vertex (a b p q r : P3) (m : Pat) : MeetOnce (Seg true false a b) (Open m.1 m.2.1 m.2.2 p q r) ↔ Open m.1 m.2.1 m.2.2 p q r a := by
  have hseg : ∀ x, Seg true false a b x ↔ x = a := by
    intro x; constructor
    · rintro ⟨s, t, h, rfl, _, ht⟩
      have : t = 0 := by simpa [Weight] using ht
      subst this
      have : s = 1 := by linarith
      subst this
      apply p3_ext <;> simp [seg]
    · rintro rfl
      exact ⟨1, 0, by norm_num, by apply p3_ext <;> simp [seg], by simp [Weight], by simp [Weight]⟩
  constructor
  · rintro ⟨x, ⟨h1, h2⟩, _⟩
    rw [hseg] at h1; rw [← h1]; exact h2
  · intro h
    exact ⟨a, ⟨(hseg a).2 rfl, h⟩, fun y hy _ => (hseg y).1 hy⟩

end Kigumi.FaceFace

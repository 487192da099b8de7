import Verif.Proofs.SideTetra
import Verif.Proofs.TwoTetra

/-! # Surfaces of convex solids, of tetrahedra, and of solids apart from each other -/
namespace Kigumi.Space
open Kigumi Geo Spec.Triangles Spec.Side FaceFace
open Kigumi.Side (Aff plane Ok ok_of_proper eval_near exists_eps near_mono near_refl shift_near first_zero eval_neg eval_plane onSegment_swap plane_in in_a in_b in_c left_end right_end outward_eq)

/-- Each triangle is the part of its plane that is on the inner sides of all planes. -/
def Convex (ts : List (Tri P3)) : Prop := ∀ t ∈ ts, ∀ x, In t x ↔ (plane t).eval x = 0 ∧ ∀ u ∈ ts, (plane u).eval x ≤ 0

/-- The points on the inner sides of all planes. -/
def Within (ts : List (Tri P3)) (x : P3) : Prop := ∀ t ∈ ts, (plane t).eval x < 0

theorem plane_shift (t : Tri P3) (x : P3) (s : ℚ) : (plane t).eval (shift x s (outward t)) = (plane t).eval x + s * dot (outward t) (outward t) := by
  rw [outward_eq]
  simp only [plane, Aff.eval, shift, dot]
  ring

theorem outward_pos {t : Tri P3} (h : Proper t) : 0 < dot (outward t) (outward t) := by
  have := FaceFace.dot_self_pos (ok_of_proper h)
  rwa [outward_eq]

/-- **The surface of a convex solid bounds the points on the inner sides of all planes.** -/
theorem convex_bounds {ts : List (Tri P3)} (hp : ∀ t ∈ ts, Proper t) (hc : Convex ts) : Spec.Side.Bounds ts (Within ts) where
  const x y h := by
    have key : ∀ x y, (∀ z, OnSegment x y z → ¬ Surface ts z) → Within ts x → Within ts y := by
      intro x y h hx
      by_contra hy
      unfold Within at hy
      push Not at hy
      obtain ⟨t, ht, hy⟩ := hy
      obtain ⟨z, hz, h1, f, hf, h2⟩ := first_zero (ts.map fun t => (plane t).neg) (x := x) (y := y) (by
        intro f hf
        obtain ⟨u, hu, rfl⟩ := List.mem_map.1 hf
        rw [eval_neg]
        have := hx u hu
        linarith) ⟨_, List.mem_map_of_mem ht, by rw [eval_neg]; linarith⟩
      obtain ⟨u, hu, rfl⟩ := List.mem_map.1 hf
      rw [eval_neg] at h2
      refine h z hz ⟨u, hu, (hc u hu z).2 ⟨by linarith, fun v hv => ?_⟩⟩
      have := h1 _ (List.mem_map_of_mem hv)
      rw [eval_neg] at this
      linarith
    exact ⟨key x y h, key y x fun z hz => h z (onSegment_swap hz)⟩
  jump i t x ht hs := by
    have htm := List.mem_of_getElem? ht
    obtain ⟨t', ht', hin, hall⟩ := hs
    rw [ht] at ht'; cases ht'
    obtain ⟨h0, hle⟩ := (hc t htm x).1 hin
    have hn := outward_pos (hp t htm)
    obtain ⟨e, he, hnear⟩ := exists_eps (fun (u : Tri P3) (e : ℚ) => u ≠ t → ∀ y, Near e y x → (plane u).eval y < 0) (fun u e e' h0 h1 h hu y hy => h hu y (near_mono h1 hy)) ts (by
      intro u hu
      by_cases hut : u = t
      · exact ⟨1, one_pos, fun h => absurd hut h⟩
      · have hlt : (plane u).eval x < 0 := by
          refine lt_of_le_of_ne (hle u hu) fun e => ?_
          obtain ⟨j, hj⟩ := List.mem_iff_getElem?.1 hu
          have := hall j u hj ((hc u hu x).2 ⟨e, hle⟩)
          rw [this, ht] at hj
          cases hj
          exact hut rfl
        obtain ⟨e, he, h⟩ := eval_near (plane u).neg (x := x) (by rw [eval_neg]; linarith)
        refine ⟨e, he, fun _ y hy => ?_⟩
        have := h y hy
        rw [eval_neg] at this
        linarith)
    obtain ⟨d, hd, -, hsh⟩ := shift_near he (outward t)
    refine ⟨d, hd, fun s h1 h2 => ⟨fun u hu => ?_, fun hw => ?_⟩⟩
    · by_cases hut : u = t
      · rw [hut, plane_shift, h0]
        have := mul_pos h1 hn
        linarith
      · exact hnear u hu hut _ (hsh (-s) (by linarith) (by linarith) x)
    · have := hw t htm
      rw [plane_shift, h0] at this
      have := mul_pos h1 hn
      linarith

/-! ## Tetrahedra -/

/-- The faces of the tetrahedron with the corners `a`, `b`, `c`, `d`, seen counterclockwise from outside if `det4 a b c d` is positive. -/
def tetra (a b c d : P3) : List (Tri P3) := [⟨b, c, d⟩, ⟨a, d, c⟩, ⟨a, b, d⟩, ⟨a, c, b⟩]

/-- A point as a combination of the four corners. -/
theorem four_combo (a b c d x : P3) :
    -(plane ⟨b, c, d⟩).eval x + -(plane ⟨a, d, c⟩).eval x + -(plane ⟨a, b, d⟩).eval x + -(plane ⟨a, c, b⟩).eval x = det4 a b c d ∧
    det4 a b c d * x.x = -(plane ⟨b, c, d⟩).eval x * a.x + -(plane ⟨a, d, c⟩).eval x * b.x + -(plane ⟨a, b, d⟩).eval x * c.x + -(plane ⟨a, c, b⟩).eval x * d.x ∧
    det4 a b c d * x.y = -(plane ⟨b, c, d⟩).eval x * a.y + -(plane ⟨a, d, c⟩).eval x * b.y + -(plane ⟨a, b, d⟩).eval x * c.y + -(plane ⟨a, c, b⟩).eval x * d.y ∧
    det4 a b c d * x.z = -(plane ⟨b, c, d⟩).eval x * a.z + -(plane ⟨a, d, c⟩).eval x * b.z + -(plane ⟨a, b, d⟩).eval x * c.z + -(plane ⟨a, c, b⟩).eval x * d.z := by
  simp only [eval_plane, det4, normal, dot, cross, sub]
  refine ⟨by ring, by ring, by ring, by ring⟩

section
variable {a b c d : P3}

theorem tetra_planes (a b c d : P3) :
    ((plane ⟨b, c, d⟩).eval a = -det4 a b c d ∧ (plane ⟨b, c, d⟩).eval b = 0 ∧ (plane ⟨b, c, d⟩).eval c = 0 ∧ (plane ⟨b, c, d⟩).eval d = 0) ∧
    ((plane ⟨a, d, c⟩).eval b = -det4 a b c d ∧ (plane ⟨a, d, c⟩).eval a = 0 ∧ (plane ⟨a, d, c⟩).eval c = 0 ∧ (plane ⟨a, d, c⟩).eval d = 0) ∧
    ((plane ⟨a, b, d⟩).eval c = -det4 a b c d ∧ (plane ⟨a, b, d⟩).eval a = 0 ∧ (plane ⟨a, b, d⟩).eval b = 0 ∧ (plane ⟨a, b, d⟩).eval d = 0) ∧
    ((plane ⟨a, c, b⟩).eval d = -det4 a b c d ∧ (plane ⟨a, c, b⟩).eval a = 0 ∧ (plane ⟨a, c, b⟩).eval b = 0 ∧ (plane ⟨a, c, b⟩).eval c = 0) := by
  simp only [eval_plane, det4, normal, dot, cross, sub]
  refine ⟨⟨?_, ?_, ?_, ?_⟩, ⟨?_, ?_, ?_, ?_⟩, ⟨?_, ?_, ?_, ?_⟩, ?_, ?_, ?_, ?_⟩ <;> ring

theorem proper_of_plane {t : Tri P3} {x : P3} (h : (plane t).eval x ≠ 0) : Proper t := by
  intro e
  rw [outward_eq] at e
  apply h
  simp only [plane, Aff.eval, e, dot]
  ring

theorem tetra_proper (h : det4 a b c d ≠ 0) : ∀ t ∈ tetra a b c d, Proper t := by
  obtain ⟨h1, h2, h3, h4⟩ := tetra_planes a b c d
  have hn : -det4 a b c d ≠ 0 := neg_ne_zero.2 h
  intro t ht
  simp only [tetra, List.mem_cons, List.not_mem_nil, or_false] at ht
  rcases ht with rfl | rfl | rfl | rfl
  · exact proper_of_plane (x := a) (by rw [h1.1]; exact hn)
  · exact proper_of_plane (x := b) (by rw [h2.1]; exact hn)
  · exact proper_of_plane (x := c) (by rw [h3.1]; exact hn)
  · exact proper_of_plane (x := d) (by rw [h4.1]; exact hn)

theorem eval_combo (f : Aff) {u v w : ℚ} (h : u + v + w = 1) (p q r : P3) : f.eval (combo u v w p q r) = u * f.eval p + v * f.eval q + w * f.eval r := by
  have : w = 1 - u - v := by linarith
  subst this
  simp only [Aff.eval, dot, combo]
  ring

/-- The face opposite to a corner, with that corner's weight zero. -/
theorem tetra_in (h : 0 < det4 a b c d) (x : P3) :
    (In ⟨b, c, d⟩ x ↔ (plane ⟨b, c, d⟩).eval x = 0 ∧ ∀ u ∈ tetra a b c d, (plane u).eval x ≤ 0) ∧
    (In ⟨a, d, c⟩ x ↔ (plane ⟨a, d, c⟩).eval x = 0 ∧ ∀ u ∈ tetra a b c d, (plane u).eval x ≤ 0) ∧
    (In ⟨a, b, d⟩ x ↔ (plane ⟨a, b, d⟩).eval x = 0 ∧ ∀ u ∈ tetra a b c d, (plane u).eval x ≤ 0) ∧
    (In ⟨a, c, b⟩ x ↔ (plane ⟨a, c, b⟩).eval x = 0 ∧ ∀ u ∈ tetra a b c d, (plane u).eval x ≤ 0) := by
  obtain ⟨⟨p1, p2, p3, p4⟩, ⟨q1, q2, q3, q4⟩, ⟨r1, r2, r3, r4⟩, s1, s2, s3, s4⟩ := tetra_planes a b c d
  obtain ⟨e0, e1, e2, e3⟩ := four_combo a b c d x
  simp only [tetra, List.forall_mem_cons, List.not_mem_nil, IsEmpty.forall_iff, implies_true, and_true]
  have V := h.ne'
  refine ⟨⟨?_, ?_⟩, ⟨?_, ?_⟩, ⟨?_, ?_⟩, ?_, ?_⟩
  · rintro ⟨u, v, w, hs, rfl, hu, hv, hw⟩
    simp only [eval_combo _ hs, p2, p3, p4, q1, q2, q3, q4, r1, r2, r3, r4, s1, s2, s3, s4]
    have := mul_nonneg hu h.le; have := mul_nonneg hv h.le; have := mul_nonneg hw h.le
    refine ⟨?_, ?_, ?_, ?_, ?_⟩ <;> linarith
  · rintro ⟨h0, k1, k2, k3, k4⟩
    rw [h0] at e0 e1 e2 e3
    refine ⟨-(plane ⟨a, d, c⟩).eval x / det4 a b c d, -(plane ⟨a, b, d⟩).eval x / det4 a b c d, -(plane ⟨a, c, b⟩).eval x / det4 a b c d, ?_, ?_, div_nonneg (by linarith) h.le, div_nonneg (by linarith) h.le, div_nonneg (by linarith) h.le⟩
    · rw [← add_div, ← add_div, div_eq_one_iff_eq V]; linarith
    · apply p3_ext <;> simp only [combo] <;> field_simp <;> linarith
  · rintro ⟨u, v, w, hs, rfl, hu, hv, hw⟩
    simp only [eval_combo _ hs, p1, p2, p3, p4, q1, q2, q3, q4, r1, r2, r3, r4, s1, s2, s3, s4]
    have := mul_nonneg hu h.le; have := mul_nonneg hv h.le; have := mul_nonneg hw h.le
    refine ⟨?_, ?_, ?_, ?_, ?_⟩ <;> linarith
  · rintro ⟨h0, k1, k2, k3, k4⟩
    rw [h0] at e0 e1 e2 e3
    refine ⟨-(plane ⟨b, c, d⟩).eval x / det4 a b c d, -(plane ⟨a, c, b⟩).eval x / det4 a b c d, -(plane ⟨a, b, d⟩).eval x / det4 a b c d, ?_, ?_, div_nonneg (by linarith) h.le, div_nonneg (by linarith) h.le, div_nonneg (by linarith) h.le⟩
    · rw [← add_div, ← add_div, div_eq_one_iff_eq V]; linarith
    · apply p3_ext <;> simp only [combo] <;> field_simp <;> linarith
  · rintro ⟨u, v, w, hs, rfl, hu, hv, hw⟩
    simp only [eval_combo _ hs, p1, p2, p3, p4, q1, q2, q3, q4, r1, r2, r3, r4, s1, s2, s3, s4]
    have := mul_nonneg hu h.le; have := mul_nonneg hv h.le; have := mul_nonneg hw h.le
    refine ⟨?_, ?_, ?_, ?_, ?_⟩ <;> linarith
  · rintro ⟨h0, k1, k2, k3, k4⟩
    rw [h0] at e0 e1 e2 e3
    refine ⟨-(plane ⟨b, c, d⟩).eval x / det4 a b c d, -(plane ⟨a, d, c⟩).eval x / det4 a b c d, -(plane ⟨a, c, b⟩).eval x / det4 a b c d, ?_, ?_, div_nonneg (by linarith) h.le, div_nonneg (by linarith) h.le, div_nonneg (by linarith) h.le⟩
    · rw [← add_div, ← add_div, div_eq_one_iff_eq V]; linarith
    · apply p3_ext <;> simp only [combo] <;> field_simp <;> linarith
  · rintro ⟨u, v, w, hs, rfl, hu, hv, hw⟩
    simp only [eval_combo _ hs, p1, p2, p3, p4, q1, q2, q3, q4, r1, r2, r3, r4, s1, s2, s3, s4]
    have := mul_nonneg hu h.le; have := mul_nonneg hv h.le; have := mul_nonneg hw h.le
    refine ⟨?_, ?_, ?_, ?_, ?_⟩ <;> linarith
  · rintro ⟨h0, k1, k2, k3, k4⟩
    rw [h0] at e0 e1 e2 e3
    refine ⟨-(plane ⟨b, c, d⟩).eval x / det4 a b c d, -(plane ⟨a, b, d⟩).eval x / det4 a b c d, -(plane ⟨a, d, c⟩).eval x / det4 a b c d, ?_, ?_, div_nonneg (by linarith) h.le, div_nonneg (by linarith) h.le, div_nonneg (by linarith) h.le⟩
    · rw [← add_div, ← add_div, div_eq_one_iff_eq V]; linarith
    · apply p3_ext <;> simp only [combo] <;> field_simp <;> linarith

theorem tetra_convex (h : 0 < det4 a b c d) : Convex (tetra a b c d) := by
  intro t ht x
  obtain ⟨h1, h2, h3, h4⟩ := tetra_in h x
  have ht' := ht
  simp only [tetra, List.mem_cons, List.not_mem_nil, or_false] at ht'
  rcases ht' with rfl | rfl | rfl | rfl
  · exact h1
  · exact h2
  · exact h3
  · exact h4

theorem tetra_bound (h : 0 < det4 a b c d) : Spec.Side.Bounds (tetra a b c d) (Within (tetra a b c d)) := convex_bounds (tetra_proper h.ne') (tetra_convex h)

/-- A function that is positive in the corners is positive in the whole tetrahedron. -/
theorem tetra_positive (h : 0 < det4 a b c d) {f : Aff} (ha : 0 < f.eval a) (hb : 0 < f.eval b) (hc : 0 < f.eval c) (hd : 0 < f.eval d) {x : P3} (hx : ∀ u ∈ tetra a b c d, (plane u).eval x ≤ 0) : 0 < f.eval x := by
  obtain ⟨e0, e1, e2, e3⟩ := four_combo a b c d x
  simp only [tetra, List.forall_mem_cons, List.not_mem_nil, IsEmpty.forall_iff, implies_true, and_true] at hx
  obtain ⟨k1, k2, k3, k4⟩ := hx
  generalize (plane ⟨b, c, d⟩).eval x = A at *
  generalize (plane ⟨a, d, c⟩).eval x = B at *
  generalize (plane ⟨a, b, d⟩).eval x = C at *
  generalize (plane ⟨a, c, b⟩).eval x = D at *
  generalize det4 a b c d = V at *
  have e : V * f.eval x = -A * f.eval a + -B * f.eval b + -C * f.eval c + -D * f.eval d := by
    simp only [Aff.eval, dot]
    linear_combination f.n.x * e1 + f.n.y * e2 + f.n.z * e3 - f.k * e0
  have a1 := mul_nonneg (neg_nonneg.2 k1) ha.le; have a2 := mul_nonneg (neg_nonneg.2 k2) hb.le
  have a3 := mul_nonneg (neg_nonneg.2 k3) hc.le; have a4 := mul_nonneg (neg_nonneg.2 k4) hd.le
  have pos : 0 < V * f.eval x := by
    rw [e]
    by_contra hle
    have z1 : -A = 0 := by
      rcases mul_eq_zero.1 (show -A * f.eval a = 0 by linarith) with h | h
      · exact h
      · exact absurd h ha.ne'
    have z2 : -B = 0 := by
      rcases mul_eq_zero.1 (show -B * f.eval b = 0 by linarith) with h | h
      · exact h
      · exact absurd h hb.ne'
    have z3 : -C = 0 := by
      rcases mul_eq_zero.1 (show -C * f.eval c = 0 by linarith) with h | h
      · exact h
      · exact absurd h hc.ne'
    have z4 : -D = 0 := by
      rcases mul_eq_zero.1 (show -D * f.eval d = 0 by linarith) with h | h
      · exact h
      · exact absurd h hd.ne'
    linarith
  exact (mul_pos_iff_of_pos_left h).1 pos

/-- The faces of a tetrahedron meet in common corners and edges only. -/
theorem tetra_complex (h : 0 < det4 a b c d) : Complex (tetra a b c d) where
  proper := tetra_proper h.ne'
  meet t ht u hu x hx hy := by
    obtain ⟨⟨p1, p2, p3, p4⟩, ⟨q1, q2, q3, q4⟩, ⟨r1, r2, r3, r4⟩, s1, s2, s3, s4⟩ := tetra_planes a b c d
    have hpu := plane_in hy
    obtain ⟨w0, w1, w2, hs, rfl, h0, h1, h2⟩ := hx
    refine ⟨w0, w1, w2, hs, rfl, h0, h1, h2, ?_⟩
    have V := h.ne'
    rw [eval_combo _ hs] at hpu
    simp only [tetra, List.mem_cons, List.not_mem_nil, or_false] at ht hu
    rcases ht with rfl | rfl | rfl | rfl <;> rcases hu with rfl | rfl | rfl | rfl <;> simp only [p1, p2, p3, p4, q1, q2, q3, q4, r1, r2, r3, r4, s1, s2, s3, s4] at hpu <;>
      refine ⟨fun hw => ?_, fun hw => ?_, fun hw => ?_⟩ <;> simp only [Tri.toList, List.mem_cons, List.not_mem_nil, or_false, true_or, or_true] <;> simp [V, hw] at hpu

theorem plane_corner {t : Tri P3} {x : P3} (h : x ∈ t.toList) : (plane t).eval x = 0 := by
  simp only [Tri.toList, List.mem_cons, List.not_mem_nil, or_false] at h
  rcases h with rfl | rfl | rfl
  · exact plane_in (in_a t)
  · exact plane_in (in_b t)
  · exact plane_in (in_c t)

theorem tetra_once (h : det4 a b c d ≠ 0) : Once (tetra a b c d) := by
  rw [once_pairwise]
  obtain ⟨h1, h2, h3, h4⟩ := tetra_planes a b c d
  have hn : -det4 a b c d ≠ 0 := neg_ne_zero.2 h
  have no : ∀ (t u : Tri P3) (x : P3), (plane t).eval x = -det4 a b c d → x ∈ u.toList → ¬ Match t u := by
    intro t u x ht hx hm
    have := plane_corner ((match_mem hm x).2 hx)
    rw [ht] at this
    exact hn this
  simp only [tetra, List.pairwise_cons, List.mem_cons, List.not_mem_nil, or_false, forall_eq_or_imp, forall_eq, IsEmpty.forall_iff, implies_true, and_true, List.Pairwise.nil]
  refine ⟨⟨?_, ?_, ?_⟩, ⟨?_, ?_⟩, ?_⟩
  · exact no _ _ a h1.1 (by simp [Tri.toList])
  · exact no _ _ a h1.1 (by simp [Tri.toList])
  · exact no _ _ a h1.1 (by simp [Tri.toList])
  · exact no _ _ b h2.1 (by simp [Tri.toList])
  · exact no _ _ b h2.1 (by simp [Tri.toList])
  · exact no _ _ c h3.1 (by simp [Tri.toList])

end

/-! ## Solids apart from each other -/

theorem surface_append {ts us : List (Tri P3)} {x : P3} : Surface (ts ++ us) x ↔ Surface ts x ∨ Surface us x := by
  unfold Surface
  simp only [List.mem_append, or_and_right, exists_or]

theorem complex_append {ts us : List (Tri P3)} (ht : Complex ts) (hu : Complex us) (hd : ∀ x, Surface ts x → ¬ Surface us x) : Complex (ts ++ us) where
  proper t h := by
    rcases List.mem_append.1 h with h | h
    · exact ht.proper t h
    · exact hu.proper t h
  meet t h u h' x hx hy := by
    rcases List.mem_append.1 h with h | h <;> rcases List.mem_append.1 h' with h' | h'
    · exact ht.meet t h u h' x hx hy
    · exact absurd ⟨u, h', hy⟩ (hd x ⟨t, h, hx⟩)
    · exact absurd ⟨t, h, hx⟩ (hd x ⟨u, h', hy⟩)
    · exact hu.meet t h u h' x hx hy

theorem once_append {ts us : List (Tri P3)} (ht : Once ts) (hu : Once us) (hd : ∀ x, Surface ts x → ¬ Surface us x) : Once (ts ++ us) := by
  rw [once_pairwise] at *
  refine List.pairwise_append.2 ⟨ht, hu, fun t h u h' hm => ?_⟩
  exact hd t.a ⟨t, h, in_a t⟩ ⟨u, h', in_match hm (in_a t)⟩

/-- Two solids, each of which is outside the other. -/
theorem bounds_append {ts us : List (Tri P3)} (hpt : ∀ t ∈ ts, Proper t) (hpu : ∀ t ∈ us, Proper t) {χ ψ : P3 → Prop} (ht : Spec.Side.Bounds ts χ) (hu : Spec.Side.Bounds us ψ)
    (hd : ∀ x, Surface ts x → ¬ Surface us x) (h1 : ∀ x, Surface ts x → ¬ ψ x) (h2 : ∀ x, Surface us x → ¬ χ x) : Spec.Side.Bounds (ts ++ us) (fun x => χ x ∨ ψ x) where
  const x y h := by
    rw [ht.const x y fun z hz hs => h z hz (surface_append.2 (Or.inl hs)), hu.const x y fun z hz hs => h z hz (surface_append.2 (Or.inr hs))]
  jump i t x hi hs := by
    -- the other solid is constant close by
    have near : ∀ (us : List (Tri P3)) (ψ : P3 → Prop), (∀ t ∈ us, Proper t) → Spec.Side.Bounds us ψ → ∀ x, ¬ Surface us x → ¬ ψ x → ∃ e > 0, ∀ s, -e ≤ s → s ≤ e → ¬ ψ (shift x s (outward t)) := by
      intro us ψ hp hu x hx hψ
      obtain ⟨e, he, h⟩ := ball (fun t ht => ok_of_proper (hp t ht)) hx
      obtain ⟨d, hd, -, hsh⟩ := shift_near he (outward t)
      refine ⟨d, hd, fun s h1 h2 hc => hψ ?_⟩
      refine (hu.const x _ fun z hz => ?_).2 hc
      exact h _ _ (near_refl he.le x) (hsh s h1 h2 x) z hz
    obtain ⟨t', hi', hin, hall⟩ := hs
    rw [hi] at hi'; cases hi'
    by_cases hlt : i < ts.length
    · have hit : ts[i]? = some t := by rwa [List.getElem?_append_left hlt] at hi
      have hS : Surface ts x := ⟨t, List.mem_of_getElem? hit, hin⟩
      obtain ⟨e, he, h⟩ := ht.jump i t x hit ⟨t, hit, hin, fun j u hj hju => hall j u (by
        rw [List.getElem?_append_left (List.getElem?_eq_some_iff.1 hj).1]; exact hj) hju⟩
      obtain ⟨d, hd', h'⟩ := near us ψ hpu hu x (hd x hS) (h1 x hS)
      refine ⟨min e d, lt_min he hd', fun s a1 a2 => ?_⟩
      have b1 := a2.trans (min_le_left _ _); have b2 := a2.trans (min_le_right _ _)
      obtain ⟨c1, c2⟩ := h s a1 b1
      exact ⟨Or.inl c1, by rintro (c | c); exacts [c2 c, h' s (by linarith) b2 c]⟩
    · rw [List.getElem?_append_right (by omega)] at hi
      have hS : Surface us x := ⟨t, List.mem_of_getElem? hi, hin⟩
      obtain ⟨e, he, h⟩ := hu.jump _ t x hi ⟨t, hi, hin, fun j u hj hju => by
        have := hall (j + ts.length) u (by rw [List.getElem?_append_right (by omega)]; simpa using hj) hju
        omega⟩
      obtain ⟨d, hd', h'⟩ := near ts χ hpt ht x (fun hc => hd x hc hS) (h2 x hS)
      refine ⟨min e d, lt_min he hd', fun s a1 a2 => ?_⟩
      have b1 := a2.trans (min_le_left _ _); have b2 := a2.trans (min_le_right _ _)
      obtain ⟨c1, c2⟩ := h s a1 b1
      exact ⟨Or.inr c1, by rintro (c | c); exacts [h' s (by linarith) b2 c, c2 c]⟩

end Kigumi.Space

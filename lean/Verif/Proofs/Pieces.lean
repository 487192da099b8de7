import Verif.Proofs.Marks

/-! # Pieces of two operands meet in common vertices and edges only -/
namespace Kigumi.Cutting
open Kigumi Geo Spec.Triangles Spec.Side FaceFace Space
open Kigumi.Side (Aff plane Ok eval_seg in_iff sides weightA weightB weightC eval_weightA eval_weightB eval_weightC eval_plane eval_plane' eval_neg ok_of_proper onSegment_self left_end right_end onSegment_swap in_a in_b in_c plane_in same_plane exists_eps miss_near seg_near near_refl near_mono)
variable {op : Bool → List (Tri P3)} {cut : Bool → Tri P3 → List (Tri P3)}

/-! ## Lines -/

theorem segment_shift {e f x : P3} (h : OnSegment e f x) : ∃ k, x = shift e k (sub f e) := by
  obtain ⟨s, t, hs, _, _, rfl⟩ := h
  have : s = 1 - t := by linarith
  subst this
  exact ⟨t, by apply p3_ext <;> simp only [shift, sub] <;> ring⟩

/-- One of three different points on a line is between the others. -/
theorem three_line {o v x y z : P3} {i j k : ℚ} (hx : x = shift o i v) (hy : y = shift o j v) (hz : z = shift o k v) (h1 : x ≠ y) (h2 : y ≠ z) (h3 : x ≠ z) : Btw x y z ∨ Btw y x z ∨ Btw z x y := by
  subst hx hy hz
  have n1 : i ≠ j := fun h => h1 (by rw [h])
  have n2 : j ≠ k := fun h => h2 (by rw [h])
  have n3 : i ≠ k := fun h => h3 (by rw [h])
  rcases lt_or_gt_of_ne n1 with a | a <;> rcases lt_or_gt_of_ne n2 with b | b <;> rcases lt_or_gt_of_ne n3 with c | c
  · exact Or.inr (Or.inl (shift_btw a b))
  · linarith
  · exact Or.inr (Or.inr (shift_btw c b))
  · exact Or.inl (btw_symm (shift_btw c a))
  · exact Or.inl (shift_btw a c)
  · exact Or.inr (Or.inr (btw_symm (shift_btw b c)))
  · linarith
  · exact Or.inr (Or.inl (btw_symm (shift_btw b a)))

theorem ext_line {S : P3 → Prop} {o v x y z : P3} (hx : Ext S x) (hy : Ext S y) (hz : Ext S z) {i j k : ℚ} (ex : x = shift o i v) (ey : y = shift o j v) (ez : z = shift o k v) (h1 : x ≠ y) (h2 : y ≠ z) (h3 : x ≠ z) : False := by
  rcases three_line ex ey ez h1 h2 h3 with h | h | h
  · exact h1 (hx.2 y z hy.1 hz.1 h).symm
  · exact h1 (hy.2 x z hx.1 hz.1 h)
  · exact h3 (hz.2 x y hx.1 hy.1 h)

theorem not_line {p : Tri P3} (hp : Ok p) {o v : P3} (h : ∀ x ∈ p.toList, ∃ k, x = shift o k v) : False := by
  obtain ⟨i, hi⟩ := h p.a (by simp [Tri.toList])
  obtain ⟨j, hj⟩ := h p.b (by simp [Tri.toList])
  obtain ⟨k, hk⟩ := h p.c (by simp [Tri.toList])
  apply hp
  rw [hi, hj, hk]
  have : normal (shift o i v) (shift o j v) (shift o k v) = ⟨0, 0, 0⟩ := by apply p3_ext <;> simp only [normal, cross, sub, shift] <;> ring
  rw [this]
  simp [dot]

theorem cross_zero {u v : P3} (h : cross u v = ⟨0, 0, 0⟩) (hu : u ≠ ⟨0, 0, 0⟩) : ∃ k, v = ⟨k * u.x, k * u.y, k * u.z⟩ := by
  simp only [cross, Spec.P3.mk.injEq] at h
  obtain ⟨h1, h2, h3⟩ := h
  by_cases hx : u.x = 0
  · by_cases hy : u.y = 0
    · have hz : u.z ≠ 0 := fun hz => hu (p3_ext hx hy hz)
      refine ⟨v.z / u.z, p3_ext ?_ ?_ ?_⟩
      · rw [hx] at h2 ⊢; have : v.x = 0 := by simpa [hz] using (show u.z * v.x = 0 by linarith)
        rw [this]; ring
      · rw [hy] at h1 ⊢; have : v.y = 0 := by simpa [hz] using (show u.z * v.y = 0 by linarith)
        rw [this]; ring
      · field_simp
    · refine ⟨v.y / u.y, p3_ext ?_ ?_ ?_⟩
      · field_simp; linarith
      · field_simp
      · field_simp; linarith
  · refine ⟨v.x / u.x, p3_ext ?_ ?_ ?_⟩
    · field_simp
    · field_simp; linarith
    · field_simp; linarith

/-- Three different extreme points are the corners of a triangle with area. -/
theorem ext_ok {S : P3 → Prop} {x y z : P3} (hx : Ext S x) (hy : Ext S y) (hz : Ext S z) (h1 : x ≠ y) (h2 : y ≠ z) (h3 : x ≠ z) : Ok ⟨x, y, z⟩ := by
  intro h0
  obtain ⟨a, b, c⟩ := dot_self_zero h0
  obtain ⟨k, hk⟩ := cross_zero (u := sub y x) (v := sub z x) (p3_ext a b c) (sub_ne h1)
  have ex : x = shift x 0 (sub y x) := by apply p3_ext <;> simp [shift]
  have ey : y = shift x 1 (sub y x) := by apply p3_ext <;> simp [shift, sub]
  have ez : z = shift x k (sub y x) := by
    have e1 := congrArg Spec.P3.x hk
    have e2 := congrArg Spec.P3.y hk
    have e3 := congrArg Spec.P3.z hk
    simp only [sub] at e1 e2 e3
    apply p3_ext <;> simp only [shift, sub] <;> linarith
  exact ext_line hx hy hz ex ey ez h1 h2 h3

/-- On a line, a spanned point is between two of the points that span. -/
theorem hull_line {E : P3 → Prop} {o v : P3} (hl : ∀ x, E x → ∃ k, x = shift o k v) {x : P3} (h : Hull E x) : ∃ m n, E m ∧ E n ∧ OnSegment m n x := by
  have key : ∃ k, x = shift o k v ∧ (∃ m i, E m ∧ m = shift o i v ∧ i ≤ k) ∧ ∃ n j, E n ∧ n = shift o j v ∧ k ≤ j := by
    refine hull_poly' (S := fun x => ∃ k, x = shift o k v ∧ (∃ m i, E m ∧ m = shift o i v ∧ i ≤ k) ∧ ∃ n j, E n ∧ n = shift o j v ∧ k ≤ j) ?_ ?_ h
    · rintro x y z ⟨k1, rfl, ⟨m1, i1, hm1, em1, hi1⟩, n1, j1, hn1, en1, hj1⟩ ⟨k2, rfl, ⟨m2, i2, hm2, em2, hi2⟩, n2, j2, hn2, en2, hj2⟩ ⟨s, t, hs, s0, t0, rfl⟩
      have es : s = 1 - t := by linarith
      refine ⟨s * k1 + t * k2, ?_, ?_, ?_⟩
      · have : s = 1 - t := by linarith
        subst this
        apply p3_ext <;> simp only [shift] <;> ring
      · rcases le_total k1 k2 with hk | hk
        · exact ⟨m1, i1, hm1, em1, by rw [es]; linarith [mul_nonneg t0 (sub_nonneg.2 hk)]⟩
        · exact ⟨m2, i2, hm2, em2, by rw [show t = 1 - s by linarith]; linarith [mul_nonneg s0 (sub_nonneg.2 hk)]⟩
      · rcases le_total k1 k2 with hk | hk
        · exact ⟨n2, j2, hn2, en2, by rw [show t = 1 - s by linarith]; linarith [mul_nonneg s0 (sub_nonneg.2 hk)]⟩
        · exact ⟨n1, j1, hn1, en1, by rw [es]; linarith [mul_nonneg t0 (sub_nonneg.2 hk)]⟩
    · intro x hx
      obtain ⟨k, hk⟩ := hl x hx
      exact ⟨k, hk, ⟨x, k, hx, hk, le_refl _⟩, x, k, hx, hk, le_refl _⟩
  obtain ⟨k, rfl, ⟨m, i, hm, rfl, hi⟩, n, j, hn, rfl, hj⟩ := key
  refine ⟨_, _, hm, hn, ?_⟩
  rcases hi.eq_or_lt with rfl | hi
  · exact left_end _ _
  · rcases hj.eq_or_lt with rfl | hj
    · exact right_end _ _
    · exact btw_segment (shift_btw hi hj)

/-- A point of a face that is spanned is spanned by points of the face. -/
theorem hull_face {E F S : P3 → Prop} (hS : ∀ x y z, S y → S z → OnSegment y z x → S x) (hE : ∀ x, E x → S x) (hF : FaceOf F S) {x : P3} (h : Hull E x) (hx : F x) : Hull (fun v => E v ∧ F v) x := by
  induction h with
  | base h => exact .base ⟨h, hx⟩
  | @mix x y z hy hz hs ih1 ih2 =>
    have sy := hull_poly' hS hE hy
    have sz := hull_poly' hS hE hz
    by_cases h1 : x = y
    · rw [h1]; exact ih1 (h1 ▸ hx)
    · by_cases h2 : x = z
      · rw [h2]; exact ih2 (h2 ▸ hx)
      · have hb := btw_of_segment hs h1 h2
        exact .mix (ih1 (hF.2 x y z hx sy sz hb)) (ih2 (hF.2 x z y hx sz sy (btw_symm hb))) hs

theorem zero_face {S : P3 → Prop} {g : Aff} (hg : ∀ x, S x → 0 ≤ g.eval x) : FaceOf (fun x => S x ∧ g.eval x = 0) S := by
  refine ⟨fun x hx => hx.1, fun x y z hx hy hz ⟨s, t, hst, hs, ht, e⟩ => ⟨hy, ?_⟩⟩
  have h0 := hx.2
  rw [e, eval_seg g hst] at h0
  have := mul_nonneg hs.le (hg y hy)
  have := mul_nonneg ht.le (hg z hz)
  exact (mul_eq_zero.1 (show s * g.eval y = 0 by linarith)).resolve_left hs.ne'

theorem hull_eval {E : P3 → Prop} {g : Aff} (h : ∀ x, E x → g.eval x ≤ 0) {x : P3} (hx : Hull E x) : g.eval x ≤ 0 := by
  refine hull_poly' (S := fun x => g.eval x ≤ 0) ?_ h hx
  rintro x y z hy hz ⟨s, t, hs, s0, t0, e⟩
  have e' : x = seg s t y z := e
  rw [e', eval_seg g hs]
  nlinarith

/-! ## Edges of triangles -/

/-- The ends of an edge. -/
def IsEdge (t : Tri P3) (e f : P3) : Prop := (e = t.a ∧ f = t.b) ∨ (e = t.b ∧ f = t.c) ∨ (e = t.c ∧ f = t.a)

theorem sameEdge_iff {t : Tri P3} {x y : P3} : SameEdge t.a t.b t.c x y ↔ ∃ e f, IsEdge t e f ∧ OnSegment e f x ∧ OnSegment e f y := by
  constructor
  · rintro (h | h | h)
    · exact ⟨_, _, Or.inl ⟨rfl, rfl⟩, h⟩
    · exact ⟨_, _, Or.inr (Or.inl ⟨rfl, rfl⟩), h⟩
    · exact ⟨_, _, Or.inr (Or.inr ⟨rfl, rfl⟩), h⟩
  · rintro ⟨e, f, ⟨rfl, rfl⟩ | ⟨rfl, rfl⟩ | ⟨rfl, rfl⟩, h⟩
    · exact Or.inl h
    · exact Or.inr (Or.inl h)
    · exact Or.inr (Or.inr h)

theorem eval_wB (t : Tri P3) {u v w : ℚ} (hs : u + v + w = 1) : (weightB t).eval (combo u v w t.a t.b t.c) = v * dot (normal t.a t.b t.c) (normal t.a t.b t.c) := by
  have : u = 1 - v - w := by linarith
  subst this
  simp only [weightB, Aff.eval, combo, dot, cross, sub, normal]; ring

theorem eval_wC (t : Tri P3) {u v w : ℚ} (hs : u + v + w = 1) : (weightC t).eval (combo u v w t.a t.b t.c) = w * dot (normal t.a t.b t.c) (normal t.a t.b t.c) := by
  have : u = 1 - v - w := by linarith
  subst this
  simp only [weightC, Aff.eval, combo, dot, cross, sub, normal]; ring

theorem eval_wA (t : Tri P3) {u v w : ℚ} (hs : u + v + w = 1) : (weightA t).eval (combo u v w t.a t.b t.c) = u * dot (normal t.a t.b t.c) (normal t.a t.b t.c) := by
  rw [eval_weightA, eval_wB t hs, eval_wC t hs]
  have : u = 1 - v - w := by linarith
  subst this; ring

theorem weights_edge {t : Tri P3} (ht : Ok t) : ∀ g ∈ [weightA t, weightB t, weightC t], (∀ x, In t x → 0 ≤ g.eval x) ∧ ∃ e f, IsEdge t e f ∧ ∀ x, In t x → (g.eval x = 0 ↔ OnSegment e f x) := by
  have hN : dot (normal t.a t.b t.c) (normal t.a t.b t.c) ≠ 0 := ht
  have nn : ∀ g ∈ [weightA t, weightB t, weightC t], ∀ x, In t x → 0 ≤ g.eval x := fun g hg x hx => (in_iff ht x).1 hx g (by
    simp only [List.mem_cons, List.not_mem_nil, or_false] at hg
    rcases hg with rfl | rfl | rfl <;> simp [sides])
  intro g hg
  refine ⟨nn g hg, ?_⟩
  simp only [List.mem_cons, List.not_mem_nil, or_false] at hg
  rcases hg with rfl | rfl | rfl
  · refine ⟨t.b, t.c, Or.inr (Or.inl ⟨rfl, rfl⟩), fun x hx => ⟨fun h => ?_, fun h => ?_⟩⟩
    · obtain ⟨u, v, w, hs, rfl, u0, v0, w0⟩ := hx
      rw [eval_wA t hs] at h
      have hu : u = 0 := (mul_eq_zero.1 h).resolve_right hN
      subst hu
      exact ⟨v, w, by linarith, v0, w0, by apply p3_ext <;> simp only [combo] <;> ring⟩
    · obtain ⟨s, r, hs, _, _, rfl⟩ := h
      have e : (⟨s * t.b.x + r * t.c.x, s * t.b.y + r * t.c.y, s * t.b.z + r * t.c.z⟩ : P3) = combo 0 s r t.a t.b t.c := by apply p3_ext <;> simp only [combo] <;> ring
      rw [e, eval_wA t (by linarith), zero_mul]
  · refine ⟨t.c, t.a, Or.inr (Or.inr ⟨rfl, rfl⟩), fun x hx => ⟨fun h => ?_, fun h => ?_⟩⟩
    · obtain ⟨u, v, w, hs, rfl, u0, v0, w0⟩ := hx
      rw [eval_wB t hs] at h
      have hv : v = 0 := (mul_eq_zero.1 h).resolve_right hN
      subst hv
      exact ⟨w, u, by linarith, w0, u0, by apply p3_ext <;> simp only [combo] <;> ring⟩
    · obtain ⟨s, r, hs, _, _, rfl⟩ := h
      have e : (⟨s * t.c.x + r * t.a.x, s * t.c.y + r * t.a.y, s * t.c.z + r * t.a.z⟩ : P3) = combo r 0 s t.a t.b t.c := by apply p3_ext <;> simp only [combo] <;> ring
      rw [e, eval_wB t (by linarith), zero_mul]
  · refine ⟨t.a, t.b, Or.inl ⟨rfl, rfl⟩, fun x hx => ⟨fun h => ?_, fun h => ?_⟩⟩
    · obtain ⟨u, v, w, hs, rfl, u0, v0, w0⟩ := hx
      rw [eval_wC t hs] at h
      have hw : w = 0 := (mul_eq_zero.1 h).resolve_right hN
      subst hw
      exact ⟨u, v, by linarith, u0, v0, by apply p3_ext <;> simp only [combo] <;> ring⟩
    · obtain ⟨s, r, hs, _, _, rfl⟩ := h
      have e : (⟨s * t.a.x + r * t.b.x, s * t.a.y + r * t.b.y, s * t.a.z + r * t.b.z⟩ : P3) = combo s r 0 t.a t.b t.c := by apply p3_ext <;> simp only [combo] <;> ring
      rw [e, eval_wC t (by linarith), zero_mul]

theorem inner_pos {t : Tri P3} (ht : Ok t) {x : P3} (h : Inner t x) : ∀ g ∈ [weightA t, weightB t, weightC t], 0 < g.eval x := by
  obtain ⟨u, v, w, hs, rfl, hu, hv, hw⟩ := h
  have hN := dot_self_pos ht
  simp only [Weight, if_true] at hu hv hw
  intro g hg
  simp only [List.mem_cons, List.not_mem_nil, or_false] at hg
  rcases hg with rfl | rfl | rfl
  · rw [eval_wA t hs]; exact mul_pos hu hN
  · rw [eval_wB t hs]; exact mul_pos hv hN
  · rw [eval_wC t hs]; exact mul_pos hw hN

theorem edge_weight {t : Tri P3} (ht : Ok t) {e f : P3} (he : IsEdge t e f) : ∃ g ∈ [weightA t, weightB t, weightC t], ∀ x, OnSegment e f x → g.eval x = 0 := by
  have hin : ∀ {e f x}, IsEdge t e f → OnSegment e f x → In t x := by
    rintro e f x (⟨rfl, rfl⟩ | ⟨rfl, rfl⟩ | ⟨rfl, rfl⟩) h
    · exact in_convex t x _ _ (in_a t) (in_b t) h
    · exact in_convex t x _ _ (in_b t) (in_c t) h
    · exact in_convex t x _ _ (in_c t) (in_a t) h
  have zA : ∀ x, OnSegment t.b t.c x → (weightA t).eval x = 0 := by
    rintro x ⟨s, r, hs, _, _, rfl⟩
    have e : (⟨s * t.b.x + r * t.c.x, s * t.b.y + r * t.c.y, s * t.b.z + r * t.c.z⟩ : P3) = combo 0 s r t.a t.b t.c := by apply p3_ext <;> simp only [combo] <;> ring
    rw [e, eval_wA t (by linarith), zero_mul]
  have zB : ∀ x, OnSegment t.c t.a x → (weightB t).eval x = 0 := by
    rintro x ⟨s, r, hs, _, _, rfl⟩
    have e : (⟨s * t.c.x + r * t.a.x, s * t.c.y + r * t.a.y, s * t.c.z + r * t.a.z⟩ : P3) = combo r 0 s t.a t.b t.c := by apply p3_ext <;> simp only [combo] <;> ring
    rw [e, eval_wB t (by linarith), zero_mul]
  have zC : ∀ x, OnSegment t.a t.b x → (weightC t).eval x = 0 := by
    rintro x ⟨s, r, hs, _, _, rfl⟩
    have e : (⟨s * t.a.x + r * t.b.x, s * t.a.y + r * t.b.y, s * t.a.z + r * t.b.z⟩ : P3) = combo s r 0 t.a t.b t.c := by apply p3_ext <;> simp only [combo] <;> ring
    rw [e, eval_wC t (by linarith), zero_mul]
  rcases he with ⟨rfl, rfl⟩ | ⟨rfl, rfl⟩ | ⟨rfl, rfl⟩
  · exact ⟨_, by simp, zC⟩
  · exact ⟨_, by simp, zA⟩
  · exact ⟨_, by simp, zB⟩

theorem inner_edge {t : Tri P3} (ht : Ok t) {x : P3} (h : Inner t x) {e f : P3} (he : IsEdge t e f) (hx : OnSegment e f x) : False := by
  obtain ⟨g, hg, h0⟩ := edge_weight ht he
  have := inner_pos ht h g hg
  rw [h0 x hx] at this
  exact lt_irrefl _ this

theorem edge_face {t : Tri P3} (ht : Ok t) {e f : P3} (he : IsEdge t e f) : FaceOf (OnSegment e f) (In t) := by
  have hin : ∀ x, OnSegment e f x → In t x := by
    rcases he with ⟨rfl, rfl⟩ | ⟨rfl, rfl⟩ | ⟨rfl, rfl⟩
    · exact fun x h => in_convex t x _ _ (in_a t) (in_b t) h
    · exact fun x h => in_convex t x _ _ (in_b t) (in_c t) h
    · exact fun x h => in_convex t x _ _ (in_c t) (in_a t) h
  refine ⟨hin, fun x y z hx hy hz hb => ?_⟩
  obtain ⟨s, r, hs, s0, r0, ex⟩ := hx
  rcases he with ⟨rfl, rfl⟩ | ⟨rfl, rfl⟩ | ⟨rfl, rfl⟩
  · obtain ⟨u, v, w, hs, rfl, u0, v0, w0, _, _, h3⟩ := btw_weights ht hy hz hb (u := s) (v := r) (w := 0) (by linarith) (by rw [ex]; apply p3_ext <;> simp only [combo] <;> ring)
    have h3 := h3 rfl
    subst h3
    exact ⟨u, v, by linarith, u0, v0, by apply p3_ext <;> simp only [combo] <;> ring⟩
  · obtain ⟨u, v, w, hs, rfl, u0, v0, w0, h1, _, _⟩ := btw_weights ht hy hz hb (u := 0) (v := s) (w := r) (by linarith) (by rw [ex]; apply p3_ext <;> simp only [combo] <;> ring)
    have h1 := h1 rfl
    subst h1
    exact ⟨v, w, by linarith, v0, w0, by apply p3_ext <;> simp only [combo] <;> ring⟩
  · obtain ⟨u, v, w, hs, rfl, u0, v0, w0, _, h2, _⟩ := btw_weights ht hy hz hb (u := r) (v := 0) (w := s) (by linarith) (by rw [ex]; apply p3_ext <;> simp only [combo] <;> ring)
    have h2 := h2 rfl
    subst h2
    exact ⟨w, u, by linarith, w0, u0, by apply p3_ext <;> simp only [combo] <;> ring⟩

theorem inner_or_edge {t : Tri P3} {x : P3} (h : In t x) : Inner t x ∨ ∃ e f, IsEdge t e f ∧ OnSegment e f x := by
  rcases inner_or h with h | h | h | h
  · exact Or.inl h
  · exact Or.inr ⟨_, _, Or.inl ⟨rfl, rfl⟩, h⟩
  · exact Or.inr ⟨_, _, Or.inr (Or.inl ⟨rfl, rfl⟩), h⟩
  · exact Or.inr ⟨_, _, Or.inr (Or.inr ⟨rfl, rfl⟩), h⟩

/-- The centre of a triangle that is part of another one is inside of that one. -/
theorem centre_inner {p t : Tri P3} (hp : Ok p) (ht : Ok t) (h : ∀ v ∈ p.toList, In t v) : Inner t (centre p) := by
  have hin : ∀ x, In p x → In t x := fun x hx => hull_poly' (in_convex t) h (in_hull hx)
  rcases inner_or_edge (hin _ (inner_in (inner_centre p))) with h1 | ⟨e, f, he, hs⟩
  · exact h1
  · exfalso
    have hF := edge_face ht he
    have mid : ∀ x y, OnSegment x y (seg (1 / 2) (1 / 2) x y) := fun x y => ⟨1 / 2, 1 / 2, by norm_num, by norm_num, by norm_num, rfl⟩
    have on : ∀ v ∈ p.toList, OnSegment e f v := by
      intro v hv
      simp only [Tri.toList, List.mem_cons, List.not_mem_nil, or_false] at hv
      rcases hv with rfl | rfl | rfl
      · exact hF.2 (centre p) p.a (seg (1 / 2) (1 / 2) p.b p.c) hs (hin _ (in_a p)) (hin _ (in_convex p _ _ _ (in_b p) (in_c p) (mid _ _)))
          ⟨1 / 3, 2 / 3, by norm_num, by norm_num, by norm_num, by apply p3_ext <;> simp only [centre, combo, seg] <;> ring⟩
      · exact hF.2 (centre p) p.b (seg (1 / 2) (1 / 2) p.a p.c) hs (hin _ (in_b p)) (hin _ (in_convex p _ _ _ (in_a p) (in_c p) (mid _ _)))
          ⟨1 / 3, 2 / 3, by norm_num, by norm_num, by norm_num, by apply p3_ext <;> simp only [centre, combo, seg] <;> ring⟩
      · exact hF.2 (centre p) p.c (seg (1 / 2) (1 / 2) p.a p.b) hs (hin _ (in_c p)) (hin _ (in_convex p _ _ _ (in_a p) (in_b p) (mid _ _)))
          ⟨1 / 3, 2 / 3, by norm_num, by norm_num, by norm_num, by apply p3_ext <;> simp only [centre, combo, seg] <;> ring⟩
    exact not_line hp (fun x hx => segment_shift (on x hx))

/-- Where one leaves a triangle. -/
theorem leave {u : Tri P3} (hu : Ok u) {y w : P3} (hy : Inner u y) (hw : (plane u).eval w = 0) (hn : ¬ In u w) :
    ∃ (b : P3) (g : Aff) (e f : P3), Btw b y w ∧ In u b ∧ IsEdge u e f ∧ (∀ x, In u x → 0 ≤ g.eval x) ∧ (∀ x, In u x → (g.eval x = 0 ↔ OnSegment e f x)) ∧ 0 < g.eval y ∧ g.eval b = 0 ∧ g.eval w < 0 := by
  have hpos := inner_pos hu hy
  have ew : shift y 1 (sub w y) = w := by apply p3_ext <;> simp [shift, sub]
  have hyp : (plane u).eval y = 0 := plane_in (inner_in hy)
  have hd : dot (plane u).n (sub w y) = 0 := by
    have := eval_shift (plane u) y (sub w y) 1
    rw [ew, hw, hyp] at this
    linarith
  have hin : ∀ k, Poly [weightA u, weightB u, weightC u] (shift y k (sub w y)) → In u (shift y k (sub w y)) := by
    intro k hk
    have h0 : (plane u).eval (shift y k (sub w y)) = 0 := by rw [eval_shift, hyp, hd]; ring
    rw [in_iff hu]
    intro f hf
    simp only [sides, List.mem_cons, List.not_mem_nil, or_false] at hf
    rcases hf with rfl | rfl | rfl | rfl | rfl
    · exact h0.ge
    · rw [eval_neg, h0]; norm_num
    · exact hk _ (by simp)
    · exact hk _ (by simp)
    · exact hk _ (by simp)
  rcases exit_aux y (sub w y) [weightA u, weightB u, weightC u] (fun g hg => (hpos g hg).le) with h | ⟨k, hk0, hk, g, hg, hg0, hg1⟩
  · exact absurd (ew ▸ hin 1 (h 1 (by norm_num))) hn
  · obtain ⟨hnn, e, f, he, hz⟩ := weights_edge hu g hg
    have hk1 : k < 1 := by
      by_contra hc
      exact hn (ew ▸ hin 1 (hk 1 (by norm_num) (not_lt.1 hc)))
    have hkpos : 0 < k := by
      refine lt_of_le_of_ne hk0 ?_
      rintro rfl
      rw [eval_shift, zero_mul, add_zero] at hg0
      have := hpos g hg
      rw [hg0] at this
      exact lt_irrefl _ this
    refine ⟨_, g, e, f, ⟨1 - k, k, by ring, by linarith, hkpos, ?_⟩, hin k (hk k hk0 (le_refl _)), he, hnn, hz, hpos g hg, hg0, ?_⟩
    · apply p3_ext <;> simp only [shift, seg, sub] <;> ring
    · have h1 := eval_shift g y (sub w y) 1
      rw [ew] at h1
      rw [eval_shift] at hg0
      rw [h1]
      nlinarith

end Kigumi.Cutting

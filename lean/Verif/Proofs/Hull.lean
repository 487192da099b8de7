import Verif.Proofs.Extreme

/-! # Triangles as convex sets -/
namespace Kigumi.Cutting
open Kigumi Geo Spec.Triangles Spec.Side FaceFace Space
open Kigumi.Side (Aff plane Ok eval_seg in_iff sides weightA weightB weightC eval_weightA eval_weightB eval_weightC eval_plane eval_neg ok_of_proper onSegment_self left_end right_end onSegment_swap in_a in_b in_c plane_in)

theorem hull_poly' {S E : P3 → Prop} (hS : ∀ x y z, S y → S z → OnSegment y z x → S x) (h : ∀ x, E x → S x) {x : P3} (hx : Hull E x) : S x := by
  induction hx with
  | base hx => exact h _ hx
  | mix _ _ hs h1 h2 => exact hS _ _ _ h1 h2 hs

theorem hull_hull {E : P3 → Prop} {x : P3} (h : Hull (Hull E) x) : Hull E x :=
  hull_poly' (fun _ _ _ hy hz hs => .mix hy hz hs) (fun _ h => h) h

theorem in_convex (t : Tri P3) (x y z : P3) (hy : In t y) (hz : In t z) (h : OnSegment y z x) : In t x := by
  obtain ⟨s, r, hs, s0, r0, rfl⟩ := h
  obtain ⟨u, v, w, h1, rfl, u0, v0, w0⟩ := hy
  obtain ⟨u', v', w', h2, rfl, u0', v0', w0'⟩ := hz
  refine ⟨s * u + r * u', s * v + r * v', s * w + r * w', ?_, ?_, by positivity, by positivity, by positivity⟩
  · linear_combination s * h1 + r * h2 + hs
  · apply p3_ext <;> simp only [combo] <;> ring

theorem in_corner {t : Tri P3} {v : P3} (h : v ∈ t.toList) : In t v := by
  simp only [Tri.toList, List.mem_cons, List.not_mem_nil, or_false] at h
  rcases h with rfl | rfl | rfl
  · exact in_a t
  · exact in_b t
  · exact in_c t

/-- A combination of points that have the property. -/
theorem hull_combo {E : P3 → Prop} {a b c : P3} {u v w : ℚ} (h : u + v + w = 1) (u0 : 0 ≤ u) (v0 : 0 ≤ v) (w0 : 0 ≤ w) (ha : u ≠ 0 → E a) (hb : v ≠ 0 → E b) (hc : w ≠ 0 → E c) : Hull E (combo u v w a b c) := by
  have two : ∀ {a b : P3} {u v : ℚ}, u + v = 1 → 0 ≤ u → 0 ≤ v → (u ≠ 0 → Hull E a) → (v ≠ 0 → Hull E b) → Hull E (seg u v a b) := by
    intro a b u v h u0 v0 ha hb
    by_cases hu : u = 0
    · have : v = 1 := by linarith
      subst hu this
      have : seg 0 1 a b = b := by apply p3_ext <;> simp [seg]
      rw [this]; exact hb (by norm_num)
    · by_cases hv : v = 0
      · have : u = 1 := by linarith
        subst hv this
        have : seg 1 0 a b = a := by apply p3_ext <;> simp [seg]
        rw [this]; exact ha (by norm_num)
      · exact .mix (ha hu) (hb hv) ⟨u, v, h, u0, v0, rfl⟩
  by_cases hs : u + v = 0
  · have hu : u = 0 := by linarith
    have hv : v = 0 := by linarith
    have hw : w = 1 := by linarith
    subst hu hv hw
    rw [combo_r]; exact .base (hc (by norm_num))
  · have hpos : 0 < u + v := lt_of_le_of_ne (by linarith) (Ne.symm hs)
    have e : combo u v w a b c = seg (u + v) w (seg (u / (u + v)) (v / (u + v)) a b) c := by
      apply p3_ext <;> simp only [combo, seg] <;> field_simp
    rw [e]
    refine two h hpos.le w0 (fun _ => two (by field_simp) (div_nonneg u0 hpos.le) (div_nonneg v0 hpos.le) (fun h => .base (ha ?_)) (fun h => .base (hb ?_))) (fun h => .base (hc h))
    · rintro rfl; simp at h
    · rintro rfl; simp at h

/-- What the common corners span. -/
def Com (t u : Tri P3) (x : P3) : Prop := Hull (fun v => v ∈ t.toList ∧ v ∈ u.toList) x

theorem inCommon_iff {t u : Tri P3} {x : P3} : InCommon t u x ↔ Com t u x := by
  constructor
  · rintro ⟨u', v, w, hs, rfl, u0, v0, w0, hu, hv, hw⟩
    exact hull_combo hs u0 v0 w0 (fun h => ⟨by simp [Tri.toList], hu h⟩) (fun h => ⟨by simp [Tri.toList], hv h⟩) (fun h => ⟨by simp [Tri.toList], hw h⟩)
  · intro h
    refine hull_poly' (S := InCommon t u) ?_ ?_ h
    · rintro x y z ⟨u1, v1, w1, h1, rfl, u10, v10, w10, hu1, hv1, hw1⟩ ⟨u2, v2, w2, h2, rfl, u20, v20, w20, hu2, hv2, hw2⟩ ⟨s, r, hs, s0, r0, rfl⟩
      refine ⟨s * u1 + r * u2, s * v1 + r * v2, s * w1 + r * w2, by linear_combination s * h1 + r * h2 + hs, by apply p3_ext <;> simp only [combo] <;> ring, by positivity, by positivity, by positivity, ?_, ?_, ?_⟩
      · intro hne
        by_cases hz : u1 = 0
        · exact hu2 (by rintro rfl; simp [hz] at hne)
        · exact hu1 hz
      · intro hne
        by_cases hz : v1 = 0
        · exact hv2 (by rintro rfl; simp [hz] at hne)
        · exact hv1 hz
      · intro hne
        by_cases hz : w1 = 0
        · exact hw2 (by rintro rfl; simp [hz] at hne)
        · exact hw1 hz
    · rintro v ⟨hv, hvu⟩
      simp only [Tri.toList, List.mem_cons, List.not_mem_nil, or_false] at hv
      rcases hv with rfl | rfl | rfl
      · exact ⟨1, 0, 0, by ring, (combo_p ..).symm, by norm_num, le_refl _, le_refl _, fun _ => hvu, fun h => absurd rfl h, fun h => absurd rfl h⟩
      · exact ⟨0, 1, 0, by ring, (combo_q ..).symm, le_refl _, by norm_num, le_refl _, fun h => absurd rfl h, fun _ => hvu, fun h => absurd rfl h⟩
      · exact ⟨0, 0, 1, by ring, (combo_r ..).symm, le_refl _, le_refl _, by norm_num, fun h => absurd rfl h, fun h => absurd rfl h, fun _ => hvu⟩

theorem com_symm {t u : Tri P3} {x : P3} (h : Com t u x) : Com u t x := hull_mono (fun _ h => ⟨h.2, h.1⟩) h

theorem com_in {t u : Tri P3} {x : P3} (h : Com t u x) : In t x ∧ In u x :=
  ⟨hull_poly' (in_convex t) (fun _ h => in_corner h.1) h, hull_poly' (in_convex u) (fun _ h => in_corner h.2) h⟩

theorem in_hull {t : Tri P3} {x : P3} (h : In t x) : Hull (· ∈ t.toList) x := by
  obtain ⟨u, v, w, h1, rfl, u0, v0, w0⟩ := h
  exact hull_combo h1 u0 v0 w0 (fun _ => by simp [Tri.toList]) (fun _ => by simp [Tri.toList]) (fun _ => by simp [Tri.toList])

/-- A point of a triangle is spanned by corners such that it is one of them, or between the corner and another point of the triangle. -/
theorem in_parts {t : Tri P3} {x : P3} (h : In t x) : Hull (fun v => v ∈ t.toList ∧ (v = x ∨ ∃ z, In t z ∧ Btw x v z)) x := by
  obtain ⟨u, v, w, h1, rfl, u0, v0, w0⟩ := h
  have key : ∀ {a b c : P3} {u v w : ℚ}, u + v + w = 1 → 0 ≤ u → 0 ≤ v → 0 ≤ w → u ≠ 0 → a = combo u v w a b c ∨ ∃ u' v', u' + v' = 1 ∧ 0 ≤ u' ∧ 0 ≤ v' ∧ Btw (combo u v w a b c) a (combo 0 u' v' a b c) := by
    intro a b c u v w h u0 v0 w0 hu
    by_cases hs : v + w = 0
    · left
      have hv : v = 0 := by linarith
      have hw : w = 0 := by linarith
      have hu : u = 1 := by linarith
      subst hv hw hu
      rw [combo_p]
    · right
      have hpos : 0 < v + w := lt_of_le_of_ne (by linarith) (Ne.symm hs)
      exact ⟨v / (v + w), w / (v + w), by field_simp, div_nonneg v0 hpos.le, div_nonneg w0 hpos.le, u, v + w, by linarith, lt_of_le_of_ne u0 (Ne.symm hu), hpos, by
        apply p3_ext <;> simp only [combo, seg] <;> field_simp <;> ring⟩
  have e1 : ∀ a b c : P3, ∀ u v w : ℚ, combo u v w a b c = combo v w u b c a := fun a b c u v w => by apply p3_ext <;> simp only [combo] <;> ring
  refine hull_combo h1 u0 v0 w0 (fun hu => ⟨by simp [Tri.toList], ?_⟩) (fun hv => ⟨by simp [Tri.toList], ?_⟩) (fun hw => ⟨by simp [Tri.toList], ?_⟩)
  · rcases key (a := t.a) (b := t.b) (c := t.c) h1 u0 v0 w0 hu with h | ⟨u', v', h, h2, h3, h4⟩
    · exact Or.inl h
    · exact Or.inr ⟨_, ⟨0, u', v', by linarith, rfl, le_refl _, h2, h3⟩, h4⟩
  · rw [e1]
    rcases key (a := t.b) (b := t.c) (c := t.a) (by linarith) v0 w0 u0 hv with h | ⟨u', v', h, h2, h3, h4⟩
    · exact Or.inl h
    · exact Or.inr ⟨_, ⟨v', 0, u', by linarith, by apply p3_ext <;> simp only [combo] <;> ring, h3, le_refl _, h2⟩, h4⟩
  · rw [← e1 t.c t.a t.b]
    rcases key (a := t.c) (b := t.a) (c := t.b) (by linarith) w0 u0 v0 hw with h | ⟨u', v', h, h2, h3, h4⟩
    · exact Or.inl h
    · exact Or.inr ⟨_, ⟨u', v', 0, by linarith, by apply p3_ext <;> simp only [combo] <;> ring, h2, h3, le_refl _⟩, h4⟩

theorem hull_nonempty {E : P3 → Prop} {x : P3} (h : Hull E x) : ∃ v, E v := by
  induction h with
  | base h => exact ⟨_, h⟩
  | mix _ _ _ h _ => exact h

/-- The part of a triangle in a face of a larger set is spanned by corners in this face. -/
theorem face_hull {F S : P3 → Prop} (hF : FaceOf F S) {t : Tri P3} (ht : ∀ y, In t y → S y) {x : P3} (hx : In t x) (hxF : F x) : Hull (fun v => v ∈ t.toList ∧ F v) x := by
  refine hull_mono (fun v hv => ⟨hv.1, ?_⟩) (in_parts hx)
  rcases hv.2 with rfl | ⟨z, hz, hb⟩
  · exact hxF
  · exact hF.2 x v z hxF (ht v (in_corner hv.1)) (ht z hz) hb

/-- Extreme points of a triangle are corners. -/
theorem ext_corner {t : Tri P3} {x : P3} (h : Ext (In t) x) : x ∈ t.toList := by
  obtain ⟨v, hv, e⟩ := hull_nonempty (in_parts h.1)
  rcases e with rfl | ⟨z, hz, hb⟩
  · exact hv
  · rw [← h.2 v z (in_corner hv) hz hb]; exact hv

/-- The weights of a point strictly between two points. -/
theorem btw_weights {t : Tri P3} (ht : Ok t) {x y z : P3} (hy : In t y) (hz : In t z) (h : Btw x y z) {u v w : ℚ} (hs : u + v + w = 1) (hx : x = combo u v w t.a t.b t.c) :
    ∃ u' v' w', u' + v' + w' = 1 ∧ y = combo u' v' w' t.a t.b t.c ∧ 0 ≤ u' ∧ 0 ≤ v' ∧ 0 ≤ w' ∧ (u = 0 → u' = 0) ∧ (v = 0 → v' = 0) ∧ (w = 0 → w' = 0) := by
  obtain ⟨s, r, hsr, s0, r0, e⟩ := h
  obtain ⟨u1, v1, w1, h1, rfl, u10, v10, w10⟩ := hy
  obtain ⟨u2, v2, w2, h2, rfl, u20, v20, w20⟩ := hz
  have e' : seg s r (combo u1 v1 w1 t.a t.b t.c) (combo u2 v2 w2 t.a t.b t.c) = combo (s * u1 + r * u2) (s * v1 + r * v2) (s * w1 + r * w2) t.a t.b t.c := by
    apply p3_ext <;> simp only [combo, seg] <;> ring
  obtain ⟨a1, a2, a3⟩ := weights_unique ht hs (by linear_combination s * h1 + r * h2 + hsr) (hx.symm.trans (e.trans e'))
  have zero : ∀ {m n : ℚ}, 0 ≤ m → 0 ≤ n → 0 = s * m + r * n → m = 0 := by
    intro m n hm hn h
    have := mul_nonneg s0.le hm
    have := mul_nonneg r0.le hn
    exact (mul_eq_zero.1 (show s * m = 0 by linarith)).resolve_left s0.ne'
  exact ⟨u1, v1, w1, h1, rfl, u10, v10, w10, fun h => zero u10 u20 (h ▸ a1), fun h => zero v10 v20 (h ▸ a2), fun h => zero w10 w20 (h ▸ a3)⟩

/-- Corners are extreme points. -/
theorem corner_ext {t : Tri P3} (ht : Ok t) {x : P3} (h : x ∈ t.toList) : Ext (In t) x := by
  refine ⟨in_corner h, fun y z hy hz hb => ?_⟩
  simp only [Tri.toList, List.mem_cons, List.not_mem_nil, or_false] at h
  rcases h with h | h | h
  · obtain ⟨u, v, w, hs, e, _, _, _, _, h2, h3⟩ := btw_weights ht hy hz hb (u := 1) (v := 0) (w := 0) (by ring) (by rw [combo_p]; exact h)
    have h2 := h2 rfl
    have h3 := h3 rfl
    have : u = 1 := by linarith
    rw [e, h, this, h2, h3, combo_p]
  · obtain ⟨u, v, w, hs, e, _, _, _, h1, _, h3⟩ := btw_weights ht hy hz hb (u := 0) (v := 1) (w := 0) (by ring) (by rw [combo_q]; exact h)
    have h1 := h1 rfl
    have h3 := h3 rfl
    have : v = 1 := by linarith
    rw [e, h, this, h1, h3, combo_q]
  · obtain ⟨u, v, w, hs, e, _, _, _, h1, h2, _⟩ := btw_weights ht hy hz hb (u := 0) (v := 0) (w := 1) (by ring) (by rw [combo_r]; exact h)
    have h1 := h1 rfl
    have h2 := h2 rfl
    have : w = 1 := by linarith
    rw [e, h, this, h1, h2, combo_r]

/-- What common corners span is a face of a triangle. -/
theorem com_face {t u : Tri P3} (ht : Ok t) : FaceOf (Com t u) (In t) := by
  refine ⟨fun x hx => (com_in hx).1, fun x y z hx hy hz hb => ?_⟩
  obtain ⟨u1, v1, w1, hs, e, _, _, _, ha, hb', hc⟩ := inCommon_iff.2 hx
  obtain ⟨u2, v2, w2, hs2, rfl, u0, v0, w0, h1, h2, h3⟩ := btw_weights ht hy hz hb hs e
  exact inCommon_iff.1 ⟨u2, v2, w2, hs2, rfl, u0, v0, w0, fun h => ha (fun h' => h (h1 h')), fun h => hb' (fun h' => h (h2 h')), fun h => hc (fun h' => h (h3 h'))⟩

/-- The common points of two triangles. -/
def Meet (t u : Tri P3) (x : P3) : Prop := In t x ∧ In u x

theorem complex_face {W : List (Tri P3)} (hW : Complex W) {t u : Tri P3} (ht : t ∈ W) (hu : u ∈ W) : FaceOf (Meet t u) (In t) := by
  have h := com_face (u := u) (ok_of_proper (hW.proper t ht))
  exact ⟨fun x hx => hx.1, fun x y z hx hy hz hb => com_in (h.2 x y z (inCommon_iff.1 (hW.meet t ht u hu x hx.1 hx.2)) hy hz hb)⟩

theorem meet_comm {t u : Tri P3} : Meet t u = Meet u t := by funext x; exact propext ⟨fun h => ⟨h.2, h.1⟩, fun h => ⟨h.2, h.1⟩⟩

theorem in_match_iff {t u : Tri P3} (h : Match t u) (x : P3) : In t x ↔ In u x := ⟨in_match h, in_match (match_symm h)⟩

theorem meet_poly {t u : Tri P3} (ht : Ok t) (hu : Ok u) : Meet t u = Poly (sides t ++ sides u) := by
  funext x
  refine propext ?_
  unfold Meet Poly
  rw [in_iff ht, in_iff hu]
  simp only [List.mem_append]
  exact ⟨fun h f hf => hf.elim (h.1 f) (h.2 f), fun h => ⟨fun f hf => h f (Or.inl hf), fun f hf => h f (Or.inr hf)⟩⟩

theorem bdd_sides {t : Tri P3} (ht : Ok t) : Bdd (sides t) := by
  intro d hd
  by_contra hc
  push Not at hc
  have all : ∀ k, 0 ≤ k → In t (shift t.a k d) := fun k hk => (in_iff ht _).2 fun f hf => by
    rw [eval_shift]
    exact add_nonneg ((in_iff ht _).1 (in_a t) f hf) (mul_nonneg hk (hc f hf))
  have h1 := all 1 (by norm_num)
  have h2 := all 2 (by norm_num)
  -- slopes of all quantities vanish
  have hp : dot (plane t).n d = 0 := by
    have a := hc (plane t) (by simp [sides])
    have b := hc (plane t).neg (by simp [sides])
    have : dot (plane t).neg.n d = - dot (plane t).n d := by simp only [Aff.neg, dot]; ring
    rw [this] at b
    linarith
  have hA := hc (weightA t) (by simp [sides])
  have hB := hc (weightB t) (by simp [sides])
  have hC := hc (weightC t) (by simp [sides])
  have hsum : dot (weightA t).n d + dot (weightB t).n d + dot (weightC t).n d = 0 := by
    have e1 := eval_shift (weightA t) t.a d 1
    have e2 := eval_shift (weightB t) t.a d 1
    have e3 := eval_shift (weightC t) t.a d 1
    have f1 := eval_weightA t (shift t.a 1 d)
    have f2 := eval_weightA t t.a
    linarith
  have hB0 : dot (weightB t).n d = 0 := by linarith
  have hC0 : dot (weightC t).n d = 0 := by linarith
  obtain ⟨u, v, w, hs, e, _, _, _⟩ := h1
  have ev : (weightB t).eval (combo u v w t.a t.b t.c) = v * dot (normal t.a t.b t.c) (normal t.a t.b t.c) := by
    have : u = 1 - v - w := by linarith
    subst this
    simp only [weightB, Aff.eval, combo, dot, cross, sub, normal]; ring
  have ew : (weightC t).eval (combo u v w t.a t.b t.c) = w * dot (normal t.a t.b t.c) (normal t.a t.b t.c) := by
    have : u = 1 - v - w := by linarith
    subst this
    simp only [weightC, Aff.eval, combo, dot, cross, sub, normal]; ring
  rw [← e, eval_shift, hB0] at ev
  rw [← e, eval_shift, hC0] at ew
  have zB : (weightB t).eval t.a = 0 := by simp only [weightB, Aff.eval, dot]; ring
  have zC : (weightC t).eval t.a = 0 := by simp only [weightC, Aff.eval, dot]; ring
  have hv : v = 0 := by rw [zB] at ev; simpa [show dot (normal t.a t.b t.c) (normal t.a t.b t.c) ≠ 0 from ht] using ev.symm
  have hw : w = 0 := by rw [zC] at ew; simpa [show dot (normal t.a t.b t.c) (normal t.a t.b t.c) ≠ 0 from ht] using ew.symm
  have hu : u = 1 := by linarith
  rw [hu, hv, hw, combo_p] at e
  apply hd
  simp only [shift] at e
  have ex := congrArg Spec.P3.x e
  have ey := congrArg Spec.P3.y e
  have ez := congrArg Spec.P3.z e
  simp only at ex ey ez
  exact p3_ext (by simpa using ex) (by simpa using ey) (by simpa using ez)

theorem bdd_append {l m : List Aff} (h : Bdd l) : Bdd (l ++ m) := fun d hd => by
  obtain ⟨f, hf, h'⟩ := h d hd
  exact ⟨f, by simp [hf], h'⟩

/-- The common points of two triangles are spanned by its extreme points. -/
theorem meet_hull {t u : Tri P3} (ht : Ok t) (hu : Ok u) {x : P3} (h : Meet t u x) : Hull (Ext (Meet t u)) x := by
  rw [meet_poly ht hu] at h ⊢
  exact hull (bdd_append (bdd_sides ht)) _ x rfl h

end Kigumi.Cutting

import Verif.Proofs.Convex
import Verif.Proofs.SideOracle
import Verif.Proofs.Solid

/-! # Surfaces that bound a region are closed, and rays leave them -/
namespace Kigumi.Space
open Kigumi Outcome Geo Spec.Triangles Spec.Side FaceFace
open Kigumi.Spec (SameTri)
open Kigumi.Side (Aff plane Ok ok_of_proper near_mono near_refl shift_near seg_near eval_plane eval_seg onSegment_swap plane_in in_a in_b in_c left_end right_end outward_eq HitAt rayPt exactEnv exactEnv_valid)

/-- The third corner. -/
theorem third_corner {t : Tri P3} {P Q : P3} (hP : P ∈ t.toList) (hQ : Q ∈ t.toList) (h : P ≠ Q) : ∃ R ∈ t.toList, Match ⟨P, Q, R⟩ t := by
  obtain ⟨a, b, c⟩ := t
  simp only [Tri.toList, List.mem_cons, List.not_mem_nil, or_false] at hP hQ
  rcases hP with rfl | rfl | rfl <;> rcases hQ with rfl | rfl | rfl
  · exact absurd rfl h
  · exact ⟨c, by simp [Tri.toList], Or.inl (Or.inl rfl)⟩
  · exact ⟨b, by simp [Tri.toList], Or.inr (by simp [SameTri, Tri.flip, Tri.rot])⟩
  · exact ⟨c, by simp [Tri.toList], Or.inr (by simp [SameTri, Tri.flip, Tri.rot])⟩
  · exact absurd rfl h
  · exact ⟨a, by simp [Tri.toList], Or.inl (by simp [SameTri, Tri.rot])⟩
  · exact ⟨b, by simp [Tri.toList], Or.inl (by simp [SameTri, Tri.rot])⟩
  · exact ⟨a, by simp [Tri.toList], Or.inr (by simp [SameTri, Tri.flip, Tri.rot])⟩
  · exact absurd rfl h

/-- The function that is zero on the line of two corners, with its sign at the third corner. -/
theorem edge_function {t : Tri P3} (ht : Proper t) {P Q R : P3} (hm : Match ⟨P, Q, R⟩ t) :
    ∃ f : Aff, f.eval P = 0 ∧ f.eval Q = 0 ∧ 0 < f.eval R ∧ (∀ x s, f.eval (shift x s (outward t)) = f.eval x) ∧ ∀ x, In t x → 0 ≤ f.eval x := by
  have hp : Proper ⟨P, Q, R⟩ := match_proper (match_symm hm) ht
  have hn := outward_pos hp
  rw [outward_eq] at hn
  refine ⟨⟨cross (normal P Q R) (sub Q P), -dot (cross (normal P Q R) (sub Q P)) P⟩, ?_, ?_, ?_, ?_, ?_⟩
  · simp only [Aff.eval]; ring
  · simp only [Aff.eval, dot, cross, sub]; ring
  · have e : dot (cross (normal P Q R) (sub Q P)) R + -dot (cross (normal P Q R) (sub Q P)) P = dot (normal P Q R) (normal P Q R) := by
      simp only [dot, cross, sub, normal]; ring
    simp only [Aff.eval]
    rw [e]; exact hn
  · have key : ∀ v : P3, v = normal P Q R ∨ v = ⟨-(normal P Q R).x, -(normal P Q R).y, -(normal P Q R).z⟩ → ∀ x s, Aff.eval ⟨cross (normal P Q R) (sub Q P), -dot (cross (normal P Q R) (sub Q P)) P⟩ (shift x s v) = Aff.eval ⟨cross (normal P Q R) (sub Q P), -dot (cross (normal P Q R) (sub Q P)) P⟩ x := by
      rintro v (rfl | rfl) x s
      · simp only [Aff.eval, dot, cross, shift]; ring
      · simp only [Aff.eval, dot, cross, shift]; ring
    refine key _ ?_
    rw [outward_eq]
    rcases hm with (h | h | h) | (h | h | h) <;> subst h
    · left; rfl
    · left; apply p3_ext <;> simp only [normal, cross, sub, Tri.rot] <;> ring
    · left; apply p3_ext <;> simp only [normal, cross, sub, Tri.rot] <;> ring
    · right; apply p3_ext <;> simp only [normal, cross, sub, Tri.flip] <;> ring
    · right; apply p3_ext <;> simp only [normal, cross, sub, Tri.flip, Tri.rot] <;> ring
    · right; apply p3_ext <;> simp only [normal, cross, sub, Tri.flip, Tri.rot] <;> ring
  · intro x hx
    obtain ⟨u, v, w, hs, rfl, hu, hv, hw⟩ := in_match (match_symm hm) hx
    rw [eval_combo _ hs]
    have e : ∀ S : P3, S = P ∨ S = Q → Aff.eval ⟨cross (normal P Q R) (sub Q P), -dot (cross (normal P Q R) (sub Q P)) P⟩ S = 0 := by
      rintro S (rfl | rfl) <;> simp only [Aff.eval, dot, cross, sub] <;> ring
    have e3 : Aff.eval ⟨cross (normal P Q R) (sub Q P), -dot (cross (normal P Q R) (sub Q P)) P⟩ R = dot (normal P Q R) (normal P Q R) := by
      simp only [Aff.eval, dot, cross, sub, normal]; ring
    simp only [e P (Or.inl rfl), e Q (Or.inr rfl), e3]
    have := mul_nonneg hw hn.le
    linarith

theorem shift_seg (x y n : P3) (a b s : ℚ) (h : a + b = 1) : shift (seg a b x y) s n = seg a b (shift x s n) (shift y s n) := by
  have : b = 1 - a := by linarith
  subst this
  apply p3_ext <;> simp only [shift, seg] <;> ring

/-- **Every edge of a triangle is an edge of another triangle.** -/
theorem other_face {ts : List (Tri P3)} (hc : Complex ts) (ho : Once ts) {χ : P3 → Prop} (hb : Spec.Side.Bounds ts χ) {t : Tri P3} (ht : t ∈ ts) {P Q : P3} (hP : P ∈ t.toList) (hQ : Q ∈ t.toList) (hPQ : P ≠ Q) :
    ∃ u ∈ ts, P ∈ u.toList ∧ Q ∈ u.toList ∧ ¬ Match t u := by
  classical
  by_contra hno
  push Not at hno
  obtain ⟨R, hR, hm⟩ := third_corner hP hQ hPQ
  have hpt := hc.proper t ht
  obtain ⟨f, fP, fQ, fR, fsh, fin⟩ := edge_function hpt hm
  obtain ⟨i, hi⟩ := List.mem_iff_getElem?.1 ht
  -- the middle of the edge
  let m : P3 := combo (1 / 2) (1 / 2) 0 P Q R
  have hin : In t m := in_match hm ⟨1 / 2, 1 / 2, 0, by norm_num, rfl, by norm_num, by norm_num, le_refl _⟩
  have fm : f.eval m = 0 := by
    show f.eval (combo (1 / 2) (1 / 2) 0 P Q R) = 0
    rw [eval_combo _ (by norm_num), fP, fQ]; ring
  have others : ¬ Surface (ts.filter fun u => u ≠ t) m := by
    rintro ⟨u, hu, hmu⟩
    rw [List.mem_filter] at hu
    obtain ⟨hu, hut⟩ := hu
    simp only [ne_eq, decide_not, Bool.not_eq_eq_eq_not, Bool.not_true, decide_eq_false_iff_not] at hut
    have hmm := hno u hu
    obtain ⟨w0, w1, w2, hs, e, -, -, -, k0, k1, k2⟩ := common_match₂ (match_symm hm) (match_refl u) (hc.meet t ht u hu m hin hmu)
    have hp : Proper ⟨P, Q, R⟩ := match_proper (match_symm hm) hpt
    -- the weights of the middle are one half for both
    have w2z : w2 = 0 := by
      have : f.eval m = w0 * f.eval P + w1 * f.eval Q + w2 * f.eval R := by rw [e, eval_combo _ hs]
      rw [fm, fP, fQ] at this
      rcases mul_eq_zero.1 (show w2 * f.eval R = 0 by linarith) with h | h
      · exact h
      · exact absurd h fR.ne'
    subst w2z
    have hw1 : w1 = 1 - w0 := by linarith
    subst hw1
    have hw0 : w0 = 1 / 2 := by
      by_contra hw
      refine hPQ ?_
      have h' : w0 - 1 / 2 ≠ 0 := sub_ne_zero.2 hw
      have ex := congrArg Spec.P3.x e; have ey := congrArg Spec.P3.y e; have ez := congrArg Spec.P3.z e
      simp only [m, combo] at ex ey ez
      refine p3_ext ?_ ?_ ?_
      · exact mul_left_cancel₀ h' (by linarith)
      · exact mul_left_cancel₀ h' (by linarith)
      · exact mul_left_cancel₀ h' (by linarith)
    have hmatch := hmm (k0 (by rw [hw0]; norm_num)) (k1 (by rw [hw0]; norm_num))
    obtain ⟨j, hj⟩ := List.mem_iff_getElem?.1 hu
    have := ho i j t u hi hj hmatch
    subst this
    rw [hi] at hj; cases hj
    exact hut rfl
  obtain ⟨e, he, hball⟩ := ball (fun u hu => ok_of_proper (hc.proper u (List.mem_of_mem_filter hu))) others
  -- a point inside the triangle close to the middle, and the one opposite
  obtain ⟨k, hk, hk1, hn⟩ := seg_near (half_pos he) m R
  let y : P3 := seg (1 - k / 2) (k / 2) m R
  let y' : P3 := seg (1 + k / 2) (-(k / 2)) m R
  have ny : Near (e / 2) y m := by
    obtain ⟨a1, a2, b1, b2, c1, c2⟩ := hn
    simp only [seg] at a1 a2 b1 b2 c1 c2
    simp only [y, Near, seg]
    refine ⟨?_, ?_, ?_, ?_, ?_, ?_⟩ <;> linarith
  have ny' : Near (e / 2) y' m := by
    obtain ⟨a1, a2, b1, b2, c1, c2⟩ := hn
    simp only [seg] at a1 a2 b1 b2 c1 c2
    simp only [y', Near, seg]
    refine ⟨?_, ?_, ?_, ?_, ?_, ?_⟩ <;> linarith
  have hy : Inner t y := by
    have : Inner ⟨P, Q, R⟩ y := by
      refine ⟨(1 - k / 2) / 2, (1 - k / 2) / 2, k / 2, by ring, ?_, ?_, ?_, ?_⟩
      · apply p3_ext <;> simp only [y, seg, m, combo] <;> ring
      · show 0 < _; linarith
      · show 0 < _; linarith
      · show 0 < _; linarith
    exact inner_match hm this
  have fy' : f.eval y' < 0 := by
    show f.eval (seg (1 + k / 2) (-(k / 2)) m R) < 0
    rw [eval_seg f (by ring), fm]
    have := mul_pos hk fR
    linarith
  have planeR : (plane t).eval R = 0 := plane_corner hR
  have planeM : (plane t).eval m = 0 := plane_in hin
  have planey : (plane t).eval y = 0 := plane_in (inner_in hy)
  have planey' : (plane t).eval y' = 0 := by
    show (plane t).eval (seg (1 + k / 2) (-(k / 2)) m R) = 0
    rw [eval_seg _ (by ring), planeM, planeR]; ring
  obtain ⟨e1, he1, hj⟩ := hb.jump i t y hi (part_singly (W := ts) (hW := hc) (fun u hu => ⟨u, hu, match_refl u⟩) ho hi hy)
  obtain ⟨d, hd, -, hsh⟩ := shift_near (half_pos he) (outward t)
  obtain ⟨s, hs0, hs1, hs2⟩ : ∃ s : ℚ, 0 < s ∧ s ≤ e1 ∧ s ≤ d := ⟨min e1 d, lt_min he1 hd, min_le_left _ _, min_le_right _ _⟩
  obtain ⟨j1, j2⟩ := hj s hs0 hs1
  have near : ∀ z, Near (e / 2) z m → ∀ r, -s ≤ r → r ≤ s → Near e (shift z r (outward t)) m := by
    intro z hz r h1 h2
    have := Side.near_trans (hsh r (by linarith) (by linarith) z) hz
    rwa [add_halves] at this
  have off : ∀ p q, Near e p m → Near e q m → (∀ z, OnSegment p q z → ¬ In t z) → (χ p ↔ χ q) := by
    intro p q h1 h2 h
    refine hb.const p q fun z hz ⟨u, hu, hzu⟩ => ?_
    by_cases hut : u = t
    · exact h z hz (hut ▸ hzu)
    · exact hball p q h1 h2 z hz ⟨u, List.mem_filter.2 ⟨hu, by simpa using hut⟩, hzu⟩
  have nn := outward_pos hpt
  have sidep : ∀ r : ℚ, r ≠ 0 → ∀ z, OnSegment (shift y r (outward t)) (shift y' r (outward t)) z → ¬ In t z := by
    rintro r hr z ⟨a, b, hab, ha, hb', rfl⟩ hz
    have := plane_in hz
    have e := eval_seg (plane t) hab (shift y r (outward t)) (shift y' r (outward t))
    unfold seg at e
    rw [e, plane_shift, plane_shift, planey, planey'] at this
    have : (a + b) * (r * dot (outward t) (outward t)) = 0 := by linarith
    rw [hab, one_mul] at this
    rcases mul_eq_zero.1 this with h | h
    · exact hr h
    · exact nn.ne' h
  have c1 := off _ _ (near y ny s (by linarith) le_rfl) (near y' ny' s (by linarith) le_rfl) (sidep s hs0.ne')
  have c3 := off _ _ (near y ny (-s) le_rfl (by linarith)) (near y' ny' (-s) le_rfl (by linarith)) (sidep (-s) (by linarith))
  have c2 := off _ _ (near y' ny' s (by linarith) le_rfl) (near y' ny' (-s) le_rfl (by linarith)) (by
    rintro z ⟨a, b, hab, ha, hb', rfl⟩ hz
    have := fin _ hz
    have e := eval_seg f hab (shift y' s (outward t)) (shift y' (-s) (outward t))
    unfold seg at e
    rw [e, fsh, fsh] at this
    have : 0 ≤ (a + b) * f.eval y' := by linarith
    rw [hab] at this
    linarith)
  exact j2 (c1.2 (c2.2 (c3.1 j1)))

/-! ## Rays -/

/-- The last point of a triangle on a ray. -/
theorem last_in {t : Tri P3} (ht : Ok t) {p q : P3} (hpq : p ≠ q) : (∀ s, 0 ≤ s → ¬ In t (rayPt p q s)) ∨ ∃ s, 0 ≤ s ∧ In t (rayPt p q s) ∧ ∀ s', s < s' → ¬ In t (rayPt p q s') := by
  have hm := Side.part_mem ht p q
  have hg := Side.part_good t p q
  have hb := Side.part_bounded ht hpq
  generalize Side.part t p q = v at hm hg hb
  match v, hm, hg, hb with
  | none, hm, _, _ => exact Or.inl fun s hs hin => (hm s).2 ⟨hs, hin⟩
  | some (lo, none), _, _, hb => exact absurd rfl (hb lo)
  | some (lo, some hi), hm, hg, _ =>
    have hm' : ∀ s, (lo ≤ s ∧ s ≤ hi) ↔ 0 ≤ s ∧ In t (rayPt p q s) := by
      intro s; rw [← hm s]; simp [Side.Iv.Mem]
    obtain ⟨h1, h2⟩ := (hm' hi).1 ⟨hg lo hi rfl, le_rfl⟩
    refine Or.inr ⟨hi, h1, h2, fun s' hs hin => ?_⟩
    have := (hm' s').2 ⟨by linarith, hin⟩
    linarith [this.2]

/-- The last point of a surface on a ray. -/
theorem last_surface {ts : List (Tri P3)} (h : ∀ t ∈ ts, Ok t) {p q : P3} (hpq : p ≠ q) : (∀ s, 0 ≤ s → ¬ Surface ts (rayPt p q s)) ∨ ∃ s, 0 ≤ s ∧ Surface ts (rayPt p q s) ∧ ∀ s', s < s' → ¬ Surface ts (rayPt p q s') := by
  induction ts with
  | nil => exact Or.inl fun s _ ⟨t, ht, _⟩ => by simp at ht
  | cons t ts ih =>
    have split : ∀ x, Surface (t :: ts) x ↔ In t x ∨ Surface ts x := by intro x; simp [Surface]
    simp only [split]
    rcases ih (fun u hu => h u (by simp [hu])) with h1 | ⟨s1, a1, b1, c1⟩ <;> rcases last_in (h t (by simp)) hpq with h2 | ⟨s2, a2, b2, c2⟩
    · left; rintro s hs (h | h); exacts [h2 s hs h, h1 s hs h]
    · right; refine ⟨s2, a2, Or.inl b2, ?_⟩; rintro s hs (h | h); exacts [c2 s hs h, h1 s (by linarith) h]
    · right; refine ⟨s1, a1, Or.inr b1, ?_⟩; rintro s hs (h | h); exacts [h2 s (by linarith) h, c1 s hs h]
    · right
      rcases le_total s1 s2 with hle | hle
      · exact ⟨s2, a2, Or.inl b2, by rintro s hs (h | h); exacts [c2 s hs h, c1 s (by linarith) h]⟩
      · exact ⟨s1, a1, Or.inr b1, by rintro s hs (h | h); exacts [c2 s (by linarith) h, c1 s hs h]⟩

theorem combo_ray {u v w u' v' w' : ℚ} {a b c p q : P3} {s s' : ℚ} (h : rayPt p q s = combo u v w a b c) (h' : rayPt p q s' = combo u' v' w' a b c) (k : ℚ) :
    rayPt p q (s + k * (s - s')) = combo (u + k * (u - u')) (v + k * (v - v')) (w + k * (w - w')) a b c := by
  have x := congrArg Spec.P3.x h; have y := congrArg Spec.P3.y h; have z := congrArg Spec.P3.z h
  have x' := congrArg Spec.P3.x h'; have y' := congrArg Spec.P3.y h'; have z' := congrArg Spec.P3.z h'
  simp only [rayPt, combo] at x y z x' y' z'
  apply p3_ext <;> simp only [rayPt, combo]
  · linear_combination (1 + k) * x - k * x'
  · linear_combination (1 + k) * y - k * y'
  · linear_combination (1 + k) * z - k * z'

/-- One can go on a little with a weight that is positive, or that does not change. -/
theorem go_on {w v : ℚ} (hw : 0 ≤ w) (h : w = 0 → v ≤ 0) : ∃ e > 0, ∀ k, 0 ≤ k → k ≤ e → 0 ≤ w + k * (w - v) := by
  rcases lt_or_eq_of_le hw with h' | h'
  · have hp : 0 < |w - v| + 1 := by have := abs_nonneg (w - v); linarith
    refine ⟨w / (|w - v| + 1), div_pos h' hp, fun k h0 h1 => ?_⟩
    have h2 : k * (|w - v| + 1) ≤ w := by rwa [le_div_iff₀ hp] at h1
    have h3 : -(k * |w - v|) ≤ k * (w - v) := by
      rw [← mul_neg]; exact mul_le_mul_of_nonneg_left (neg_abs_le _) h0
    linarith
  · refine ⟨1, one_pos, fun k h0 _ => ?_⟩
    have := h h'.symm
    rw [← h']
    have := mul_nonneg h0 (show 0 ≤ -v by linarith)
    linarith

/-- Where a ray leaves the surface for good, it leaves a triangle that has an earlier point on the ray through an edge: there is a corner with weight zero at the end and a positive weight before. -/
theorem leaves_edge {t : Tri P3} {p q : P3} {s s' : ℚ} (hs : s' < s) (hx : In t (rayPt p q s)) (hz : In t (rayPt p q s')) (hlast : ∀ r, s < r → ¬ In t (rayPt p q r)) :
    ∃ P Q R w0 w1 v0 v1 v2, Match ⟨P, Q, R⟩ t ∧ 0 ≤ w0 ∧ 0 ≤ w1 ∧ w0 + w1 = 1 ∧ rayPt p q s = combo w0 w1 0 P Q R ∧ v0 + v1 + v2 = 1 ∧ rayPt p q s' = combo v0 v1 v2 P Q R ∧ 0 < v2 := by
  obtain ⟨a, b, c⟩ := t
  obtain ⟨w0, w1, w2, hw, ew, hw0, hw1, hw2⟩ := hx
  obtain ⟨v0, v1, v2, hv, ev, hv0, hv1, hv2⟩ := hz
  simp only at ew ev
  by_cases h0 : w0 = 0 ∧ 0 < v0
  · obtain ⟨rfl, h0⟩ := h0
    refine ⟨b, c, a, w1, w2, v1, v2, v0, Or.inl (by simp [SameTri, Tri.rot]), hw1, hw2, by linarith, ?_, by linarith, ?_, h0⟩
    · rw [ew]; apply p3_ext <;> simp only [combo] <;> ring
    · rw [ev]; apply p3_ext <;> simp only [combo] <;> ring
  by_cases h1 : w1 = 0 ∧ 0 < v1
  · obtain ⟨rfl, h1⟩ := h1
    refine ⟨c, a, b, w2, w0, v2, v0, v1, Or.inl (by simp [SameTri, Tri.rot]), hw2, hw0, by linarith, ?_, by linarith, ?_, h1⟩
    · rw [ew]; apply p3_ext <;> simp only [combo] <;> ring
    · rw [ev]; apply p3_ext <;> simp only [combo] <;> ring
  by_cases h2 : w2 = 0 ∧ 0 < v2
  · obtain ⟨rfl, h2⟩ := h2
    exact ⟨a, b, c, w0, w1, v0, v1, v2, Or.inl (Or.inl rfl), hw0, hw1, by linarith, ew, hv, ev, h2⟩
  exfalso
  obtain ⟨e0, p0, k0⟩ := go_on hw0 (v := v0) fun e => not_lt.1 fun h => h0 ⟨e, h⟩
  obtain ⟨e1, p1, k1⟩ := go_on hw1 (v := v1) fun e => not_lt.1 fun h => h1 ⟨e, h⟩
  obtain ⟨e2, p2, k2⟩ := go_on hw2 (v := v2) fun e => not_lt.1 fun h => h2 ⟨e, h⟩
  obtain ⟨k, pk, l0, l1, l2⟩ : ∃ k : ℚ, 0 < k ∧ k ≤ e0 ∧ k ≤ e1 ∧ k ≤ e2 :=
    ⟨min e0 (min e1 e2), lt_min p0 (lt_min p1 p2), min_le_left _ _, (min_le_right _ _).trans (min_le_left _ _), (min_le_right _ _).trans (min_le_right _ _)⟩
  refine hlast (s + k * (s - s')) ?_ ⟨_, _, _, ?_, combo_ray ew ev k, k0 k pk.le l0, k1 k pk.le l1, k2 k pk.le l2⟩
  · have := mul_pos pk (sub_pos.2 hs); linarith
  · linear_combination (1 + k) * hw - k * hv

/-- **A ray that meets the surface of a solid meets some triangle in a single point.** -/
theorem single_hit {ts : List (Tri P3)} (hc : Complex ts) (ho : Once ts) {χ : P3 → Prop} (hb : Spec.Side.Bounds ts χ) {p q : P3} (hpq : p ≠ q) (hq : Surface ts q) : ∃ i x, HitAt ts p q i x := by
  by_contra hno
  push Not at hno
  have q1 : rayPt p q 1 = q := by apply p3_ext <;> simp only [rayPt] <;> ring
  rcases last_surface (fun t ht => ok_of_proper (hc.proper t ht)) hpq with h | ⟨s, hs0, ⟨t, ht, hx⟩, hlast⟩
  · exact h 1 zero_le_one (by rwa [q1])
  -- every triangle with the last point has an earlier one
  have earlier : ∀ u ∈ ts, In u (rayPt p q s) → ∃ s', s' < s ∧ In u (rayPt p q s') := by
    intro u hu hin
    obtain ⟨i, hi⟩ := List.mem_iff_getElem?.1 hu
    have := hno i (rayPt p q s)
    unfold HitAt at this
    push Not at this
    obtain ⟨z, hz⟩ := this u hi
    rcases hz with ⟨⟨hz1, r, hr, rfl⟩, hz2⟩ | ⟨hz1, rfl⟩
    · refine ⟨r, ?_, hz1⟩
      rcases lt_trichotomy r s with h | h | h
      · exact h
      · subst h; exact absurd rfl hz2
      · exact absurd ⟨u, hu, hz1⟩ (hlast r h)
    · exact absurd ⟨s, hs0, rfl⟩ (hz1 hin)
  obtain ⟨s', hs', hz⟩ := earlier t ht hx
  obtain ⟨P, Q, R, w0, w1, v0, v1, v2, hm, hw0, hw1, hw, ew, hv, ev, pv⟩ := leaves_edge hs' hx hz fun r hr hin => hlast r hr ⟨t, ht, hin⟩
  have hp : Proper ⟨P, Q, R⟩ := match_proper (match_symm hm) (hc.proper t ht)
  have hd := proper_distinct hp
  have mem : ∀ S, S = P ∨ S = Q ∨ S = R → S ∈ t.toList := fun S h => (match_mem hm S).1 (by simpa [Tri.toList] using h)
  obtain ⟨u, hu, hPu, hQu, hnm⟩ := other_face hc ho hb ht (mem P (by simp)) (mem Q (by simp)) hd.1
  -- the other triangle has the last point too
  have hxu : In u (rayPt p q s) := by
    obtain ⟨R', -, hm'⟩ := third_corner hPu hQu hd.1
    exact in_match hm' ⟨w0, w1, 0, by linarith, by rw [ew]; apply p3_ext <;> simp only [combo] <;> ring, hw0, hw1, le_rfl⟩
  obtain ⟨s2, hs2, hzu⟩ := earlier u hu hxu
  -- a common earlier point
  have okt := ok_of_proper (hc.proper t ht)
  have oku := ok_of_proper (hc.proper u hu)
  have between : ∀ (v : Tri P3) (r : ℚ), Ok v → r < s → In v (rayPt p q s) → In v (rayPt p q r) → ∀ r', r ≤ r' → r' ≤ s → In v (rayPt p q r') := by
    intro v r hok hr h1 h2 r' a1 a2
    have hpos : 0 < s - r := by linarith
    have := Side.in_seg hok h1 h2 (k := (s - r') / (s - r)) (div_nonneg (by linarith) hpos.le) (by rw [div_le_one hpos]; linarith)
    have e : seg (1 - (s - r') / (s - r)) ((s - r') / (s - r)) (rayPt p q s) (rayPt p q r) = rayPt p q r' := by
      apply p3_ext <;> simp only [seg, rayPt] <;> field_simp <;> ring
    rwa [e] at this
  obtain ⟨r, hr1, hr2, hr3⟩ : ∃ r, s' ≤ r ∧ s2 ≤ r ∧ r < s := ⟨max s' s2, le_max_left _ _, le_max_right _ _, max_lt hs' hs2⟩
  have zt := between t s' okt hs' hx hz r hr1 hr3.le
  have zu := between u s2 oku hs2 hxu hzu r hr2 hr3.le
  obtain ⟨c0, c1, c2, hcs, ec, -, -, -, -, -, k2⟩ := common_match₂ (match_symm hm) (match_refl u) (hc.meet t ht u hu _ zt zu)
  obtain ⟨f, fP, fQ, fR, -, -⟩ := edge_function (hc.proper t ht) hm
  have f1 : f.eval (rayPt p q s) = 0 := by rw [ew, eval_combo _ (by linarith), fP, fQ]; ring
  have f2 : 0 < f.eval (rayPt p q s') := by
    rw [ev, eval_combo _ hv, fP, fQ]
    have := mul_pos pv fR
    linarith
  have f3 : f.eval (rayPt p q r) = c2 * f.eval R := by rw [ec, eval_combo _ hcs, fP, fQ]; ring
  have g : ∀ r, f.eval (rayPt p q r) = f.eval p + r * (f.eval q - f.eval p) := fun r => Side.eval_ray f p q r
  rw [g] at f1 f2 f3
  refine hnm ?_
  have hmu : Match ⟨P, Q, R⟩ u := match_of_mem hd hPu hQu (k2 fun hz0 => ?_)
  · exact match_trans (match_symm hm) hmu
  · rw [hz0, zero_mul] at f3
    -- zero at two places, so zero at the third
    have h1 : (s - r) * (f.eval q - f.eval p) = 0 := by linear_combination f1 - f3
    rcases mul_eq_zero.1 h1 with h | h
    · linarith
    · rw [h] at f1 f2; linarith

end Kigumi.Space

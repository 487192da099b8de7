import Verif.Proofs.Space

/-! # Some triangles of a complex bound the region whose membership changes exactly across them -/
namespace Kigumi.Space
open Kigumi Geo Spec.Triangles Spec.Side FaceFace
open Kigumi.Spec (SameTri)
open Kigumi.Side (Aff plane Ok eval_seg eval_near eval_near_ne near_refl near_mono near_trans miss_near exists_eps shift_near seg_near in_seg all_near_ne plane_in ne_on_segment
  left_end right_end onSegment_self ok_of_proper in_iff eval_plane' eval_neg onSegment_swap onSegment_part eval_plane)

/-- Off the triangles, in the convex set. -/
def Off (K : P3 → Prop) (W : List (Tri P3)) (x : P3) : Prop := K x ∧ ¬ Surface W x

/-- Membership `V` (of points off the surface) and a selection `R` of the triangles of a complex: it changes across the selected triangles, from inside behind to outside in front, and not across others. -/
structure Select (K : P3 → Prop) (W R : List (Tri P3)) (V : P3 → Prop) : Prop where
  complex : Complex W
  from_ : ∀ r ∈ R, ∃ t ∈ W, Match t r
  once : Once R
  zone : Zone K
  within : StaysIn K W
  const : ∀ p q, K p → K q → (∀ x, OnSegment p q x → ¬ Surface W x) → (V p ↔ V q)
  same : ∀ t ∈ W, (∀ r ∈ R, ¬ Match t r) → ∀ x, Inner t x → ∃ e > 0, ∀ p q, Near e p x → Near e q x → (plane t).eval p ≠ 0 → (plane t).eval q ≠ 0 → (V p ↔ V q)
  jump : ∀ r ∈ R, ∀ x, Inner r x → ∃ e > 0, ∀ p, Near e p x → (0 < (plane r).eval p → ¬ V p) ∧ ((plane r).eval p < 0 → V p)

theorem near_symm {e : ℚ} {x y : P3} (h : Near e x y) : Near e y x := by
  obtain ⟨h1, h2, h3, h4, h5, h6⟩ := h
  exact ⟨by linarith, by linarith, by linarith, by linarith, by linarith, by linarith⟩

theorem match_proper {t r : Tri P3} (h : Match t r) (hp : Proper t) : Proper r := by
  intro h0
  have ho : Ok t := ok_of_proper hp
  apply plane_n ho
  obtain ⟨e, he⟩ := aff_ne (plane t) (plane_n ho) t.a
  exfalso
  apply he
  rw [← plane_match h]
  have e1 : (plane r).n = ⟨0, 0, 0⟩ := h0
  simp only [Aff.eval]
  rw [e1]
  have e2 : (plane r).k = - dot (plane r).n r.a := rfl
  rw [e2, e1]; simp [dot]

section
variable {K : P3 → Prop} {W R : List (Tri P3)} {V : P3 → Prop}

theorem Select.okW (h : Select K W R V) : ∀ t ∈ W, Ok t := fun t ht => ok_of_proper (h.complex.proper t ht)
theorem Select.properR (h : Select K W R V) : ∀ r ∈ R, Proper r := fun r hr => by
  obtain ⟨t, ht, hm⟩ := h.from_ r hr
  exact match_proper hm (h.complex.proper t ht)
theorem Select.okR (h : Select K W R V) : ∀ r ∈ R, Ok r := fun r hr => ok_of_proper (h.properR r hr)

theorem Select.sub (h : Select K W R V) {x : P3} (hx : Surface R x) : Surface W x := by
  obtain ⟨r, hr, hin⟩ := hx
  obtain ⟨t, ht, hm⟩ := h.from_ r hr
  exact ⟨t, ht, in_match (match_symm hm) hin⟩

/-- Selected triangles that have an inner point in common are the same. -/
theorem Select.meet (h : Select K W R V) {r r' : Tri P3} (hr : r ∈ R) (hr' : r' ∈ R) {x : P3} (hx : Inner r x) (hx' : In r' x) : Match r r' := by
  obtain ⟨t, ht, hm⟩ := h.from_ r hr
  obtain ⟨t', ht', hm'⟩ := h.from_ r' hr'
  have hx := inner_match (match_symm hm) hx
  exact match_trans (match_symm hm) (match_trans (inner_common (h.complex.proper t ht) hx (h.complex.meet t ht t' ht' x (inner_in hx) (in_match (match_symm hm') hx'))) hm')

/-- Membership does not change along segments that avoid the selected triangles. -/
theorem Select.along (h : Select K W R V) {y z : P3} (hy : Off K W y) (hz : Off K W z) (hseg : ∀ x, OnSegment y z x → ¬ Surface R x) : V y ↔ V z := by
  obtain ⟨e1, he1, k1⟩ := tube h.okR hseg
  obtain ⟨e2, he2, k2⟩ := ball h.okW hz.2
  obtain ⟨e3, he3, k3⟩ := h.zone.near z hz.1
  obtain ⟨z', hz'', hg⟩ := generic_near h.okW hy.2 z (lt_min (lt_min he1 he2) he3)
  have hz' := near_mono (min_le_left _ _) hz''
  have hzK := k3 z' (near_mono (min_le_right _ _) hz'')
  have hc : V z ↔ V z' := h.const z z' hz.1 hzK (k2 z z' (near_refl he2.le _) (near_mono (min_le_right _ _) hz'))
  rw [hc]
  refine walk h.zone hy.1 hzK hg V h.const ?_
  intro t ht x hx hin
  refine h.same t ht ?_ x hin
  intro r hr hm
  exact k1 y z' (near_refl he1.le _) (near_mono (min_le_left _ _) hz') x hx ⟨r, hr, in_match hm (inner_in hin)⟩

/-- Membership, extended to the points of triangles that are not selected. -/
def fill (K : P3 → Prop) (W : List (Tri P3)) (V : P3 → Prop) (x : P3) : Prop := ∃ e > 0, ∀ y, Near e y x → Off K W y → V y

/-- Close to a point of the convex set there are points of it off the triangles. -/
theorem Select.off_near (h : Select K W R V) {x : P3} (hx : K x) {e : ℚ} (he : 0 < e) : ∃ y, Near e y x ∧ Off K W y := by
  obtain ⟨e1, he1, k1⟩ := h.zone.near x hx
  obtain ⟨y, hy, _, hyW⟩ := Space.off_near h.okW x (lt_min he he1)
  exact ⟨y, near_mono (min_le_left _ _) hy, k1 y (near_mono (min_le_right _ _) hy), hyW⟩

theorem Select.fill_near (h : Select K W R V) {x : P3} (hxK : K x) (hx : ¬ Surface R x) : ∃ e > 0, ∀ p, Near e p x → Off K W p → (fill K W V x ↔ V p) := by
  obtain ⟨e, he, k⟩ := ball h.okR hx
  refine ⟨e, he, fun p hp hpW => ⟨fun ⟨e', he', hv⟩ => ?_, fun hv => ⟨e, he, fun y hy hyW => ?_⟩⟩⟩
  · obtain ⟨y, hy, hyW⟩ := h.off_near hxK (lt_min he he')
    exact (h.along hyW hpW (k y p (near_mono (min_le_left _ _) hy) hp)).1 (hv y (near_mono (min_le_right _ _) hy) hyW)
  · exact (h.along hpW hyW (k p y hp hy)).1 hv

theorem Select.fill_off (h : Select K W R V) {x : P3} (hx : Off K W x) : fill K W V x ↔ V x := by
  obtain ⟨e, he, k⟩ := h.fill_near hx.1 (fun hs => hx.2 (h.sub hs))
  exact k x (near_refl he.le _) hx

/-- On either side of a selected triangle, close to a point that is in no other one. -/
theorem Select.side (h : Select K W R V) {i : Nat} {r : Tri P3} {x : P3} (hr : R[i]? = some r) (hx : Singly R i x) (hxK : K x) :
    ∃ e > 0, ∀ p, Near e p x → Off K W p → (0 < (plane r).eval p → ¬ V p) ∧ ((plane r).eval p < 0 → V p) := by
  classical
  obtain ⟨r', hr', hin, huniq⟩ := hx
  rw [hr] at hr'; cases hr'
  have hmem : r ∈ R := List.mem_of_getElem? hr
  -- the other selected triangles are not close
  obtain ⟨e1, he1, k1⟩ := ball (ts := R.filter (fun u => ¬ u = r)) (p := x) (fun u hu => h.okR u (List.mem_of_mem_filter hu)) (by
    rintro ⟨u, hu, hux⟩
    rw [List.mem_filter, decide_eq_true_iff] at hu
    obtain ⟨j, hj⟩ := List.mem_iff_getElem?.1 hu.1
    have := huniq j u hj hux
    rw [this, hr] at hj
    exact hu.2 (Option.some.inj hj).symm)
  obtain ⟨eK, heK, kK⟩ := h.zone.near x hxK
  obtain ⟨e, he, k, kK⟩ : ∃ e > 0, (∀ p' q', Near e p' x → Near e q' x → ∀ z, OnSegment p' q' z → ¬ Surface (R.filter (fun u => ¬ u = r)) z) ∧ ∀ y, Near e y x → K y :=
    ⟨min e1 eK, lt_min he1 heK, fun p' q' n1 n2 => k1 p' q' (near_mono (min_le_left _ _) n1) (near_mono (min_le_left _ _) n2), fun y hy => kK y (near_mono (min_le_right _ _) hy)⟩
  obtain ⟨x', hx', hn'⟩ := inner_near hin (e := e / 2) (by linarith)
  obtain ⟨e', he', kj⟩ := h.jump r hmem x' hx'
  have okr := h.okR r hmem
  -- a point on the given side
  have pick : ∀ s : ℚ, s = 1 ∨ s = -1 → ∃ q, Near e q x ∧ Near e' q x' ∧ 0 < s * (plane r).eval q ∧ Off K W q := by
    intro s hs
    obtain ⟨d, hd, _, hsh⟩ := shift_near (e := min (e / 4) (e' / 2)) (lt_min (by linarith) (by linarith)) (outward r)
    have n1 := hsh (s * d) (by rcases hs with rfl | rfl <;> linarith) (by rcases hs with rfl | rfl <;> linarith) x'
    have ev : 0 < (s * (plane r).eval (shift x' (s * d) (outward r))) := by
      have e1 : (plane r).eval (shift x' (s * d) (outward r)) = (plane r).eval x' + s * d * dot (outward r) (outward r) := by
        have : (plane r).n = outward r := rfl
        simp only [Aff.eval, this, shift, dot]; ring
      rw [e1, plane_in (inner_in hx'), zero_add]
      have hN : 0 < dot (outward r) (outward r) := dot_self_pos okr
      rcases hs with rfl | rfl <;> nlinarith
    obtain ⟨e3, he3, k3⟩ : ∃ e3 > 0, ∀ y, Near e3 y (shift x' (s * d) (outward r)) → 0 < s * (plane r).eval y := by
      rcases hs with rfl | rfl
      · obtain ⟨e3, he3, k3⟩ := eval_near (plane r) (x := shift x' (1 * d) (outward r)) (by linarith)
        exact ⟨e3, he3, fun y hy => by have := k3 y hy; linarith⟩
      · obtain ⟨e3, he3, k3⟩ := eval_near (plane r).neg (x := shift x' (-1 * d) (outward r)) (by rw [eval_neg]; linarith)
        exact ⟨e3, he3, fun y hy => by have := k3 y hy; rw [eval_neg] at this; linarith⟩
    obtain ⟨q, hq, _, hqW⟩ := Space.off_near h.okW (shift x' (s * d) (outward r)) (e := min e3 (min (e / 4) (e' / 2))) (lt_min he3 (lt_min (by linarith) (by linarith)))
    have m1 := min_le_left (e / 4) (e' / 2)
    have m2 := min_le_right (e / 4) (e' / 2)
    have m3 := min_le_right e3 (min (e / 4) (e' / 2))
    have nq := near_trans (near_mono m3 hq) n1
    exact ⟨q, near_mono (by linarith) (near_trans nq hn'), near_mono (by linarith) nq, k3 q (near_mono (min_le_left _ _) hq), kK q (near_mono (by linarith) (near_trans nq hn')), hqW⟩
  have go : ∀ p q (s : ℚ), Near e p x → Near e q x → 0 < s * (plane r).eval p → 0 < s * (plane r).eval q → Off K W p → Off K W q → (V p ↔ V q) := by
    intro p q s hp hq sp sq hpW hqW
    refine h.along hpW hqW ?_
    rintro z hz ⟨u, hu, huz⟩
    by_cases hur : u = r
    · subst hur
      exact ne_on_segment (plane u) s sp sq hz (plane_in huz)
    · exact k p q hp hq z hz ⟨u, by rw [List.mem_filter, decide_eq_true_iff]; exact ⟨hu, hur⟩, huz⟩
  obtain ⟨q1, a1, b1, c1, d1⟩ := pick 1 (Or.inl rfl)
  obtain ⟨q2, a2, b2, c2, d2⟩ := pick (-1) (Or.inr rfl)
  refine ⟨e, he, fun p hp hpW => ⟨fun hpl hv => ?_, fun hpl => ?_⟩⟩
  · exact (kj q1 b1).1 (by linarith) ((go p q1 1 hp a1 (by linarith) c1 hpW d1).1 hv)
  · exact (go p q2 (-1) hp a2 (by linarith) c2 hpW d2).2 ((kj q2 b2).2 (by linarith))

/-- **The selected triangles bound the region.** -/
theorem Select.bounds (h : Select K W R V) : BoundsIn K R (fill K W V) where
  const := by
    intro x y hx hy hseg
    obtain ⟨e, he, k⟩ := tube h.okR hseg
    obtain ⟨e1, he1, k1⟩ := h.fill_near hx (hseg x (left_end x y))
    obtain ⟨e2, he2, k2⟩ := h.fill_near hy (hseg y (right_end x y))
    obtain ⟨p, hp, hpW⟩ := h.off_near hx (lt_min he he1)
    obtain ⟨q, hq, hqW⟩ := h.off_near hy (lt_min he he2)
    rw [k1 p (near_mono (min_le_right _ _) hp) hpW, k2 q (near_mono (min_le_right _ _) hq) hqW]
    exact h.along hpW hqW (k p q (near_mono (min_le_left _ _) hp) (near_mono (min_le_left _ _) hq))
  jump := by
    intro i r x hr hx hxK
    have hmem : r ∈ R := List.mem_of_getElem? hr
    have okr := h.okR r hmem
    obtain ⟨e1, he1, k⟩ := h.side hr hx hxK
    obtain ⟨eK, heK, kK⟩ := h.zone.near x hxK
    obtain ⟨e, he, hE1, hE2⟩ : ∃ e > 0, e ≤ e1 ∧ e ≤ eK := ⟨min e1 eK, lt_min he1 heK, min_le_left _ _, min_le_right _ _⟩
    obtain ⟨r', hr', hin, _⟩ := hx
    rw [hr] at hr'; cases hr'
    obtain ⟨d, hd, _, hsh⟩ := shift_near (e := e / 2) (by linarith) (outward r)
    have hN : 0 < dot (outward r) (outward r) := dot_self_pos okr
    have ev : ∀ s : ℚ, (plane r).eval (shift x s (outward r)) = s * dot (outward r) (outward r) := by
      intro s
      have e1 : (plane r).eval (shift x s (outward r)) = (plane r).eval x + s * dot (outward r) (outward r) := by
        have : (plane r).n = outward r := rfl
        simp only [Aff.eval, this, shift, dot]; ring
      rw [e1, plane_in hin, zero_add]
    refine ⟨d, hd, fun s h0 hs => ⟨?_, ?_⟩⟩
    · have hneg : (plane r).eval (shift x (-s) (outward r)) < 0 := by rw [ev]; nlinarith
      obtain ⟨e3, he3, k3⟩ := eval_near (plane r).neg (x := shift x (-s) (outward r)) (by rw [eval_neg]; linarith)
      refine ⟨min e3 (e / 2), lt_min he3 (by linarith), fun y hy hyW => ?_⟩
      have n1 := near_trans (near_mono (min_le_right _ _) hy) (hsh (-s) (by linarith) (by linarith) x)
      have := k3 y (near_mono (min_le_left _ _) hy)
      rw [eval_neg] at this
      exact (k y (near_mono (by linarith) n1) hyW).2 (by linarith)
    · rintro ⟨e4, he4, hv⟩
      have hpos : 0 < (plane r).eval (shift x s (outward r)) := by rw [ev]; positivity
      obtain ⟨e3, he3, k3⟩ := eval_near (plane r) hpos
      obtain ⟨y, hy, hyW⟩ := h.off_near (kK _ (near_mono (by linarith) (hsh s (by linarith) hs x))) (e := min e4 (min e3 (e / 2))) (lt_min he4 (lt_min he3 (by linarith)))
      have hy' := near_mono (min_le_right _ _) hy
      have n1 := near_trans (near_mono (min_le_right _ _) hy') (hsh s (by linarith) (by linarith) x)
      exact (k y (near_mono (by linarith) n1) hyW).1 (k3 y (near_mono (min_le_left _ _) hy')) (hv y (near_mono (min_le_left _ _) hy) hyW)

theorem Select.thin (h : Select K W R V) : Thin R := by
  intro i r x e hr hin he
  obtain ⟨y, hy, hn⟩ := inner_near hin he
  refine ⟨y, hn, r, hr, inner_in hy, fun j u hu huy => ?_⟩
  exact (h.once i j r u hr hu (h.meet (List.mem_of_getElem? hr) (List.mem_of_getElem? hu) hy huy)).symm

/-- Without selected triangles membership is the same everywhere. -/
theorem Select.everywhere (h : Select K W [] V) {y z : P3} (hy : Off K W y) (hz : Off K W z) : V y ↔ V z :=
  h.along hy hz (fun _ _ ⟨_, hr, _⟩ => by simp at hr)
end

end Kigumi.Space

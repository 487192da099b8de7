import Verif.Proofs.EdgeFrame
import Verif.Props.Radial
import Verif.Proofs.Solid

/-! # Two regions of space, around an edge of their cut faces -/
namespace Kigumi.Space
open Kigumi Geo Spec.Triangles Spec.Side FaceFace Fan
open Kigumi.Spec (SameTri Apex SameFace AngleAround RegionsAround RightTagAround)
open Kigumi.Side (Ok near_refl near_mono near_trans shift_near ok_of_proper onSegment_self)
open Kigumi.Radial (IsBase)

/-- The triangle of a face. -/
def tri (pts : Nat → P3) (f : Tri Nat) : Tri P3 := ⟨pts f.a, pts f.b, pts f.c⟩

/-- Faces of two operands, cut so that they meet only in common vertices and edges, which bound the sets `χ true` and `χ false` inside of the convex set `K`. Vertex numbers stand for different points. -/
structure Scene (K : P3 → Prop) (fs : List (Tri Nat)) (pts : Nat → P3) (owner : Nat → Bool) (χ : Bool → P3 → Prop) : Prop where
  proper : ∀ f ∈ fs, Proper (tri pts f)
  meet : ∀ f ∈ fs, ∀ g ∈ fs, ∀ x, In (tri pts f) x → In (tri pts g) x → InCommon (tri pts f) (tri pts g) x
  inj : ∀ f ∈ fs, ∀ g ∈ fs, ∀ v ∈ f.toList, ∀ w ∈ g.toList, pts v = pts w → v = w
  once : ∀ (i j : Nat) (f g : Tri Nat), fs[i]? = some f → fs[j]? = some g → owner i = owner j → Match (tri pts f) (tri pts g) → i = j
  zone : Zone K
  within : ∀ f ∈ fs, ∀ x, Inner (tri pts f) x → K x
  const : ∀ b y z, K y → K z → (∀ w, OnSegment y z w → ∀ (i : Nat) (f : Tri Nat), fs[i]? = some f → owner i = b → ¬ In (tri pts f) w) → (χ b y ↔ χ b z)
  jump : ∀ (i : Nat) (f : Tri Nat) y, fs[i]? = some f → Inner (tri pts f) y →
    ∃ e > 0, ∀ s, 0 < s → s ≤ e → χ (owner i) (shift y (-s) (outward (tri pts f))) ∧ ¬ χ (owner i) (shift y s (outward (tri pts f)))

/-- The middle of a segment. -/
def mid (P Q : P3) : P3 := seg (1 / 2) (1 / 2) P Q

theorem apex_match {pts : Nat → P3} {p q r : Nat} {f : Tri Nat} (h : Apex p q f r) : Match ⟨pts p, pts q, pts r⟩ (tri pts f) := by
  rcases h with (rfl | rfl | rfl) | (rfl | rfl | rfl) <;> simp [Match, SameTri, tri, Tri.rot, Tri.flip]

theorem apex_mem {p q r : Nat} {f : Tri Nat} (h : Apex p q f r) : p ∈ f.toList ∧ q ∈ f.toList ∧ r ∈ f.toList := by
  rcases h with (rfl | rfl | rfl) | (rfl | rfl | rfl) <;> simp [Tri.toList, Tri.rot]

theorem apex_swap {p q r : Nat} {f : Tri Nat} (h : Apex p q f r) : Apex q p f r := Or.symm h

theorem mem_tri {pts : Nat → P3} {f : Tri Nat} {x : P3} (h : x ∈ (tri pts f).toList) : ∃ v ∈ f.toList, pts v = x := by
  simp only [tri, Tri.toList, List.mem_cons, List.not_mem_nil, or_false] at h ⊢
  rcases h with rfl | rfl | rfl
  · exact ⟨_, Or.inl rfl, rfl⟩
  · exact ⟨_, Or.inr (Or.inl rfl), rfl⟩
  · exact ⟨_, Or.inr (Or.inr rfl), rfl⟩

theorem apex_exists {p q : Nat} {f : Tri Nat} (hpq : p ≠ q) (hp : p ∈ f.toList) (hq : q ∈ f.toList) : ∃ r, Apex p q f r := by
  obtain ⟨a, b, c⟩ := f
  simp only [Tri.toList, List.mem_cons, List.not_mem_nil, or_false] at hp hq
  simp only [Apex, SameFace, Tri.rot, Tri.mk.injEq]
  rcases hp with rfl | rfl | rfl <;> rcases hq with rfl | rfl | rfl <;> first | exact absurd rfl hpq | skip
  · exact ⟨c, by simp⟩
  · exact ⟨b, by simp⟩
  · exact ⟨c, by simp⟩
  · exact ⟨a, by simp⟩
  · exact ⟨b, by simp⟩
  · exact ⟨a, by simp⟩

theorem common_match {t t' u : Tri P3} {x : P3} (hm : Match t t') (h : InCommon t u x) : InCommon t' u x := by
  obtain ⟨w0, w1, w2, h1, rfl, h2, h3, h4, h5, h6, h7⟩ := h
  rcases hm with (rfl | rfl | rfl) | (rfl | rfl | rfl)
  · exact ⟨w0, w1, w2, h1, rfl, h2, h3, h4, h5, h6, h7⟩
  · exact ⟨w1, w2, w0, by linarith, by apply p3_ext <;> simp only [combo, Tri.rot] <;> ring, h3, h4, h2, h6, h7, h5⟩
  · exact ⟨w2, w0, w1, by linarith, by apply p3_ext <;> simp only [combo, Tri.rot] <;> ring, h4, h2, h3, h7, h5, h6⟩
  · exact ⟨w0, w2, w1, by linarith, by apply p3_ext <;> simp only [combo, Tri.flip] <;> ring, h2, h4, h3, h5, h7, h6⟩
  · exact ⟨w2, w1, w0, by linarith, by apply p3_ext <;> simp only [combo, Tri.rot, Tri.flip] <;> ring, h4, h3, h2, h7, h6, h5⟩
  · exact ⟨w1, w0, w2, by linarith, by apply p3_ext <;> simp only [combo, Tri.rot, Tri.flip] <;> ring, h3, h2, h4, h6, h5, h7⟩

theorem weights_unique {a b c : P3} (hok : Ok ⟨a, b, c⟩) {u v w u' v' w' : ℚ} (h : u + v + w = 1) (h' : u' + v' + w' = 1) (he : combo u v w a b c = combo u' v' w' a b c) : u = u' ∧ v = v' ∧ w = w' := by
  have h1 := wt_combo hok h
  have h2 := wt_combo hok h'
  rw [he, h2] at h1
  injection h1 with a1 a2 a3
  exact ⟨a1.symm, a2.symm, a3.symm⟩

theorem mid_in {t : Tri P3} : In t (mid t.a t.b) := ⟨1 / 2, 1 / 2, 0, by norm_num, by apply p3_ext <;> simp [combo, mid, seg], by norm_num, by norm_num, le_refl _⟩

/-- A point `m + b (R - P) + s (Q - P)` in terms of the corners. -/
theorem mid_shift (P Q R : P3) (b s : ℚ) : shift (mid P Q) 1 (seg b s (sub R P) (sub Q P)) = combo (1 / 2 - b - s) (1 / 2 + s) b P Q R := by
  apply p3_ext <;> simp only [shift, mid, seg, sub, combo] <;> ring

section
variable {K : P3 → Prop} {fs : List (Tri Nat)} {pts : Nat → P3} {owner : Nat → Bool} {χ : Bool → P3 → Prop}

theorem Scene.apex_ok (S : Scene K fs pts owner χ) {p q r : Nat} {f : Tri Nat} (hf : f ∈ fs) (h : Apex p q f r) : Proper ⟨pts p, pts q, pts r⟩ :=
  match_proper (match_symm (apex_match h)) (S.proper f hf)

/-- A face with the middle of an edge has this edge. -/
theorem Scene.through (S : Scene K fs pts owner χ) {p q r : Nat} {f g : Tri Nat} (hf : f ∈ fs) (hg : g ∈ fs) (ha : Apex p q f r) (hin : In (tri pts g) (mid (pts p) (pts q))) : ∃ r', Apex p q g r' := by
  have hP := S.apex_ok hf ha
  have hm := apex_match (pts := pts) ha
  have hmid : In (tri pts f) (mid (pts p) (pts q)) := in_match hm (mid_in (t := ⟨pts p, pts q, pts r⟩))
  obtain ⟨w0, w1, w2, h1, h2, -, -, -, h6, h7, -⟩ := common_match (match_symm hm) (S.meet f hf g hg _ hmid hin)
  obtain ⟨a1, a2, -⟩ := weights_unique (u := 1 / 2) (v := 1 / 2) (w := 0) (ok_of_proper hP) (by norm_num) h1 (by rw [← h2]; apply p3_ext <;> simp [combo, mid, seg])
  obtain ⟨vp, hvp, ep⟩ := mem_tri (h6 (by rw [← a1]; norm_num))
  obtain ⟨vq, hvq, eq⟩ := mem_tri (h7 (by rw [← a2]; norm_num))
  obtain ⟨m1, m2, -⟩ := apex_mem ha
  have e1 := S.inj g hg f hf vp hvp p m1 ep
  have e2 := S.inj g hg f hf vq hvq q m2 eq
  subst e1 e2
  exact apex_exists (fun h => (proper_distinct hP).1 (by rw [h])) hvp hvq

/-- Close to the middle of an edge there are only the faces with this edge. -/
theorem Scene.local_ball (S : Scene K fs pts owner χ) {p q r : Nat} {f : Tri Nat} (hf : f ∈ fs) (ha : Apex p q f r) :
    ∃ e > 0, ∀ y z, Near e y (mid (pts p) (pts q)) → Near e z (mid (pts p) (pts q)) → ∀ w, OnSegment y z w → ∀ g ∈ fs, In (tri pts g) w → ∃ r', Apex p q g r' := by
  classical
  obtain ⟨e, he, k⟩ := ball (ts := (fs.filter (fun g => ¬ In (tri pts g) (mid (pts p) (pts q)))).map (tri pts)) (p := mid (pts p) (pts q)) (by
      intro t ht
      obtain ⟨g, hg, rfl⟩ := List.mem_map.1 ht
      exact ok_of_proper (S.proper g (List.mem_of_mem_filter hg))) (by
      rintro ⟨t, ht, hin⟩
      obtain ⟨g, hg, rfl⟩ := List.mem_map.1 ht
      rw [List.mem_filter, decide_eq_true_iff] at hg
      exact hg.2 hin)
  refine ⟨e, he, fun y z hy hz w hw g hg hin => ?_⟩
  by_cases hm : In (tri pts g) (mid (pts p) (pts q))
  · exact S.through hf hg ha hm
  · exact absurd ⟨_, List.mem_map.2 ⟨g, by rw [List.mem_filter, decide_eq_true_iff]; exact ⟨hg, hm⟩, rfl⟩, hin⟩ (k y z hy hz w hw)

/-- The directions of the faces of an operand around an edge. -/
theorem vectors (fs : List (Tri Nat)) (pts : Nat → P3) (owner : Nat → Bool) (p q : Nat) (b : Bool) :
    ∃ as : List P3, ∀ a, a ∈ as ↔ ∃ (i : Nat) (f : Tri Nat) (r : Nat), fs[i]? = some f ∧ owner i = b ∧ Apex p q f r ∧ a = sub (pts r) (pts p) := by
  classical
  refine ⟨(List.range fs.length).flatMap (fun i => match fs[i]? with
    | none => []
    | some f => if owner i = b then (f.toList.filter (fun r => Apex p q f r)).map (fun r => sub (pts r) (pts p)) else []), fun a => ?_⟩
  rw [List.mem_flatMap]
  constructor
  · rintro ⟨i, -, h⟩
    cases hf : fs[i]? with
    | none => rw [hf] at h; simp at h
    | some f =>
      rw [hf] at h
      by_cases ho : owner i = b
      · simp only [ho, if_true, List.mem_map, List.mem_filter, decide_eq_true_iff] at h
        obtain ⟨r, ⟨-, h1⟩, rfl⟩ := h
        exact ⟨i, f, r, hf, ho, h1, rfl⟩
      · simp [ho] at h
  · rintro ⟨i, f, r, hf, ho, ha, rfl⟩
    have hi : i < fs.length := by
      by_contra hn
      rw [List.getElem?_eq_none (by omega)] at hf; cases hf
    refine ⟨i, List.mem_range.2 hi, ?_⟩
    rw [hf]
    simp only [ho, if_true, List.mem_map, List.mem_filter, decide_eq_true_iff]
    exact ⟨r, ⟨(apex_mem ha).2.2, ha⟩, rfl⟩

/-- Everything about the surroundings of an edge. -/
structure Around (K : P3 → Prop) (fs : List (Tri Nat)) (pts : Nat → P3) (owner : Nat → Bool) (χ : Bool → P3 → Prop) (p q : Nat) (u : P3) (e : ℚ) (as : Bool → List P3) : Prop where
  scene : Scene K fs pts owner χ
  used : ∃ f ∈ fs, ∃ r, Apex p q f r
  perp : dot u (sub (pts q) (pts p)) = 0
  base : u ≠ ⟨0, 0, 0⟩
  pos : 0 < e
  only : ∀ y z, Near e y (mid (pts p) (pts q)) → Near e z (mid (pts p) (pts q)) → ∀ w, OnSegment y z w → ∀ g ∈ fs, In (tri pts g) w → ∃ r', Apex p q g r'
  zone : K (mid (pts p) (pts q)) → ∀ y, Near e y (mid (pts p) (pts q)) → K y
  vecs : ∀ b a, a ∈ as b ↔ ∃ (i : Nat) (f : Tri Nat) (r : Nat), fs[i]? = some f ∧ owner i = b ∧ Apex p q f r ∧ a = sub (pts r) (pts p)

theorem Scene.around (S : Scene K fs pts owner χ) {p q : Nat} {u : P3} (hf : ∃ f ∈ fs, ∃ r, Apex p q f r) (hu : dot u (sub (pts q) (pts p)) = 0) (hu0 : u ≠ ⟨0, 0, 0⟩) : ∃ e as, Around K fs pts owner χ p q u e as := by
  obtain ⟨f, hf', r, ha⟩ := id hf
  obtain ⟨e, he, k⟩ := S.local_ball hf' ha
  obtain ⟨as, has⟩ := Classical.skolem.1 (vectors fs pts owner p q)
  by_cases hm : K (mid (pts p) (pts q))
  · obtain ⟨e', he', hz⟩ := S.zone.near _ hm
    exact ⟨min e e', as, S, hf, hu, hu0, lt_min he he', fun y z hy hz => k y z (near_mono (min_le_left _ _) hy) (near_mono (min_le_left _ _) hz),
      fun _ y hy => hz y (near_mono (min_le_right _ _) hy), has⟩
  · exact ⟨e, as, S, hf, hu, hu0, he, k, fun h => absurd h hm, has⟩

section
variable {p q : Nat} {u : P3} {e : ℚ} {as : Bool → List P3} (A : Around K fs pts owner χ p q u e as)
include A

theorem Around.ne : pts p ≠ pts q := by
  obtain ⟨f, hf, r, ha⟩ := A.used
  exact (proper_distinct (A.scene.apex_ok hf ha)).1

theorem Around.dir {g : Tri Nat} (_ : g ∈ fs) {r : Nat} (_ : Apex p q g r) {θ : ℝ} (h : AngleAround (pts p) (pts q) u (pts r) θ) :
    Dir (ex u) (ey (pts p) (pts q) u) (sub (pts r) (pts p)) θ := dir_of_angle A.ne A.perp A.base h

theorem Around.off_line {g : Tri Nat} (hg : g ∈ fs) {r : Nat} (ha : Apex p q g r) : ¬ Spec.OnLine (pts p) (pts q) (pts r) := by
  rintro ⟨t, h1, h2, h3⟩
  apply A.scene.apex_ok hg ha
  unfold outward
  simp only [Spec.P3.mk.injEq]
  rw [h1, h2, h3]
  refine ⟨by ring, by ring, by ring⟩

theorem Around.angle {g : Tri Nat} (hg : g ∈ fs) {r : Nat} (ha : Apex p q g r) : ∃ θ, AngleAround (pts p) (pts q) u (pts r) θ :=
  Radial.angle_exists A.ne A.perp A.base (A.off_line hg ha)

theorem Around.pencil (hm : K (mid (pts p) (pts q))) (b : Bool) : Pencil (ex u) (ey (pts p) (pts q) u) (χ b) (mid (pts p) (pts q)) e (as b) where
  frame := frame A.ne A.perp A.base
  pos := A.pos
  const := by
    have F := frame A.ne A.perp A.base
    intro d d' n1 n2 hno hdir
    apply A.scene.const _ _ _ (A.zone hm _ n1) (A.zone hm _ n2)
    intro w hw i f hf ho hin
    obtain ⟨r, ha⟩ := A.only _ _ n1 n2 w hw f (List.mem_of_getElem? hf) hin
    obtain ⟨x, y, z, hs, hwc, hx, hy, hz⟩ := in_match (match_symm (apex_match (pts := pts) ha)) hin
    obtain ⟨s, t, hst, hs0, ht0, hw⟩ := hw
    obtain ⟨φ, hφ⟩ := hdir s t hs0 ht0 hst
    refine hno s t hs0 ht0 hst (sub (pts r) (pts p)) ((A.vecs b _).2 ⟨i, f, r, hf, ho, ha, rfl⟩) φ ?_ hφ
    -- the point, in terms of the face
    have key : seg s t d d' = seg z (y - 1 / 2) (sub (pts r) (pts p)) (sub (pts q) (pts p)) := by
      have hxe : x = 1 - y - z := by linarith
      have hse : s = 1 - t := by linarith
      rw [hwc] at hw
      subst hxe hse
      simp only [combo, Spec.P3.mk.injEq, shift, mid, seg] at hw
      obtain ⟨e1, e2, e3⟩ := hw
      apply p3_ext <;> simp only [seg, sub]
      · linear_combination -e1
      · linear_combination -e2
      · linear_combination -e3
    rw [key] at hφ
    obtain ⟨ρ, r0, r1, r2⟩ := hφ
    rw [F.x, ex_n A.perp, mul_zero, add_zero] at r1
    rw [F.y, ey_n, mul_zero, add_zero] at r2
    have hz' : (0 : ℝ) ≤ z := by exact_mod_cast hz
    have hz0 : (0 : ℝ) < z := by
      rcases lt_or_eq_of_le hz' with h | h
      · exact h
      · rw [← h, zero_mul] at r1 r2
        have c := Real.sin_sq_add_cos_sq φ
        have c1 : Real.cos φ = 0 := (mul_eq_zero.1 r1.symm).resolve_left r0.ne'
        have c2 : Real.sin φ = 0 := (mul_eq_zero.1 r2.symm).resolve_left r0.ne'
        rw [c1, c2] at c; norm_num at c
    refine ⟨ρ / z, by positivity, ?_, ?_⟩
    · field_simp; linarith
    · field_simp; linarith

/-- Faces in the same direction coincide. -/
theorem Around.coincide {i j : Nat} {f g : Tri Nat} (hf : fs[i]? = some f) (hg : fs[j]? = some g) {r r' : Nat} (ha : Apex p q f r) (ha' : Apex p q g r') {θ : ℝ}
    (h : Dir (ex u) (ey (pts p) (pts q) u) (sub (pts r) (pts p)) θ) (h' : Dir (ex u) (ey (pts p) (pts q) u) (sub (pts r') (pts p)) θ) :
    Match (tri pts f) (tri pts g) ∧ r = r' := by
  have hf' := List.mem_of_getElem? hf
  have hg' := List.mem_of_getElem? hg
  obtain ⟨k, l, hk, he⟩ := same_angle A.ne A.perp A.base h h'
  -- a small multiple
  obtain ⟨c, c0, c1, c2, c3⟩ : ∃ c : ℚ, 0 < c ∧ c < 1 / 2 ∧ 0 < 1 / 2 - c * k - c * l ∧ 0 < 1 / 2 + c * l := by
    have hM : 0 < 4 * (k + |l| + 1) := by have := abs_nonneg l; linarith
    refine ⟨1 / (4 * (k + |l| + 1)), by positivity, ?_, ?_, ?_⟩
    · rw [div_lt_iff₀ hM]; have := abs_nonneg l; linarith
    · have e1 : 1 / 2 - 1 / (4 * (k + |l| + 1)) * k - 1 / (4 * (k + |l| + 1)) * l = (2 * (k + |l| + 1) - k - l) / (4 * (k + |l| + 1)) := by field_simp; ring
      rw [e1]; apply div_pos _ hM; have := le_abs_self l; have := abs_nonneg l; linarith
    · have e1 : 1 / 2 + 1 / (4 * (k + |l| + 1)) * l = (2 * (k + |l| + 1) + l) / (4 * (k + |l| + 1)) := by field_simp; ring
      rw [e1]; apply div_pos _ hM; have := neg_abs_le l; have := abs_nonneg l; linarith
  have i1 : Inner ⟨pts p, pts q, pts r'⟩ (shift (mid (pts p) (pts q)) 1 (seg c 0 (sub (pts r') (pts p)) (sub (pts q) (pts p)))) := by
    rw [mid_shift]
    refine ⟨_, _, _, ?_, rfl, ?_, ?_, ?_⟩
    · ring
    · simp only [Weight, if_true]; linarith
    · simp only [Weight, if_true]; linarith
    · simp only [Weight, if_true]; exact c0
  have i2 : Inner ⟨pts p, pts q, pts r⟩ (shift (mid (pts p) (pts q)) 1 (seg c 0 (sub (pts r') (pts p)) (sub (pts q) (pts p)))) := by
    have e1 : seg c 0 (sub (pts r') (pts p)) (sub (pts q) (pts p)) = seg (c * k) (c * l) (sub (pts r) (pts p)) (sub (pts q) (pts p)) := by
      rw [he]; apply p3_ext <;> simp only [seg] <;> ring
    rw [e1, mid_shift]
    refine ⟨_, _, _, ?_, rfl, ?_, ?_, ?_⟩
    · ring
    · simp only [Weight, if_true]; exact c2
    · simp only [Weight, if_true]; exact c3
    · simp only [Weight, if_true]; positivity
  have j1 := inner_match (apex_match (pts := pts) ha') i1
  have j2 := inner_match (apex_match (pts := pts) ha) i2
  have hm := inner_common (A.scene.proper f hf') j2 (A.scene.meet f hf' g hg' _ (inner_in j2) (inner_in j1))
  refine ⟨hm, ?_⟩
  have hd := proper_distinct (A.scene.apex_ok hf' ha)
  have hmem : pts r ∈ (⟨pts p, pts q, pts r'⟩ : Tri P3).toList :=
    (match_mem (match_trans (match_trans (apex_match ha) hm) (match_symm (apex_match ha'))) (pts r)).1 (by simp [Tri.toList])
  simp only [Tri.toList, List.mem_cons, List.not_mem_nil, or_false] at hmem
  rcases hmem with h | h | h
  · exact absurd h hd.2.2
  · exact absurd h.symm hd.2.1
  · exact A.scene.inj f hf' g hg' r (apex_mem ha).2.2 r' (apex_mem ha').2.2 h

/-- Small multiples of the direction of a face lead to inner points. -/
theorem Around.inward {f : Tri Nat} {r : Nat} (ha : Apex p q f r) :
    ∃ c : ℚ, 0 < c ∧ Inner (tri pts f) (shift (mid (pts p) (pts q)) 1 (seg c 0 (sub (pts r) (pts p)) (sub (pts r) (pts p)))) ∧
      Near e (shift (mid (pts p) (pts q)) 1 (seg c 0 (sub (pts r) (pts p)) (sub (pts r) (pts p)))) (mid (pts p) (pts q)) ∧
      Near (e / 2) (shift (mid (pts p) (pts q)) 1 (seg c 0 (sub (pts r) (pts p)) (sub (pts r) (pts p)))) (mid (pts p) (pts q)) := by
  have he := A.pos
  obtain ⟨d, d0, d1, hd⟩ := shift_near (show 0 < e / 2 by linarith) (sub (pts r) (pts p))
  have hc : 0 < min d (1 / 4) := lt_min d0 (by norm_num)
  have e1 : seg (min d (1 / 4)) 0 (sub (pts r) (pts p)) (sub (pts r) (pts p)) = seg (min d (1 / 4)) 0 (sub (pts r) (pts p)) (sub (pts q) (pts p)) := by
    apply p3_ext <;> simp [seg]
  have hn : Near (e / 2) (shift (mid (pts p) (pts q)) 1 (seg (min d (1 / 4)) 0 (sub (pts r) (pts p)) (sub (pts r) (pts p)))) (mid (pts p) (pts q)) := by
    have := hd (min d (1 / 4)) (by linarith) (min_le_left _ _) (mid (pts p) (pts q))
    have e2 : shift (mid (pts p) (pts q)) 1 (seg (min d (1 / 4)) 0 (sub (pts r) (pts p)) (sub (pts r) (pts p))) = shift (mid (pts p) (pts q)) (min d (1 / 4)) (sub (pts r) (pts p)) := by
      apply p3_ext <;> simp [shift, seg]
    rwa [e2]
  refine ⟨min d (1 / 4), hc, ?_, near_mono (by linarith) hn, hn⟩
  apply inner_match (apex_match (pts := pts) ha)
  rw [e1, mid_shift]
  refine ⟨_, _, _, ?_, rfl, ?_, ?_, ?_⟩
  · ring
  · simp only [Weight, if_true]; have := min_le_right d (1 / 4); linarith
  · simp only [Weight, if_true]; norm_num
  · simp only [Weight, if_true]; exact hc

/-- The set of an operand, in terms of angles. -/
noncomputable def Around.inn (_ : Around K fs pts owner χ p q u e as) (b : Bool) (φ : ℝ) : Bool := by
  classical
  exact decide (inside (ex u) (ey (pts p) (pts q) u) (χ b) (mid (pts p) (pts q)) e (as b) φ)

omit A in
theorem Around.inn_iff {A : Around K fs pts owner χ p q u e as} {b : Bool} {φ : ℝ} : A.inn b φ = true ↔ inside (ex u) (ey (pts p) (pts q) u) (χ b) (mid (pts p) (pts q)) e (as b) φ := by
  unfold Around.inn
  simp

/-- Next to a face. -/
theorem Around.cross (hm : K (mid (pts p) (pts q))) {i : Nat} {f : Tri Nat} (hf : fs[i]? = some f) {r : Nat} (ha : Apex p q f r) {θ : ℝ} (hθ : AngleAround (pts p) (pts q) u (pts r) θ) :
    ∃ ε, 0 < ε ∧ ∀ φ, |φ - θ| < ε → (0 < Spec.dirDot (pts p) (pts q) u φ (Spec.normal (pts f.a) (pts f.b) (pts f.c)) → A.inn (owner i) φ = false) ∧
      (Spec.dirDot (pts p) (pts q) u φ (Spec.normal (pts f.a) (pts f.b) (pts f.c)) < 0 → A.inn (owner i) φ = true) := by
  have hf' := List.mem_of_getElem? hf
  have hd := A.dir hf' ha hθ
  have F := frame A.ne A.perp A.base
  have hpi := Real.pi_pos
  obtain ⟨ε, e0, e1, iso⟩ := isolated (ex u) (ey (pts p) (pts q) u) hd (as (owner i))
  refine ⟨ε, e0, fun φ hφ => ?_⟩
  obtain ⟨κ, hκ, hx, hy⟩ := turn A.ne A.perp A.base (sub (pts r) (pts p))
  obtain ⟨c, c0, hin, -, hnear⟩ := A.inward ha
  obtain ⟨s0, hs0, ht⟩ := tilt F hd hκ hx hy e0 e1 c0
  obtain ⟨ej, hej, hj⟩ := A.scene.jump i f _ hf hin
  obtain ⟨d, d0, -, hsh⟩ := shift_near (show 0 < e / 2 by linarith [A.pos]) (Geo.cross (sub (pts q) (pts p)) (sub (pts r) (pts p)))
  -- a common step
  obtain ⟨s, hs, hsa, hsb, hsc⟩ : ∃ s : ℚ, 0 < s ∧ s ≤ s0 ∧ s ≤ ej ∧ s ≤ d :=
    ⟨min s0 (min ej d), lt_min hs0 (lt_min hej d0), min_le_left _ _, le_trans (min_le_right _ _) (min_le_left _ _), le_trans (min_le_right _ _) (min_le_right _ _)⟩
  obtain ⟨⟨ψ1, p1, p2, p3⟩, ⟨ψ2, q1, q2, q3⟩⟩ := ht s hs hsa
  obtain ⟨j1, j2⟩ := hj s hs hsb
  generalize hN : Geo.cross (sub (pts q) (pts p)) (sub (pts r) (pts p)) = N at *
  generalize ha' : sub (pts r) (pts p) = a at *
  have pt : ∀ s : ℚ, shift (shift (mid (pts p) (pts q)) 1 (seg c 0 a a)) s N = shift (mid (pts p) (pts q)) 1 (seg c s a N) := by
    intro s; apply p3_ext <;> simp only [shift, seg] <;> ring
  have nr : ∀ t : ℚ, -s ≤ t → t ≤ s → Near e (shift (mid (pts p) (pts q)) 1 (seg c t a N)) (mid (pts p) (pts q)) := by
    intro t h1 h2
    rw [← pt]
    have := near_trans (hsh t (by linarith) (by linarith) _) hnear
    rwa [show e / 2 + e / 2 = e by ring] at this
  have P := A.pencil hm (owner i)
  have free : ∀ α β, (θ - ε < α ∧ β < θ ∨ θ < α ∧ β < θ + ε) → FreeOn (ex u) (ey (pts p) (pts q) u) (as (owner i)) α β := by
    intro α β h b hb τ hτ ⟨t1, t2⟩
    have habs : |τ - θ| < ε := by
      rw [abs_lt]; rcases h with h | h <;> constructor <;> linarith
    have := iso b hb τ hτ habs
    rcases h with h | h <;> linarith
  rw [abs_lt] at hφ
  have right : θ < φ → (A.inn (owner i) φ = true ↔ χ (owner i) (shift (mid (pts p) (pts q)) 1 (seg c s a N))) := by
    intro h
    rw [Around.inn_iff]
    exact P.inside_iff p3 (nr s (by linarith) (le_refl _)) (free _ _ (Or.inr ⟨lt_min h p1, max_lt (by linarith) p2⟩))
  have left : φ < θ → (A.inn (owner i) φ = true ↔ χ (owner i) (shift (mid (pts p) (pts q)) 1 (seg c (-s) a N))) := by
    intro h
    rw [Around.inn_iff]
    exact P.inside_iff q3 (nr (-s) (le_refl _) (by linarith)) (free _ _ (Or.inl ⟨lt_min (by linarith) q1, max_lt h q2⟩))
  obtain ⟨k, hk, hdot⟩ := Radial.dirDot_sin A.ne A.perp A.base hθ
  have sgn1 : ∀ φ, θ < φ → φ < θ + ε → 0 < k * Real.sin (φ - θ) := fun φ h1 h2 => mul_pos hk (Real.sin_pos_of_pos_of_lt_pi (by linarith) (by linarith))
  have sgn2 : ∀ φ, φ < θ → θ - ε < φ → k * Real.sin (φ - θ) < 0 := fun φ h1 h2 => mul_neg_of_pos_of_neg hk (Real.sin_neg_of_neg_of_neg_pi_lt (by linarith) (by linarith))
  have sgn0 : k * Real.sin (θ - θ) = 0 := by simp
  have tri3 := lt_trichotomy φ θ
  rcases ha with ha | ha
  · -- the face is `pqr`
    have hout : outward (tri pts f) = N := by
      rw [← hN, ← ha']
      rcases ha with rfl | rfl | rfl <;> apply p3_ext <;> simp only [outward, tri, Tri.rot, Geo.cross, sub] <;> ring
    have hnorm := Radial.normal_same (pts := pts) ha
    rw [hnorm, hdot]
    rw [hout, pt] at j1 j2
    constructor
    · intro h
      rw [← Bool.not_eq_true]
      rcases tri3 with h' | h' | h'
      · exact absurd (sgn2 φ h' (by linarith)) (by linarith)
      · rw [h', sgn0] at h; exact absurd h (lt_irrefl _)
      · rw [right h']; exact j2
    · intro h
      rcases tri3 with h' | h' | h'
      · rw [left h']; exact j1
      · rw [h', sgn0] at h; exact absurd h (lt_irrefl _)
      · exact absurd (sgn1 φ h' (by linarith)) (by linarith)
  · -- the face is `qpr`
    have hout : ∀ x (t : ℚ), shift x t (outward (tri pts f)) = shift x (-t) N := by
      intro x t
      rw [← hN, ← ha']
      rcases ha with rfl | rfl | rfl <;> apply p3_ext <;> simp only [outward, tri, Tri.rot, Geo.cross, sub, shift] <;> ring
    have hnorm := Radial.normal_same (pts := pts) ha
    rw [hnorm, Radial.normal_swap, Radial.dirDot_neg, hdot]
    rw [hout, pt] at j1 j2
    rw [neg_neg] at j1
    constructor
    · intro h
      rw [← Bool.not_eq_true]
      rcases tri3 with h' | h' | h'
      · rw [left h']; exact j2
      · rw [h', sgn0] at h; exact absurd h (by simp)
      · exact absurd (sgn1 φ h' (by linarith)) (by linarith)
    · intro h
      rcases tri3 with h' | h' | h'
      · exact absurd (sgn2 φ h' (by linarith)) (by linarith)
      · rw [h', sgn0] at h; exact absurd h (by simp)
      · rw [right h']; exact j1

/-- **Around an edge, the faces bound two regions.** -/
theorem Around.regions (hmK : K (mid (pts p) (pts q))) {l : List (Nat × Tri Nat)} (hl : ∀ g ∈ l, fs[g.1]? = some g.2) (hall : ∀ (i : Nat) (f : Tri Nat) (r : Nat), fs[i]? = some f → Apex p q f r → (i, f) ∈ l) :
    RegionsAround pts p q u l owner A.inn where
  periodic := by
    intro x φ
    rw [Bool.eq_iff_iff, Around.inn_iff, Around.inn_iff]
    exact inside_periodic φ
  const := by
    intro x α β hab h
    rw [Bool.eq_iff_iff, Around.inn_iff, Around.inn_iff]
    refine (A.pencil hmK x).inside_const hab ?_
    intro a ha θ hθ hin
    obtain ⟨i, f, r, hf, ho, hap, rfl⟩ := (A.vecs x a).1 ha
    obtain ⟨θ0, h0⟩ := A.angle (List.mem_of_getElem? hf) hap
    obtain ⟨k, rfl⟩ := dir_same (A.dir (List.mem_of_getElem? hf) hap h0) hθ
    exact h (i, f) (hall i f r hf hap) ho r θ0 hap h0 k hin
  cross := fun g hg r θ ha hθ => A.cross hmK (hl g hg) ha hθ
  meet := by
    intro g hg h hh hne r r' θ ha ha' hθ hθ'
    obtain ⟨hm, hr⟩ := A.coincide (hl g hg) (hl h hh) ha ha' (A.dir (List.mem_of_getElem? (hl g hg)) ha hθ) (A.dir (List.mem_of_getElem? (hl h hh)) ha' hθ')
    exact ⟨fun ho => hne (A.scene.once _ _ _ _ (hl g hg) (hl h hh) ho hm), hr⟩
end
end

end Kigumi.Space

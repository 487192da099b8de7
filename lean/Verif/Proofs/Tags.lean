import Verif.Proofs.Around
import Verif.Spec.Seams

/-! # The right tags of cut faces -/
namespace Kigumi.Space
open Kigumi Geo Spec.Triangles Spec.Side FaceFace Fan
open Kigumi.Spec (SameTri Apex SameFace AngleAround RegionsAround RightTagAround HasEdge Seams Coincide SharesNonBorder IsBorder)
open Kigumi.Side (Ok near_refl near_mono near_trans shift_near ok_of_proper onSegment_self)
open Kigumi.Radial (IsBase)

/-- The right tag of a face. -/
def Right (fs : List (Tri Nat)) (pts : Nat → P3) (owner : Nat → Bool) (χ : Bool → P3 → Prop) (i : Nat) (f : Tri Nat) : Tag → Prop
  | .unknown => False
  | .coplanar => ∃ (j : Nat) (g : Tri Nat), fs[j]? = some g ∧ owner j ≠ owner i ∧ SameTri (tri pts f) (tri pts g)
  | .opposite => ∃ (j : Nat) (g : Tri Nat), fs[j]? = some g ∧ owner j ≠ owner i ∧ SameTri (tri pts f).flip (tri pts g)
  | .interior => (∀ (j : Nat) (g : Tri Nat), fs[j]? = some g → owner j ≠ owner i → ¬ Match (tri pts f) (tri pts g)) ∧ ∀ x, Inner (tri pts f) x → χ (!owner i) x
  | .exterior => (∀ (j : Nat) (g : Tri Nat), fs[j]? = some g → owner j ≠ owner i → ¬ Match (tri pts f) (tri pts g)) ∧ ∀ x, Inner (tri pts f) x → ¬ χ (!owner i) x

theorem bool_ne {a b : Bool} (h : a ≠ b) : a = !b := by cases a <;> cases b <;> simp_all

theorem bool_three {a b c : Bool} (h : a ≠ b) (h' : c ≠ b) : a = c := by cases a <;> cases b <;> cases c <;> simp_all

section
variable {K : P3 → Prop} {fs : List (Tri Nat)} {pts : Nat → P3} {owner : Nat → Bool} {χ : Bool → P3 → Prop}

/-- Inside of a face that coincides with no face of the other operand one does not meet the other operand. -/
theorem Scene.inner_const (S : Scene K fs pts owner χ) {i : Nat} {f : Tri Nat} (hf : fs[i]? = some f)
    (hno : ∀ (j : Nat) (g : Tri Nat), fs[j]? = some g → owner j ≠ owner i → ¬ Match (tri pts f) (tri pts g)) {x y : P3} (hx : Inner (tri pts f) x) (hy : Inner (tri pts f) y) :
    χ (!owner i) x ↔ χ (!owner i) y := by
  have hf0 := List.mem_of_getElem? hf
  apply S.const _ _ _ (S.within f hf0 _ hx) (S.within f hf0 _ hy)
  intro w hw j g hg ho hin
  have hi := inner_onSegment hx hy hw
  have hf' := List.mem_of_getElem? hf
  refine hno j g hg (by rw [ho]; simp) ?_
  exact inner_common (S.proper f hf') hi (S.meet f hf' g (List.mem_of_getElem? hg) w (inner_in hi) hin)

theorem Scene.right_exists (S : Scene K fs pts owner χ) {i : Nat} {f : Tri Nat} (hf : fs[i]? = some f) : ∃ t, Right fs pts owner χ i f t := by
  by_cases h1 : ∃ (j : Nat) (g : Tri Nat), fs[j]? = some g ∧ owner j ≠ owner i ∧ SameTri (tri pts f) (tri pts g)
  · exact ⟨.coplanar, h1⟩
  by_cases h2 : ∃ (j : Nat) (g : Tri Nat), fs[j]? = some g ∧ owner j ≠ owner i ∧ SameTri (tri pts f).flip (tri pts g)
  · exact ⟨.opposite, h2⟩
  have hno : ∀ (j : Nat) (g : Tri Nat), fs[j]? = some g → owner j ≠ owner i → ¬ Match (tri pts f) (tri pts g) := by
    rintro j g hg ho (hm | hm)
    · exact h1 ⟨j, g, hg, ho, hm⟩
    · exact h2 ⟨j, g, hg, ho, hm⟩
  by_cases hc : χ (!owner i) (centre (tri pts f))
  · exact ⟨.interior, hno, fun x hx => (S.inner_const hf hno (inner_centre _) hx).1 hc⟩
  · exact ⟨.exterior, hno, fun x hx h => hc ((S.inner_const hf hno (inner_centre _) hx).2 h)⟩

theorem Scene.right_unique (S : Scene K fs pts owner χ) {i : Nat} {f : Tri Nat} (hf : fs[i]? = some f) {t t' : Tag} (h : Right fs pts owner χ i f t) (h' : Right fs pts owner χ i f t') : t = t' := by
  have hp := S.proper f (List.mem_of_getElem? hf)
  have hd := proper_distinct hp
  have one : ∀ (j j' : Nat) (g g' : Tri Nat), fs[j]? = some g → owner j ≠ owner i → SameTri (tri pts f) (tri pts g) → fs[j']? = some g' → owner j' ≠ owner i → SameTri (tri pts f).flip (tri pts g') → False := by
    intro j j' g g' hg ho hs hg' ho' hs'
    have := S.once j j' g g' hg hg' (bool_three ho ho') (match_trans (match_symm (Or.inl hs)) (Or.inr hs'))
    subst this
    rw [hg] at hg'; cases hg'
    exact not_both hd hs hs'
  cases t <;> cases t' <;> first | rfl | exact h.elim | exact h'.elim | skip
  all_goals simp only [Right] at h h'
  all_goals first
    | exact absurd (h'.2 _ (inner_centre _)) (h.2 _ (inner_centre _))
    | exact absurd (h.2 _ (inner_centre _)) (h'.2 _ (inner_centre _))
    | (obtain ⟨j, g, a, b, c⟩ := h; exact absurd (Or.inl c) (h'.1 j g a b))
    | (obtain ⟨j, g, a, b, c⟩ := h; exact absurd (Or.inr c) (h'.1 j g a b))
    | (obtain ⟨j, g, a, b, c⟩ := h'; exact absurd (Or.inl c) (h.1 j g a b))
    | (obtain ⟨j, g, a, b, c⟩ := h'; exact absurd (Or.inr c) (h.1 j g a b))
    | (obtain ⟨j, g, a, b, c⟩ := h; obtain ⟨j', g', a', b', c'⟩ := h'; exact (one j j' g g' a b c a' b' c').elim)
    | (obtain ⟨j, g, a, b, c⟩ := h'; obtain ⟨j', g', a', b', c'⟩ := h; exact (one j j' g g' a b c a' b' c').elim)

/-! ## Coincidence of triangles and of faces -/

theorem sameTri_of_face {f g : Tri Nat} (h : SameFace f g) : SameTri (tri pts f) (tri pts g) := by
  rcases h with rfl | rfl | rfl <;> simp [SameTri, tri, Tri.rot]

theorem tri_flip (f : Tri Nat) : (tri pts f).flip = tri pts f.flip := rfl

theorem Scene.sameFace (S : Scene K fs pts owner χ) {f g : Tri Nat} (hf : f ∈ fs) (hg : g ∈ fs) (h : SameTri (tri pts f) (tri pts g)) : SameFace f g := by
  have hinj := S.inj g hg f hf
  obtain ⟨a, b, c⟩ := f
  obtain ⟨x, y, z⟩ := g
  simp only [Tri.toList, List.mem_cons, List.not_mem_nil, or_false] at hinj
  simp only [SameTri, tri, Tri.rot, Tri.mk.injEq] at h
  simp only [SameFace, Tri.rot, Tri.mk.injEq]
  rcases h with ⟨h1, h2, h3⟩ | ⟨h1, h2, h3⟩ | ⟨h1, h2, h3⟩
  · exact Or.inl ⟨hinj x (by simp) a (by simp) h1, hinj y (by simp) b (by simp) h2, hinj z (by simp) c (by simp) h3⟩
  · exact Or.inr (Or.inl ⟨hinj x (by simp) b (by simp) h1, hinj y (by simp) c (by simp) h2, hinj z (by simp) a (by simp) h3⟩)
  · exact Or.inr (Or.inr ⟨hinj x (by simp) c (by simp) h1, hinj y (by simp) a (by simp) h2, hinj z (by simp) b (by simp) h3⟩)

theorem Scene.sameFace_flip (S : Scene K fs pts owner χ) {f g : Tri Nat} (hf : f ∈ fs) (hg : g ∈ fs) (h : SameTri (tri pts f).flip (tri pts g)) : SameFace f.flip g := by
  have hinj := S.inj g hg f hf
  obtain ⟨a, b, c⟩ := f
  obtain ⟨x, y, z⟩ := g
  simp only [Tri.toList, List.mem_cons, List.not_mem_nil, or_false] at hinj
  simp only [SameTri, tri, Tri.rot, Tri.flip, Tri.mk.injEq] at h
  simp only [SameFace, Tri.rot, Tri.flip, Tri.mk.injEq]
  rcases h with ⟨h1, h2, h3⟩ | ⟨h1, h2, h3⟩ | ⟨h1, h2, h3⟩
  · exact Or.inl ⟨hinj x (by simp) a (by simp) h1, hinj y (by simp) c (by simp) h2, hinj z (by simp) b (by simp) h3⟩
  · exact Or.inr (Or.inl ⟨hinj x (by simp) c (by simp) h1, hinj y (by simp) b (by simp) h2, hinj z (by simp) a (by simp) h3⟩)
  · exact Or.inr (Or.inr ⟨hinj x (by simp) b (by simp) h1, hinj y (by simp) a (by simp) h2, hinj z (by simp) c (by simp) h3⟩)

theorem apex_same {p q r : Nat} {f g : Tri Nat} (h : SameFace f g) (ha : Apex p q f r) : Apex p q g r := by
  rcases ha with ha | ha
  · exact Or.inl (Radial.SameFace.trans ha h)
  · exact Or.inr (Radial.SameFace.trans ha h)

theorem apex_flip {p q r : Nat} {f : Tri Nat} (ha : Apex p q f r) : Apex p q f.flip r := by
  rcases ha with ha | ha
  · have := Radial.SameFace.flip ha
    exact Or.inr (Radial.SameFace.trans (Or.inr (Or.inl rfl)) this)
  · have := Radial.SameFace.flip ha
    exact Or.inl (Radial.SameFace.trans (Or.inr (Or.inl rfl)) this)

/-- **The right tag around an edge is the right tag.** -/
theorem Around.right_tag {p q : Nat} {u : P3} {e : ℚ} {as : Bool → List P3} (A : Around K fs pts owner χ p q u e as) (hmK : K (mid (pts p) (pts q))) {l : List (Nat × Tri Nat)} (hl : ∀ g ∈ l, fs[g.1]? = some g.2)
    (hall : ∀ (i : Nat) (f : Tri Nat) (r : Nat), fs[i]? = some f → Apex p q f r → (i, f) ∈ l) {g : Nat × Tri Nat} (hg : g ∈ l) {r : Nat} (ha : Apex p q g.2 r) {t : Tag}
    (ht : Right fs pts owner χ g.1 g.2 t) : RightTagAround pts p q u l owner A.inn g t := by
  have hg0 := hl g hg
  have hg' := List.mem_of_getElem? hg0
  have none : (∀ (j : Nat) (h : Tri Nat), fs[j]? = some h → owner j ≠ owner g.1 → ¬ Match (tri pts g.2) (tri pts h)) → ∀ h ∈ l, h.1 ≠ g.1 → ¬ SameFace g.2 h.2 ∧ ¬ SameFace g.2.flip h.2 := by
    intro hno h hh hne
    have hh0 := hl h hh
    have key : ¬ Match (tri pts g.2) (tri pts h.2) := by
      intro hm
      by_cases ho : owner h.1 = owner g.1
      · exact hne (A.scene.once _ _ _ _ hh0 hg0 ho (match_symm hm))
      · exact hno _ _ hh0 ho hm
    exact ⟨fun hs => key (Or.inl (sameTri_of_face hs)), fun hs => key (Or.inr (by rw [tri_flip]; exact sameTri_of_face hs))⟩
  have angle : (∀ (j : Nat) (h : Tri Nat), fs[j]? = some h → owner j ≠ owner g.1 → ¬ Match (tri pts g.2) (tri pts h)) →
      ∃ θ x, AngleAround (pts p) (pts q) u (pts r) θ ∧ Inner (tri pts g.2) x ∧ (A.inn (!owner g.1) θ = true ↔ χ (!owner g.1) x) := by
    intro hno
    obtain ⟨θ, hθ⟩ := A.angle hg' ha
    have hd := A.dir hg' ha hθ
    obtain ⟨c, c0, hin, hn, -⟩ := A.inward ha
    refine ⟨θ, _, hθ, hin, ?_⟩
    rw [Around.inn_iff]
    refine (A.pencil hmK (!owner g.1)).inside_iff (dir_pos (frame A.ne A.perp A.base) hd c0) hn ?_
    rw [min_self, max_self]
    intro a hav τ hτ ⟨t1, t2⟩
    have : τ = θ := le_antisymm t2 t1
    subst this
    obtain ⟨j, h, r', hh, ho, hap, rfl⟩ := (A.vecs _ a).1 hav
    exact hno j h hh (by rw [ho]; simp) (A.coincide hg0 hh ha hap hd hτ).1
  cases t with
  | unknown => exact ht
  | coplanar =>
    obtain ⟨j, h, hh, ho, hs⟩ := ht
    have hsf := A.scene.sameFace hg' (List.mem_of_getElem? hh) hs
    exact ⟨(j, h), hall j h r hh (apex_same hsf ha), fun e => ho (by rw [show j = g.1 from e]), hsf⟩
  | opposite =>
    obtain ⟨j, h, hh, ho, hs⟩ := ht
    have hsf := A.scene.sameFace_flip hg' (List.mem_of_getElem? hh) hs
    exact ⟨(j, h), hall j h r hh (apex_same hsf (apex_flip ha)), fun e => ho (by rw [show j = g.1 from e]), hsf⟩
  | interior =>
    obtain ⟨hno, hin⟩ := ht
    obtain ⟨θ, x, h1, h2, h3⟩ := angle hno
    exact ⟨none hno, r, θ, ha, h1, h3.2 (hin x h2)⟩
  | exterior =>
    obtain ⟨hno, hin⟩ := ht
    obtain ⟨θ, x, h1, h2, h3⟩ := angle hno
    refine ⟨none hno, r, θ, ha, h1, ?_⟩
    rw [← Bool.not_eq_true]
    exact fun h => hin x h2 (h3.1 h)

/-! ## Across an edge -/

/-- If no face of operand `b` has the edge, then close to the edge one is on the same side of it. -/
theorem Around.same_side {p q : Nat} {u : P3} {e : ℚ} {as : Bool → List P3} (A : Around K fs pts owner χ p q u e as) {b : Bool} (hb : ∀ i, HasEdge fs p q i → owner i ≠ b)
    {f g : Tri Nat} (hf : f ∈ fs) (hg : g ∈ fs) {r r' : Nat} (ha : Apex p q f r) (ha' : Apex p q g r') : ∃ x y, Inner (tri pts f) x ∧ Inner (tri pts g) y ∧ (χ b x ↔ χ b y) := by
  obtain ⟨c, -, h1, h2, -⟩ := A.inward ha
  obtain ⟨c', -, h1', h2', -⟩ := A.inward ha'
  refine ⟨_, _, h1, h1', A.scene.const b _ _ (A.scene.within f hf _ h1) (A.scene.within g hg _ h1') ?_⟩
  intro w hw i h hh ho hin
  obtain ⟨r'', hr⟩ := A.only _ _ h2 h2' w hw h (List.mem_of_getElem? hh) hin
  exact hb i ⟨h, r'', hh, hr⟩ ho

theorem apex_ccw {p q r : Nat} {f : Tri Nat} (h : Apex p q f r) : SameFace ⟨p, q, r⟩ f ∨ SameFace ⟨q, p, r⟩ f := h

/-- If an operand has two faces at an edge, they traverse the edge in opposite directions. -/
theorem Around.not_parallel_lt {p q : Nat} {u : P3} {e : ℚ} {as : Bool → List P3} (A : Around K fs pts owner χ p q u e as) (hmK : K (mid (pts p) (pts q))) {i j : Nat} {f g : Tri Nat} {r r' : Nat} (hf : fs[i]? = some f)
    (hg : fs[j]? = some g) (ho : owner i = owner j) (honly : ∀ k, HasEdge fs p q k → owner k = owner i → k = i ∨ k = j) {θ θ' : ℝ}
    (hθ : AngleAround (pts p) (pts q) u (pts r) θ) (hθ' : AngleAround (pts p) (pts q) u (pts r') θ') (hlt : θ < θ')
    (hs : (SameFace ⟨p, q, r⟩ f ∧ SameFace ⟨p, q, r'⟩ g) ∨ (SameFace ⟨q, p, r⟩ f ∧ SameFace ⟨q, p, r'⟩ g)) : False := by
  have hpi := Real.pi_pos
  have ha : Apex p q f r := by rcases hs with ⟨h, -⟩ | ⟨h, -⟩; exacts [Or.inl h, Or.inr h]
  have ha' : Apex p q g r' := by rcases hs with ⟨-, h⟩ | ⟨-, h⟩; exacts [Or.inl h, Or.inr h]
  obtain ⟨ε1, e1, c1⟩ := A.cross hmK hf ha hθ
  obtain ⟨ε2, e2, c2⟩ := A.cross hmK hg ha' hθ'
  obtain ⟨k1, hk1, d1⟩ := Radial.dirDot_sin A.ne A.perp A.base hθ
  obtain ⟨k2, hk2, d2⟩ := Radial.dirDot_sin A.ne A.perp A.base hθ'
  have b1 := hθ.1
  have b2 := hθ'.2.1
  obtain ⟨δ, δ0, δ1, δ2, δ3⟩ : ∃ δ : ℝ, 0 < δ ∧ δ < ε1 ∧ δ < ε2 ∧ δ < (θ' - θ) / 2 := by
    refine ⟨min (min ε1 ε2) ((θ' - θ) / 2) / 2, ?_, ?_, ?_, ?_⟩
    · have : 0 < min (min ε1 ε2) ((θ' - θ) / 2) := lt_min (lt_min e1 e2) (by linarith)
      linarith
    all_goals
      have h0 : 0 < min (min ε1 ε2) ((θ' - θ) / 2) := lt_min (lt_min e1 e2) (by linarith)
      have h1 := min_le_left (min ε1 ε2) ((θ' - θ) / 2)
      have h2 := min_le_right (min ε1 ε2) ((θ' - θ) / 2)
      have h3 := min_le_left ε1 ε2
      have h4 := min_le_right ε1 ε2
      linarith
  have hc1 := c1 (θ + δ) (by rw [show θ + δ - θ = δ by ring, abs_of_pos δ0]; exact δ1)
  have hc2 := c2 (θ' - δ) (by rw [show θ' - δ - θ' = -δ by ring, abs_neg, abs_of_pos δ0]; exact δ2)
  have same : A.inn (owner i) (θ + δ) = A.inn (owner i) (θ' - δ) := by
    rw [Bool.eq_iff_iff, Around.inn_iff, Around.inn_iff]
    refine (A.pencil hmK (owner i)).inside_const (by linarith) ?_
    intro a hav τ hτ ⟨t1, t2⟩
    obtain ⟨k, h, r'', hh, hok, hap, rfl⟩ := (A.vecs _ a).1 hav
    have big : ∀ α : ℝ, 0 ≤ α → α < 2 * Real.pi → (∃ n : ℤ, τ = α + 2 * Real.pi * n) → τ = α := by
      rintro α h1 h2 ⟨n, hn⟩
      have hn1 : n < 1 := by
        by_contra hc
        have : (1 : ℝ) ≤ n := by exact_mod_cast not_lt.1 hc
        have := mul_le_mul_of_nonneg_left this (show 0 ≤ 2 * Real.pi by linarith)
        linarith
      have hn2 : -1 < n := by
        by_contra hc
        have : (n : ℝ) ≤ -1 := by exact_mod_cast not_lt.1 hc
        have := mul_le_mul_of_nonneg_left this (show 0 ≤ 2 * Real.pi by linarith)
        linarith
      have : n = 0 := by omega
      rw [this] at hn; simpa using hn
    rcases honly k ⟨h, r'', hh, hap⟩ hok with rfl | rfl
    · rw [hf] at hh; cases hh
      have hpr := A.scene.proper f (List.mem_of_getElem? hf)
      have : r = r'' := (A.coincide hf hf ha hap (A.dir (List.mem_of_getElem? hf) ha hθ) (by
        have hr : r = r'' := Radial.apex_unique (fun e => A.ne (by rw [e])) (by
          have hd := proper_distinct hpr
          exact ⟨fun e => hd.1 (by simp only [tri]; rw [e]), fun e => hd.2.1 (by simp only [tri]; rw [e]), fun e => hd.2.2 (by simp only [tri]; rw [e])⟩) ha hap
        rw [← hr]; exact A.dir (List.mem_of_getElem? hf) ha hθ)).2
      subst this
      have := big θ b1 hθ.2.1 (dir_same (A.dir (List.mem_of_getElem? hf) ha hθ) hτ)
      linarith
    · rw [hg] at hh; cases hh
      have hpr := A.scene.proper g (List.mem_of_getElem? hg)
      have hr : r' = r'' := Radial.apex_unique (fun e => A.ne (by rw [e])) (by
          have hd := proper_distinct hpr
          exact ⟨fun e => hd.1 (by simp only [tri]; rw [e]), fun e => hd.2.1 (by simp only [tri]; rw [e]), fun e => hd.2.2 (by simp only [tri]; rw [e])⟩) ha' hap
      subst hr
      have := big θ' hθ'.1 b2 (dir_same (A.dir (List.mem_of_getElem? hg) ha' hθ') hτ)
      linarith
  have s1 : 0 < k1 * Real.sin (θ + δ - θ) := mul_pos hk1 (Real.sin_pos_of_pos_of_lt_pi (by linarith) (by linarith))
  have s2 : k2 * Real.sin (θ' - δ - θ') < 0 := mul_neg_of_pos_of_neg hk2 (Real.sin_neg_of_neg_of_neg_pi_lt (by linarith) (by linarith))
  rw [← ho] at hc2
  rcases hs with ⟨h1, h2⟩ | ⟨h1, h2⟩
  · rw [Radial.normal_same (pts := pts) h1, d1] at hc1
    rw [Radial.normal_same (pts := pts) h2, d2] at hc2
    have := hc1.1 s1
    rw [same, hc2.2 s2] at this
    cases this
  · rw [Radial.normal_same (pts := pts) h1, Radial.normal_swap, Radial.dirDot_neg, d1] at hc1
    rw [Radial.normal_same (pts := pts) h2, Radial.normal_swap, Radial.dirDot_neg, d2] at hc2
    have := hc1.2 (by linarith)
    rw [same, hc2.1 (by linarith)] at this
    cases this

theorem Around.not_parallel {p q : Nat} {u : P3} {e : ℚ} {as : Bool → List P3} (A : Around K fs pts owner χ p q u e as) (hmK : K (mid (pts p) (pts q))) {i j : Nat} {f g : Tri Nat} {r r' : Nat} (hf : fs[i]? = some f)
    (hg : fs[j]? = some g) (hij : i ≠ j) (ho : owner i = owner j) (honly : ∀ k, HasEdge fs p q k → owner k = owner i → k = i ∨ k = j)
    (hs : (SameFace ⟨p, q, r⟩ f ∧ SameFace ⟨p, q, r'⟩ g) ∨ (SameFace ⟨q, p, r⟩ f ∧ SameFace ⟨q, p, r'⟩ g)) : False := by
  have ha : Apex p q f r := by rcases hs with ⟨h, -⟩ | ⟨h, -⟩; exacts [Or.inl h, Or.inr h]
  have ha' : Apex p q g r' := by rcases hs with ⟨-, h⟩ | ⟨-, h⟩; exacts [Or.inl h, Or.inr h]
  obtain ⟨θ, hθ⟩ := A.angle (List.mem_of_getElem? hf) ha
  obtain ⟨θ', hθ'⟩ := A.angle (List.mem_of_getElem? hg) ha'
  rcases lt_trichotomy θ θ' with h | h | h
  · exact A.not_parallel_lt hmK hf hg ho honly hθ hθ' h hs
  · rw [← h] at hθ'
    exact hij (A.scene.once i j f g hf hg ho (A.coincide hf hg ha ha' (A.dir (List.mem_of_getElem? hf) ha hθ) (A.dir (List.mem_of_getElem? hg) ha' hθ')).1)
  · refine A.not_parallel_lt hmK hg hf ho.symm ?_ hθ' hθ h ?_
    · intro k hk hok
      exact (honly k hk (by rw [hok, ho])).symm
    · rcases hs with ⟨h1, h2⟩ | ⟨h1, h2⟩
      · exact Or.inl ⟨h2, h1⟩
      · exact Or.inr ⟨h2, h1⟩

theorem Scene.edge_around (S : Scene K fs pts owner χ) {p q : Nat} (h : ∃ f ∈ fs, ∃ r, Apex p q f r) : ∃ u e as, Around K fs pts owner χ p q u e as := by
  obtain ⟨u, h1, h2⟩ := exists_normal (sub (pts q) (pts p))
  obtain ⟨e, as, A⟩ := S.around h h2 h1
  exact ⟨u, e, as, A⟩

/-- The face `f` traverses the edge from `p` to `q` (`b`), or in the other direction. -/
def Ccw (p q : Nat) (b : Bool) (f : Tri Nat) : Prop := ∃ r, SameFace (if b then ⟨p, q, r⟩ else ⟨q, p, r⟩) f

/-- `f` and `g` coincide, with opposite orientations if `s`. -/
def Rel (s : Bool) (f g : Tri Nat) : Prop := SameFace (if s then f.flip else f) g

def tagOf (s : Bool) : Tag := if s then .opposite else .coplanar

theorem ccw_of_apex {p q r : Nat} {f : Tri Nat} (h : Apex p q f r) : ∃ b, Ccw p q b f := by
  rcases h with h | h
  · exact ⟨true, r, h⟩
  · exact ⟨false, r, h⟩

theorem apex_of_ccw {p q : Nat} {b : Bool} {f : Tri Nat} (h : Ccw p q b f) : ∃ r, Apex p q f r := by
  obtain ⟨r, h⟩ := h
  cases b
  · exact ⟨r, Or.inr h⟩
  · exact ⟨r, Or.inl h⟩

theorem ccw_rel {p q : Nat} {b s : Bool} {f g : Tri Nat} (h : Ccw p q b f) (hr : Rel s f g) : Ccw p q (b ^^ s) g := by
  obtain ⟨r, h⟩ := h
  refine ⟨r, ?_⟩
  cases s
  · simpa using Radial.SameFace.trans h hr
  · have h' := Radial.SameFace.trans (Radial.SameFace.flip h) (show SameFace f.flip g from hr)
    cases b
    · exact Radial.SameFace.trans (Or.inr (Or.inl rfl)) h'
    · exact Radial.SameFace.trans (Or.inr (Or.inl rfl)) h'

theorem ccw_unique {p q : Nat} {b b' : Bool} {f : Tri Nat} (hpq : p ≠ q) (hf : f.a ≠ f.b ∧ f.b ≠ f.c ∧ f.a ≠ f.c) (h : Ccw p q b f) (h' : Ccw p q b' f) : b = b' := by
  obtain ⟨a, x, y⟩ := f
  obtain ⟨r, h⟩ := h
  obtain ⟨r', h'⟩ := h'
  simp only at hf
  cases b <;> cases b' <;> first | rfl | skip
  all_goals
    simp only [SameFace, Tri.rot, Tri.mk.injEq, if_true, Bool.false_eq_true, if_false] at h h'
    rcases h with ⟨h1, h2, h3⟩ | ⟨h1, h2, h3⟩ | ⟨h1, h2, h3⟩ <;> rcases h' with ⟨k1, k2, k3⟩ | ⟨k1, k2, k3⟩ | ⟨k1, k2, k3⟩ <;> exfalso <;> omega

theorem rel_symm {s : Bool} {f g : Tri Nat} (h : Rel s f g) : Rel s g f := by
  cases s
  · exact Radial.SameFace.symm h
  · have := Radial.SameFace.flip (Radial.SameFace.symm (show SameFace f.flip g from h))
    exact this

theorem match_of_rel {s : Bool} {f g : Tri Nat} (h : Rel s f g) : Match (tri pts f) (tri pts g) := by
  cases s
  · exact Or.inl (sameTri_of_face h)
  · exact Or.inr (by rw [tri_flip]; exact sameTri_of_face h)

theorem Scene.rel_of_match (S : Scene K fs pts owner χ) {f g : Tri Nat} (hf : f ∈ fs) (hg : g ∈ fs) (h : Match (tri pts f) (tri pts g)) : ∃ s, Rel s f g := by
  rcases h with h | h
  · exact ⟨false, S.sameFace hf hg h⟩
  · exact ⟨true, S.sameFace_flip hf hg h⟩

theorem Scene.right_tagOf (S : Scene K fs pts owner χ) {i : Nat} {f : Tri Nat} (hf : fs[i]? = some f) {s : Bool} :
    Right fs pts owner χ i f (tagOf s) ↔ ∃ (j : Nat) (g : Tri Nat), fs[j]? = some g ∧ owner j ≠ owner i ∧ Rel s f g := by
  cases s
  · constructor
    · rintro ⟨j, g, h1, h2, h3⟩
      exact ⟨j, g, h1, h2, S.sameFace (List.mem_of_getElem? hf) (List.mem_of_getElem? h1) h3⟩
    · rintro ⟨j, g, h1, h2, h3⟩
      exact ⟨j, g, h1, h2, sameTri_of_face h3⟩
  · constructor
    · rintro ⟨j, g, h1, h2, h3⟩
      exact ⟨j, g, h1, h2, S.sameFace_flip (List.mem_of_getElem? hf) (List.mem_of_getElem? h1) h3⟩
    · rintro ⟨j, g, h1, h2, h3⟩
      exact ⟨j, g, h1, h2, by rw [tri_flip]; exact sameTri_of_face h3⟩

theorem Scene.distinct (S : Scene K fs pts owner χ) {f : Tri Nat} (hf : f ∈ fs) : f.a ≠ f.b ∧ f.b ≠ f.c ∧ f.a ≠ f.c := by
  have hd := proper_distinct (S.proper f hf)
  exact ⟨fun e => hd.1 (by simp only [tri]; rw [e]), fun e => hd.2.1 (by simp only [tri]; rw [e]), fun e => hd.2.2 (by simp only [tri]; rw [e])⟩

theorem tag_cases {t : Tag} : t = .unknown ∨ t = .interior ∨ t = .exterior ∨ ∃ s, t = tagOf s := by
  cases t
  · simp
  · simp
  · simp
  · exact Or.inr (Or.inr (Or.inr ⟨false, rfl⟩))
  · exact Or.inr (Or.inr (Or.inr ⟨true, rfl⟩))

theorem Around.not_parallel' {p q : Nat} {u : P3} {e : ℚ} {as : Bool → List P3} (A : Around K fs pts owner χ p q u e as) (hmK : K (mid (pts p) (pts q))) {i j : Nat} {f g : Tri Nat} {b b' : Bool} (hf : fs[i]? = some f)
    (hg : fs[j]? = some g) (hij : i ≠ j) (ho : owner i = owner j) (honly : ∀ k, HasEdge fs p q k → owner k = owner i → k = i ∨ k = j) (hb : Ccw p q b f) (hb' : Ccw p q b' g) : b ≠ b' := by
  rintro rfl
  obtain ⟨r, h⟩ := hb
  obtain ⟨r', h'⟩ := hb'
  refine A.not_parallel hmK hf hg hij ho honly (r := r) (r' := r') ?_
  cases b
  · exact Or.inr ⟨h, h'⟩
  · exact Or.inl ⟨h, h'⟩

/-- Inside of an area where the operands coincide, faces of one operand that share an edge have the same tag. -/
theorem Scene.tag_step_same (S : Scene K fs pts owner χ) {border : List (Nat × Nat)} (hS : Seams fs owner border) {p q : Nat} (hmK : K (mid (pts p) (pts q))) (hnb : ¬ IsBorder border p q)
    (hmix : ∃ k k', HasEdge fs p q k ∧ HasEdge fs p q k' ∧ owner k ≠ owner k') {i j : Nat} {f g : Tri Nat} {r r' : Nat} (hf : fs[i]? = some f) (hg : fs[j]? = some g) (ha : Apex p q f r)
    (ha' : Apex p q g r') (ho : owner i = owner j) {s : Bool} (ht : Right fs pts owner χ i f (tagOf s)) : Right fs pts owner χ j g (tagOf s) := by
  by_cases hij : i = j
  · subst hij
    rw [hf] at hg; cases hg; exact ht
  obtain ⟨u, e, as, A⟩ := S.edge_around ⟨f, List.mem_of_getElem? hf, r, ha⟩
  have hpq : p ≠ q := fun e => A.ne (by rw [e])
  obtain ⟨k, k', hk, hk', hkk⟩ := hmix
  obtain ⟨i', f', hf', hoi, hrel⟩ := (S.right_tagOf hf).1 ht
  obtain ⟨j', hoj, g0, g', hg0, hg', hco⟩ := hS.coincide p q hnb k k' hk hk' hkk j ⟨g, r', hg, ha'⟩
  rw [hg] at hg0; cases hg0
  obtain ⟨s', hrel'⟩ : ∃ s', Rel s' g g' := by
    rcases hco with h | h
    · exact ⟨false, h⟩
    · exact ⟨true, h⟩
  obtain ⟨b, hb⟩ := ccw_of_apex ha
  obtain ⟨b', hb'⟩ := ccw_of_apex ha'
  have hcf := ccw_rel hb hrel
  have hcg := ccw_rel hb' hrel'
  have two := hS.two p q hnb k k' hk hk' hkk
  have edge : ∀ {i : Nat} {f : Tri Nat} {b : Bool}, fs[i]? = some f → Ccw p q b f → HasEdge fs p q i := fun h1 h2 => by
    obtain ⟨r, h⟩ := apex_of_ccw h2
    exact ⟨_, r, h1, h⟩
  have hij' : i' ≠ j' := by
    rintro rfl
    rw [hf'] at hg'; cases hg'
    exact hij (S.once i j f g hf hg ho (match_trans (match_of_rel hrel) (match_symm (match_of_rel hrel'))))
  have hoo : owner i' = owner j' := by rw [← ho] at hoj; exact bool_three hoi hoj
  have h1 := A.not_parallel' hmK hf hg hij ho (fun m hm hom => by
    rcases two m i j hm (edge hf hb) (edge hg hb') hom ho with h | h | h
    · exact Or.inl h
    · exact absurd h hij
    · exact Or.inr h) hb hb'
  have h2 := A.not_parallel' hmK hf' hg' hij' hoo (fun m hm hom => by
    rcases two m i' j' hm (edge hf' hcf) (edge hg' hcg) hom hoo with h | h | h
    · exact Or.inl h
    · exact absurd h hij'
    · exact Or.inr h) hcf hcg
  have : s' = s := by revert h1 h2; cases b <;> cases b' <;> cases s <;> cases s' <;> simp
  subst this
  exact (S.right_tagOf hg).2 ⟨j', g', hg', hoj, hrel'⟩

/-- **Faces that share an edge that is no border have the same tag.** -/
theorem Scene.tag_step (S : Scene K fs pts owner χ) {border : List (Nat × Nat)} (hS : Seams fs owner border) {p q : Nat}
    (hcl : (∃ k k', HasEdge fs p q k ∧ HasEdge fs p q k' ∧ owner k ≠ owner k') → K (mid (pts p) (pts q))) (hnb : ¬ IsBorder border p q) {i j : Nat} {f g : Tri Nat} {r r' : Nat}
    (hf : fs[i]? = some f) (hg : fs[j]? = some g) (ha : Apex p q f r) (ha' : Apex p q g r') {t : Tag} (ht : Right fs pts owner χ i f t) : Right fs pts owner χ j g t := by
  by_cases hmix : ∃ k k', HasEdge fs p q k ∧ HasEdge fs p q k' ∧ owner k ≠ owner k'
  · have hmix' := hmix
    obtain ⟨k, k', hk, hk', hkk⟩ := hmix'
    obtain ⟨i', hoi, f0, f', hf0, hf', hco⟩ := hS.coincide p q hnb k k' hk hk' hkk i ⟨f, r, hf, ha⟩
    rw [hf] at hf0; cases hf0
    obtain ⟨s, hrel⟩ : ∃ s, Rel s f f' := by
      rcases hco with h | h
      · exact ⟨false, h⟩
      · exact ⟨true, h⟩
    have hts := S.right_unique hf ht ((S.right_tagOf hf).2 ⟨i', f', hf', hoi, hrel⟩)
    subst hts
    by_cases ho : owner i = owner j
    · exact S.tag_step_same hS (hcl hmix) hnb hmix hf hg ha ha' ho ht
    · obtain ⟨b, hb⟩ := ccw_of_apex ha
      obtain ⟨r'', ha''⟩ := apex_of_ccw (ccw_rel hb hrel)
      refine S.tag_step_same hS (hcl hmix) hnb hmix hf' hg ha'' ha' (bool_three hoi (Ne.symm ho)) ?_
      exact (S.right_tagOf hf').2 ⟨i, f, hf, Ne.symm hoi, rel_symm hrel⟩
  · have hall : ∀ k, HasEdge fs p q k → owner k = owner i := by
      intro k hk
      by_contra h
      exact hmix ⟨k, i, hk, ⟨f, r, hf, ha⟩, h⟩
    obtain ⟨u, e, as, A⟩ := S.edge_around ⟨f, List.mem_of_getElem? hf, r, ha⟩
    have noMatch : ∀ {k : Nat} {h : Tri Nat} {r : Nat}, fs[k]? = some h → Apex p q h r → ∀ (j : Nat) (g : Tri Nat), fs[j]? = some g → owner j ≠ owner k → ¬ Match (tri pts h) (tri pts g) := by
      intro k h r hk hap j g hg ho hm
      obtain ⟨s, hrel⟩ := S.rel_of_match (List.mem_of_getElem? hk) (List.mem_of_getElem? hg) hm
      obtain ⟨b, hb⟩ := ccw_of_apex hap
      obtain ⟨r'', ha''⟩ := apex_of_ccw (ccw_rel hb hrel)
      exact ho ((hall j ⟨g, r'', hg, ha''⟩).trans (hall k ⟨h, r, hk, hap⟩).symm)
    have hoj := hall j ⟨g, r', hg, ha'⟩
    obtain ⟨x, y, hx, hy, hxy⟩ := A.same_side (b := !owner i) (fun k hk h => by rw [hall k hk] at h; simp at h) (List.mem_of_getElem? hf) (List.mem_of_getElem? hg) ha ha'
    rcases tag_cases (t := t) with rfl | rfl | rfl | ⟨s, rfl⟩
    · exact ht.elim
    · refine ⟨noMatch hg ha', fun z hz => ?_⟩
      rw [S.inner_const hg (noMatch hg ha') hz hy, hoj]
      exact hxy.1 (ht.2 x hx)
    · refine ⟨noMatch hg ha', fun z hz h => ?_⟩
      rw [S.inner_const hg (noMatch hg ha') hz hy, hoj] at h
      exact ht.2 x hx (hxy.2 h)
    · obtain ⟨j', g', h1, h2, h3⟩ := (S.right_tagOf hf).1 ht
      exact absurd (match_of_rel h3) (noMatch hf ha j' g' h1 h2)
end

end Kigumi.Space

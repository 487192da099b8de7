import Verif.Proofs.FaceFaceCorners
import Verif.Spec.Side

/-! # Affine functions, separation of a segment from a triangle, and small moves -/
namespace Kigumi.Side
open Kigumi Geo Spec.Triangles Spec.Side FaceFace

/-- An affine function. -/
structure Aff where
  n : P3
  k : ℚ

/-- The value. -/
def Aff.eval (f : Aff) (x : P3) : ℚ := dot f.n x + f.k
/-- `f + c g` -/
def Aff.addMul (f : Aff) (c : ℚ) (g : Aff) : Aff := ⟨⟨f.n.x + c * g.n.x, f.n.y + c * g.n.y, f.n.z + c * g.n.z⟩, f.k + c * g.k⟩

theorem eval_addMul (f : Aff) (c : ℚ) (g : Aff) (x : P3) : (f.addMul c g).eval x = f.eval x + c * g.eval x := by
  simp only [Aff.eval, Aff.addMul, dot]; ring

theorem eval_seg (f : Aff) {s t : ℚ} (h : s + t = 1) (a b : P3) : f.eval (seg s t a b) = s * f.eval a + t * f.eval b := by
  have : t = 1 - s := by linarith
  subst this
  simp only [Aff.eval, seg, dot]; ring

/-- Not negative where all of the list are not negative. -/
def Follows (l : List Aff) (g : Aff) : Prop := ∀ x, (∀ f ∈ l, 0 ≤ f.eval x) → 0 ≤ g.eval x

theorem onSegment_iff {a b x : P3} : OnSegment a b x ↔ ∃ s t : ℚ, s + t = 1 ∧ 0 ≤ s ∧ 0 ≤ t ∧ x = seg s t a b := Iff.rfl

theorem onSegment_swap {a b x : P3} (h : OnSegment a b x) : OnSegment b a x := by
  obtain ⟨s, t, h1, h2, h3, rfl⟩ := h
  exact ⟨t, s, by linarith, h3, h2, p3_ext (by simp only []; ring) (by simp only []; ring) (by simp only []; ring)⟩

/-- A part of a segment. -/
theorem onSegment_part {a b r x : P3} (hr : OnSegment a b r) (hx : OnSegment a r x) : OnSegment a b x := by
  obtain ⟨s, t, h1, h2, h3, rfl⟩ := hr
  obtain ⟨u, v, h4, h5, h6, rfl⟩ := hx
  refine ⟨u + v * s, v * t, by linear_combination h4 + v * h1, by positivity, by positivity, ?_⟩
  apply p3_ext <;> simp only [] <;> ring

theorem separate_step (f : Aff) (l : List Aff) (ih : ∀ p q : P3, (∃ x, OnSegment p q x ∧ ∀ g ∈ l, 0 ≤ g.eval x) ∨ ∃ g, Follows l g ∧ g.eval p < 0 ∧ g.eval q < 0)
    {p q : P3} (hp : 0 ≤ f.eval p) (hq : f.eval q < 0) :
    (∃ x, OnSegment p q x ∧ ∀ g ∈ f :: l, 0 ≤ g.eval x) ∨ ∃ g, Follows (f :: l) g ∧ g.eval p < 0 ∧ g.eval q < 0 := by
  generalize hA : f.eval p = A at hp
  generalize hB : f.eval q = B at hq
  have hAB : 0 < A - B := by linarith
  have hst : (-B / (A - B)) + A / (A - B) = 1 := by rw [← add_div]; rw [div_eq_one_iff_eq hAB.ne']; ring
  generalize hs : -B / (A - B) = s at hst
  generalize ht : A / (A - B) = t at hst
  have s0 : 0 < s := by rw [← hs]; exact div_pos (by linarith) hAB
  have t0 : 0 ≤ t := by rw [← ht]; exact div_nonneg hp hAB.le
  have froot : f.eval (seg s t p q) = 0 := by rw [eval_seg f hst, hA, hB, ← hs, ← ht]; field_simp; ring
  have hr : OnSegment p q (seg s t p q) := ⟨s, t, hst, s0.le, t0, rfl⟩
  rcases ih p (seg s t p q) with ⟨x, hx, hl⟩ | ⟨g, hg, gp, gr⟩
  · left
    refine ⟨x, onSegment_part hr hx, ?_⟩
    intro g hg
    rcases List.mem_cons.1 hg with rfl | hg
    · obtain ⟨u, v, h4, h5, h6, rfl⟩ := hx
      have := eval_seg g h4 p (seg s t p q)
      rw [froot, hA] at this
      show 0 ≤ g.eval (seg u v p (seg s t p q))
      rw [this]; positivity
    · exact hl g hg
  · right
    rw [eval_seg g hst] at gr
    by_cases hgq : g.eval q < 0
    · exact ⟨g, fun x hx => hg x (fun f hf => hx f (List.mem_cons_of_mem _ hf)), gp, hgq⟩
    · push Not at hgq
      -- add a multiple of `f` that makes the sum constant on the line
      generalize hr' : s * g.eval p + t * g.eval q = R at gr
      have hc : 0 ≤ (g.eval q - R) / (-B) := div_nonneg (by linarith) (by linarith)
      generalize hc' : (g.eval q - R) / (-B) = c at hc
      have hcB : c * B = R - g.eval q := by rw [← hc']; have := hq.ne; field_simp; ring
      refine ⟨g.addMul c f, ?_, ?_, ?_⟩
      · intro x hx
        rw [eval_addMul]
        have h1 := hg x (fun f hf => hx f (List.mem_cons_of_mem _ hf))
        have h2 := hx f (List.mem_cons_self)
        have := mul_nonneg hc h2
        linarith
      · rw [eval_addMul, hA]
        -- `s` times the value is `s R`
        have e : s * (g.eval p + c * A) = s * R := by
          have h1 : s * A = - (t * B) := by
            have := froot; rw [eval_seg f hst, hA, hB] at this; linarith
          have h2 : t = 1 - s := by linarith
          calc s * (g.eval p + c * A) = s * g.eval p + c * (s * A) := by ring
            _ = s * g.eval p - t * (c * B) := by rw [h1]; ring
            _ = s * g.eval p + t * g.eval q - t * R := by rw [hcB]; ring
            _ = s * R := by rw [hr', h2]; ring
        have := mul_left_cancel₀ s0.ne' e
        linarith
      · rw [eval_addMul, hB, hcB]; linarith

theorem eval_swap {l : List Aff} {p q : P3} (h : (∃ x, OnSegment q p x ∧ ∀ g ∈ l, 0 ≤ g.eval x) ∨ ∃ g, Follows l g ∧ g.eval q < 0 ∧ g.eval p < 0) :
    (∃ x, OnSegment p q x ∧ ∀ g ∈ l, 0 ≤ g.eval x) ∨ ∃ g, Follows l g ∧ g.eval p < 0 ∧ g.eval q < 0 := by
  rcases h with ⟨x, hx, h⟩ | ⟨g, hg, h1, h2⟩
  · exact Or.inl ⟨x, onSegment_swap hx, h⟩
  · exact Or.inr ⟨g, hg, h2, h1⟩

/-- **A segment meets the set where finitely many affine functions are not negative, or one of their consequences is negative on the segment.** -/
theorem separate (l : List Aff) : ∀ p q : P3, (∃ x, OnSegment p q x ∧ ∀ g ∈ l, 0 ≤ g.eval x) ∨ ∃ g, Follows l g ∧ g.eval p < 0 ∧ g.eval q < 0 := by
  induction l with
  | nil => intro p q; exact Or.inl ⟨p, ⟨1, 0, by ring, by norm_num, le_refl _, p3_ext (by simp) (by simp) (by simp)⟩, by simp⟩
  | cons f l ih =>
    intro p q
    by_cases hp : 0 ≤ f.eval p
    · by_cases hq : 0 ≤ f.eval q
      · rcases ih p q with ⟨x, hx, h⟩ | ⟨g, hg, h1, h2⟩
        · left
          refine ⟨x, hx, fun g hg => ?_⟩
          rcases List.mem_cons.1 hg with rfl | hg
          · obtain ⟨u, v, h4, h5, h6, rfl⟩ := hx
            have := eval_seg g h4 p q
            show 0 ≤ g.eval (seg u v p q)
            rw [this]; positivity
          · exact h g hg
        · exact Or.inr ⟨g, fun x hx => hg x (fun f hf => hx f (List.mem_cons_of_mem _ hf)), h1, h2⟩
      · exact separate_step f l ih hp (not_le.1 hq)
    · by_cases hq : 0 ≤ f.eval q
      · exact eval_swap (separate_step f l ih hq (not_le.1 hp))
      · exact Or.inr ⟨f, fun x hx => hx f List.mem_cons_self, not_le.1 hp, not_le.1 hq⟩

/-! ## The functions of a triangle -/

/-- The plane. -/
def plane (t : Tri P3) : Aff := ⟨normal t.a t.b t.c, - dot (normal t.a t.b t.c) t.a⟩
/-- Weights, multiplied by a positive number. -/
def weightB (t : Tri P3) : Aff := ⟨cross (sub t.c t.a) (normal t.a t.b t.c), - dot (cross (sub t.c t.a) (normal t.a t.b t.c)) t.a⟩
def weightC (t : Tri P3) : Aff := ⟨cross (normal t.a t.b t.c) (sub t.b t.a), - dot (cross (normal t.a t.b t.c) (sub t.b t.a)) t.a⟩
def weightA (t : Tri P3) : Aff := ((⟨⟨0, 0, 0⟩, dot (normal t.a t.b t.c) (normal t.a t.b t.c)⟩ : Aff).addMul (-1) (weightB t)).addMul (-1) (weightC t)
def Aff.neg (f : Aff) : Aff := ⟨⟨- f.n.x, - f.n.y, - f.n.z⟩, - f.k⟩

def sides (t : Tri P3) : List Aff := [plane t, (plane t).neg, weightA t, weightB t, weightC t]

theorem eval_neg (f : Aff) (x : P3) : f.neg.eval x = - f.eval x := by simp only [Aff.neg, Aff.eval, dot]; ring
theorem eval_plane (t : Tri P3) (x : P3) : (plane t).eval x = det4 t.a t.b t.c x := by simp only [plane, Aff.eval, det4, normal, dot, cross, sub]; ring
theorem eval_plane' (t : Tri P3) (x : P3) : (plane t).eval x = - det4 x t.a t.b t.c := by simp only [plane, Aff.eval, det4, normal, dot, cross, sub]; ring
theorem eval_weightB (t : Tri P3) (x : P3) : (weightB t).eval x = dot (cross (sub x t.a) (sub t.c t.a)) (normal t.a t.b t.c) := by
  generalize hn : normal t.a t.b t.c = n
  simp only [weightB, Aff.eval, hn, dot, cross, sub]; ring
theorem eval_weightC (t : Tri P3) (x : P3) : (weightC t).eval x = dot (cross (sub t.b t.a) (sub x t.a)) (normal t.a t.b t.c) := by
  generalize hn : normal t.a t.b t.c = n
  simp only [weightC, Aff.eval, hn, dot, cross, sub]; ring
theorem eval_weightA (t : Tri P3) (x : P3) : (weightA t).eval x = dot (normal t.a t.b t.c) (normal t.a t.b t.c) - (weightB t).eval x - (weightC t).eval x := by
  unfold weightA; rw [eval_addMul, eval_addMul]
  simp only [Aff.eval, dot]; ring

/-- Twice the area is not zero. -/
def Ok (t : Tri P3) : Prop := dot (normal t.a t.b t.c) (normal t.a t.b t.c) ≠ 0

theorem outward_eq (t : Tri P3) : outward t = normal t.a t.b t.c := rfl

theorem ok_of_proper {t : Tri P3} (h : Proper t) : Ok t := by
  intro h0
  obtain ⟨x, y, z⟩ := dot_self_zero h0
  apply h; rw [outward_eq]; exact p3_ext x y z

theorem in_iff {t : Tri P3} (h : Ok t) (x : P3) : In t x ↔ ∀ f ∈ sides t, 0 ≤ f.eval x := by
  unfold In
  have hN := dot_self_pos h
  rw [inTriangle_iff h]
  have eB : (wt t.a t.b t.c x).y = (weightB t).eval x / dot (normal t.a t.b t.c) (normal t.a t.b t.c) := by rw [eval_weightB]; rfl
  have eC : (wt t.a t.b t.c x).z = (weightC t).eval x / dot (normal t.a t.b t.c) (normal t.a t.b t.c) := by rw [eval_weightC]; rfl
  have eA : (wt t.a t.b t.c x).x = (weightA t).eval x / dot (normal t.a t.b t.c) (normal t.a t.b t.c) := by
    rw [eval_weightA, sub_div, sub_div, div_self h, ← eB, ← eC]; rfl
  have eP := eval_plane' t x
  have div0 : ∀ u : ℚ, 0 ≤ u / dot (normal t.a t.b t.c) (normal t.a t.b t.c) ↔ 0 ≤ u := fun u => by
    constructor
    · intro h'
      have := mul_nonneg h' hN.le
      rwa [div_mul_cancel₀ _ h] at this
    · intro h'; exact div_nonneg h' hN.le
  rw [eA, eB, eC, div0, div0, div0]
  unfold sides
  simp only [List.forall_mem_cons, eval_neg, eP]
  constructor
  · rintro ⟨h0, h1, h2, h3⟩
    refine ⟨by linarith, by linarith, h1, h2, h3, by simp⟩
  · rintro ⟨h0, h0', h1, h2, h3, _⟩
    exact ⟨by linarith, h1, h2, h3⟩

/-! ## Small moves -/

theorem near_refl {e : ℚ} (h : 0 ≤ e) (x : P3) : Near e x x := by unfold Near; simp [h]
theorem near_mono {e e' : ℚ} (h : e ≤ e') {x y : P3} (hn : Near e x y) : Near e' x y := by
  obtain ⟨h1, h2, h3, h4, h5, h6⟩ := hn
  exact ⟨by linarith, by linarith, by linarith, by linarith, by linarith, by linarith⟩

/-- A positive value stays positive close by. -/
theorem eval_near (f : Aff) {x : P3} (h : 0 < f.eval x) : ∃ e > 0, ∀ y, Near e y x → 0 < f.eval y := by
  generalize hM : |f.n.x| + |f.n.y| + |f.n.z| + 1 = M
  have hx := abs_nonneg f.n.x; have hy := abs_nonneg f.n.y; have hz := abs_nonneg f.n.z
  have hM1 : 0 < M := by linarith
  refine ⟨f.eval x / (2 * M), div_pos h (by linarith), fun y hy => ?_⟩
  obtain ⟨a1, a2, b1, b2, c1, c2⟩ := hy
  generalize he : f.eval x / (2 * M) = e at *
  have he0 : 0 < e := by rw [← he]; exact div_pos h (by linarith)
  have eM : e * M = f.eval x / 2 := by rw [← he]; field_simp
  have k : ∀ u v : ℚ, -e ≤ v → v ≤ e → - (|u| * e) ≤ u * v := by
    intro u v h1 h2
    have : |u * v| ≤ |u| * e := by rw [abs_mul]; exact mul_le_mul_of_nonneg_left (abs_le.2 ⟨h1, h2⟩) (abs_nonneg _)
    exact (abs_le.1 this).1
  have k1 := k f.n.x _ a1 a2; have k2 := k f.n.y _ b1 b2; have k3 := k f.n.z _ c1 c2
  have : f.eval y = f.eval x + f.n.x * (y.x - x.x) + f.n.y * (y.y - x.y) + f.n.z * (y.z - x.z) := by simp only [Aff.eval, dot]; ring
  have hs : (|f.n.x| + |f.n.y| + |f.n.z| + 1) * e = f.eval x / 2 := by rw [hM]; linarith
  rw [this]
  nlinarith

theorem eval_near_ne (f : Aff) {x : P3} (h : f.eval x ≠ 0) : ∃ e > 0, ∀ y, Near e y x → f.eval y ≠ 0 := by
  rcases lt_or_gt_of_ne h with h | h
  · obtain ⟨e, he, hy⟩ := eval_near f.neg (x := x) (by rw [eval_neg]; linarith)
    refine ⟨e, he, fun y hn h0 => ?_⟩
    have := hy y hn
    rw [eval_neg, h0] at this; simp at this
  · obtain ⟨e, he, hy⟩ := eval_near f h
    exact ⟨e, he, fun y hn => (hy y hn).ne'⟩

/-- **A segment that misses a triangle can be moved a little.** -/
theorem miss_near {t : Tri P3} (ht : Ok t) {p q : P3} (h : ∀ x, OnSegment p q x → ¬ In t x) :
    ∃ e > 0, ∀ p' q', Near e p' p → Near e q' q → ∀ x, OnSegment p' q' x → ¬ In t x := by
  rcases separate (sides t) p q with ⟨x, hx, hs⟩ | ⟨g, hg, gp, gq⟩
  · exact absurd ((in_iff ht x).2 hs) (h x hx)
  · obtain ⟨e1, h1, k1⟩ := eval_near g.neg (x := p) (by rw [eval_neg]; linarith)
    obtain ⟨e2, h2, k2⟩ := eval_near g.neg (x := q) (by rw [eval_neg]; linarith)
    refine ⟨min e1 e2, lt_min h1 h2, fun p' q' n1 n2 x hx hin => ?_⟩
    have a1 := k1 p' (near_mono (min_le_left _ _) n1)
    have a2 := k2 q' (near_mono (min_le_right _ _) n2)
    rw [eval_neg] at a1 a2
    have := hg x ((in_iff ht x).1 hin)
    obtain ⟨u, v, h4, h5, h6, rfl⟩ := hx
    have e := eval_seg g h4 p' q'
    have : 0 ≤ g.eval (seg u v p' q') := this
    rw [e] at this
    rcases lt_or_eq_of_le h5 with h5 | h5
    · nlinarith
    · rw [← h5] at this h4
      have : v = 1 := by linarith
      subst this; linarith

end Kigumi.Side

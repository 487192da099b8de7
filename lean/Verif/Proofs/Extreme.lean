import Verif.Proofs.Solid

/-! # Extreme points and faces of convex sets given by inequalities -/
namespace Kigumi.Cutting
open Kigumi Geo Spec.Triangles Spec.Side FaceFace Space
open Kigumi.Side (Aff plane Ok eval_seg in_iff sides weightA weightB weightC eval_weightA eval_weightB eval_weightC eval_plane eval_neg ok_of_proper onSegment_self left_end right_end onSegment_swap in_a in_b in_c plane_in)

/-- `x` is strictly between `y` and `z`. -/
def Btw (x y z : P3) : Prop := ∃ s t : ℚ, s + t = 1 ∧ 0 < s ∧ 0 < t ∧ x = seg s t y z

theorem btw_symm {x y z : P3} (h : Btw x y z) : Btw x z y := by
  obtain ⟨s, t, h1, h2, h3, rfl⟩ := h
  exact ⟨t, s, by linarith, h3, h2, by apply p3_ext <;> simp only [seg] <;> ring⟩

theorem btw_segment {x y z : P3} (h : Btw x y z) : OnSegment y z x := by
  obtain ⟨s, t, h1, h2, h3, rfl⟩ := h
  exact ⟨s, t, h1, h2.le, h3.le, rfl⟩

theorem btw_of_segment {x y z : P3} (h : OnSegment y z x) (h1 : x ≠ y) (h2 : x ≠ z) : Btw x y z := by
  obtain ⟨s, t, hs, s0, t0, e⟩ := h
  refine ⟨s, t, hs, lt_of_le_of_ne s0 ?_, lt_of_le_of_ne t0 ?_, e⟩
  · rintro rfl
    apply h2; rw [e]; have : t = 1 := by linarith
    subst this; apply p3_ext <;> simp
  · rintro rfl
    apply h1; rw [e]; have : s = 1 := by linarith
    subst this; apply p3_ext <;> simp

/-- Extreme points. -/
def Ext (S : P3 → Prop) (x : P3) : Prop := S x ∧ ∀ y z, S y → S z → Btw x y z → y = x

/-- `F` is an extreme subset of `S`. -/
def FaceOf (F S : P3 → Prop) : Prop := (∀ x, F x → S x) ∧ ∀ x y z, F x → S y → S z → Btw x y z → F y

theorem ext_sub {S F : P3 → Prop} {x : P3} (h : Ext S x) (hF : F x) (hs : ∀ y, F y → S y) : Ext F x := ⟨hF, fun y z hy hz hb => h.2 y z (hs y hy) (hs z hz) hb⟩

theorem ext_face {S F : P3 → Prop} {x : P3} (h : FaceOf F S) (hx : Ext F x) : Ext S x :=
  ⟨h.1 x hx.1, fun y z hy hz hb => hx.2 y z (h.2 x y z hx.1 hy hz hb) (h.2 x z y hx.1 hz hy (btw_symm hb)) hb⟩

theorem face_inter {S F : P3 → Prop} (h : FaceOf F S) (T : P3 → Prop) : FaceOf (fun x => T x ∧ F x) (fun x => T x ∧ S x) :=
  ⟨fun x hx => ⟨hx.1, h.1 x hx.2⟩, fun x y z hx hy hz hb => ⟨hy.1, h.2 x y z hx.2 hy.2 hz.2 hb⟩⟩

theorem face_inter' {S F : P3 → Prop} (h : FaceOf F S) (T : P3 → Prop) : FaceOf (fun x => F x ∧ T x) (fun x => S x ∧ T x) :=
  ⟨fun x hx => ⟨h.1 x hx.1, hx.2⟩, fun x y z hx hy hz hb => ⟨h.2 x y z hx.1 hy.1 hz.1 hb, hy.2⟩⟩

theorem face_ext {S F : P3 → Prop} (h : FaceOf F S) {x : P3} (hx : Ext S x) (hF : F x) : Ext F x := ext_sub hx hF h.1

/-! ## Sets given by inequalities -/

/-- All inequalities hold. -/
def Poly (l : List Aff) (x : P3) : Prop := ∀ f ∈ l, 0 ≤ f.eval x

/-- In every direction some quantity decreases. -/
def Bdd (l : List Aff) : Prop := ∀ d : P3, d ≠ ⟨0, 0, 0⟩ → ∃ f ∈ l, dot f.n d < 0

theorem eval_shift (f : Aff) (x d : P3) (k : ℚ) : f.eval (shift x k d) = f.eval x + k * dot f.n d := by simp only [Aff.eval, shift, dot]; ring

theorem exit_aux (x d : P3) : ∀ l : List Aff, Poly l x → (∀ k, 0 ≤ k → Poly l (shift x k d)) ∨ ∃ k, 0 ≤ k ∧ (∀ j, 0 ≤ j → j ≤ k → Poly l (shift x j d)) ∧ ∃ f ∈ l, f.eval (shift x k d) = 0 ∧ dot f.n d < 0 := by
  intro l
  induction l with
  | nil => intro _; left; intro k _ f hf; simp at hf
  | cons g l ih =>
    intro hx
    have hg := hx g (by simp)
    have hl := ih (fun f hf => hx f (by simp [hf]))
    by_cases hs : dot g.n d < 0
    · have hk : 0 ≤ g.eval x / (- dot g.n d) := div_nonneg hg (by linarith)
      have hz : g.eval (shift x (g.eval x / (- dot g.n d)) d) = 0 := by
        rw [eval_shift, div_mul_eq_mul_div, div_neg, mul_div_assoc, div_self hs.ne]; ring
      have before : ∀ j, j ≤ g.eval x / (- dot g.n d) → 0 ≤ g.eval (shift x j d) := by
        intro j hj
        rw [eval_shift] at hz ⊢
        nlinarith
      rcases hl with hl | ⟨k, hk0, hk1, f, hf, hf0, hf1⟩
      · exact Or.inr ⟨_, hk, fun j hj hj' f hf => by
          rcases List.mem_cons.1 hf with rfl | hf
          · exact before j hj'
          · exact hl j hj f hf, g, by simp, hz, hs⟩
      · rcases le_total k (g.eval x / (- dot g.n d)) with hle | hle
        · exact Or.inr ⟨k, hk0, fun j hj hj' f' hf' => by
            rcases List.mem_cons.1 hf' with rfl | hf'
            · exact before j (hj'.trans hle)
            · exact hk1 j hj hj' f' hf', f, by simp [hf], hf0, hf1⟩
        · exact Or.inr ⟨_, hk, fun j hj hj' f' hf' => by
            rcases List.mem_cons.1 hf' with rfl | hf'
            · exact before j hj'
            · exact hk1 j hj (hj'.trans hle) f' hf', g, by simp, hz, hs⟩
    · have after : ∀ j, 0 ≤ j → 0 ≤ g.eval (shift x j d) := by
        intro j hj
        rw [eval_shift]; nlinarith
      rcases hl with hl | ⟨k, hk0, hk1, f, hf, hf0, hf1⟩
      · exact Or.inl fun k hk f hf => by
          rcases List.mem_cons.1 hf with rfl | hf
          · exact after k hk
          · exact hl k hk f hf
      · exact Or.inr ⟨k, hk0, fun j hj hj' f' hf' => by
          rcases List.mem_cons.1 hf' with rfl | hf'
          · exact after j hj
          · exact hk1 j hj hj' f' hf', f, by simp [hf], hf0, hf1⟩

/-- Going in a direction until one of the inequalities becomes an equality. -/
theorem exit {l : List Aff} (hb : Bdd l) {x d : P3} (hx : Poly l x) (hd : d ≠ ⟨0, 0, 0⟩) : ∃ k, 0 ≤ k ∧ Poly l (shift x k d) ∧ ∃ f ∈ l, f.eval (shift x k d) = 0 ∧ dot f.n d < 0 := by
  rcases exit_aux x d l hx with h | ⟨k, h0, h1, h2⟩
  · obtain ⟨f, hf, hneg⟩ := hb d hd
    have := h ((f.eval x + 1) / (- dot f.n d)) (div_nonneg (by linarith [hx f hf]) (by linarith)) f hf
    rw [eval_shift, div_mul_eq_mul_div, div_neg, mul_div_assoc, div_self hneg.ne] at this
    linarith
  · exact ⟨k, h0, h1 k h0 (le_refl _), h2⟩

/-- Points between points that have the property, repeatedly. -/
inductive Hull (E : P3 → Prop) : P3 → Prop
  | base {x : P3} : E x → Hull E x
  | mix {x y z : P3} : Hull E y → Hull E z → OnSegment y z x → Hull E x

theorem hull_mono {E E' : P3 → Prop} (h : ∀ x, E x → E' x) {x : P3} (hx : Hull E x) : Hull E' x := by
  induction hx with
  | base hx => exact .base (h _ hx)
  | mix _ _ hs h1 h2 => exact .mix h1 h2 hs

theorem hull_poly {l : List Aff} {E : P3 → Prop} (h : ∀ x, E x → Poly l x) {x : P3} (hx : Hull E x) : Poly l x := by
  induction hx with
  | base hx => exact h _ hx
  | mix _ _ hs h1 h2 =>
    obtain ⟨s, t, h, s0, t0, rfl⟩ := hs
    intro f hf
    change 0 ≤ f.eval (seg s t _ _)
    rw [eval_seg f h]
    exact add_nonneg (mul_nonneg s0 (h1 f hf)) (mul_nonneg t0 (h2 f hf))

def slack (l : List Aff) (x : P3) : Nat := l.countP (fun f => decide (0 < f.eval x))

theorem slack_lt {l : List Aff} {x y : P3} (h1 : ∀ f ∈ l, 0 < f.eval y → 0 < f.eval x) (h2 : ∃ f ∈ l, 0 < f.eval x ∧ ¬ 0 < f.eval y) : slack l y < slack l x := by
  unfold slack
  induction l with
  | nil => simp at h2
  | cons g l ih =>
    have mono : l.countP (fun f => decide (0 < f.eval y)) ≤ l.countP (fun f => decide (0 < f.eval x)) :=
      List.countP_mono_left fun f hf h => decide_eq_true (h1 f (by simp [hf]) (of_decide_eq_true h))
    simp only [List.countP_cons, decide_eq_true_eq]
    obtain ⟨f, hf, hx, hy⟩ := h2
    rcases List.mem_cons.1 hf with rfl | hf
    · rw [if_neg hy, if_pos hx]; omega
    · have := ih (fun f hf => h1 f (by simp [hf])) ⟨f, hf, hx, hy⟩
      have hg := h1 g (by simp)
      by_cases hy' : 0 < g.eval y
      · rw [if_pos hy', if_pos (hg hy')]; omega
      · rw [if_neg hy']; omega

theorem seg_shift {x y z : P3} {s t : ℚ} (h : s + t = 1) (e : x = seg s t y z) : y = shift x t (sub y z) ∧ z = shift x s (sub z y) := by
  subst e
  have hs : s = 1 - t := by linarith
  subst hs
  constructor <;> apply p3_ext <;> simp only [shift, seg, sub] <;> ring

theorem shift_between {x d : P3} {j k : ℚ} (hj : 0 < j) (hk : 0 ≤ k) : OnSegment (shift x j d) (shift x k ⟨-d.x, -d.y, -d.z⟩) x := by
  have : j + k ≠ 0 := by linarith
  refine ⟨k / (j + k), j / (j + k), by field_simp; ring, div_nonneg hk (by linarith), div_nonneg hj.le (by linarith), ?_⟩
  apply p3_ext <;> simp only [shift] <;> field_simp <;> ring

/-- A bounded set given by inequalities is the hull of its extreme points. -/
theorem hull {l : List Aff} (hb : Bdd l) : ∀ (n : Nat) (x : P3), slack l x = n → Poly l x → Hull (Ext (Poly l)) x := by
  intro n
  induction n using Nat.strong_induction_on with
  | _ n ih =>
    intro x hn hx
    by_cases he : Ext (Poly l) x
    · exact .base he
    have : ∃ y z, Poly l y ∧ Poly l z ∧ Btw x y z ∧ y ≠ x := by
      by_contra hc
      push Not at hc
      exact he ⟨hx, hc⟩
    obtain ⟨y, z, hy, hz, ⟨s, t, hst, hs, ht, e⟩, hne⟩ := this
    have flat : ∀ f ∈ l, f.eval x = 0 → dot f.n (sub y z) = 0 := by
      intro f hf h0
      rw [e, eval_seg f hst] at h0
      have h1 := hy f hf
      have h2 := hz f hf
      have h3 : f.eval y = 0 := by
        have := mul_nonneg hs.le h1
        have := mul_nonneg ht.le h2
        rcases mul_eq_zero.1 (show s * f.eval y = 0 by linarith) with h | h
        · linarith
        · exact h
      have h4 : f.eval z = 0 := by
        rw [h3] at h0
        rcases mul_eq_zero.1 (show t * f.eval z = 0 by linarith) with h | h
        · linarith
        · exact h
      have : dot f.n (sub y z) = f.eval y - f.eval z := by simp only [Aff.eval, dot, sub]; ring
      rw [this, h3, h4, sub_zero]
    have hd : sub y z ≠ ⟨0, 0, 0⟩ := by
      intro h
      apply hne
      rw [e]
      simp only [sub, Spec.P3.mk.injEq] at h
      obtain ⟨h1, h2, h3⟩ := h
      have hs' : s = 1 - t := by linarith
      subst hs'
      apply p3_ext <;> simp only [seg]
      · linear_combination t * h1
      · linear_combination t * h2
      · linear_combination t * h3
    have move : ∀ d : P3, d ≠ ⟨0, 0, 0⟩ → (∀ f ∈ l, f.eval x = 0 → dot f.n d = 0) → ∃ k, 0 < k ∧ Poly l (shift x k d) ∧ slack l (shift x k d) < n := by
      intro d hd hflat
      obtain ⟨k, hk, hP, f, hf, hf0, hf1⟩ := exit hb hx hd
      have hfx : 0 < f.eval x := lt_of_le_of_ne (hx f hf) (fun h => by rw [hflat f hf h.symm] at hf1; exact lt_irrefl _ hf1)
      refine ⟨k, lt_of_le_of_ne hk ?_, hP, ?_⟩
      · rintro rfl
        rw [eval_shift] at hf0; linarith
      · rw [← hn]
        refine slack_lt (fun g hg hpos => ?_) ⟨f, hf, hfx, by rw [hf0]; exact lt_irrefl _⟩
        refine lt_of_le_of_ne (hx g hg) (fun h => ?_)
        rw [eval_shift, hflat g hg h.symm, ← h] at hpos
        simp at hpos
    obtain ⟨j, hj, hjP, hjs⟩ := move (sub y z) hd flat
    have hd' : (⟨-(sub y z).x, -(sub y z).y, -(sub y z).z⟩ : P3) ≠ ⟨0, 0, 0⟩ := by
      intro h
      apply hd
      simp only [Spec.P3.mk.injEq, neg_eq_zero] at h
      exact p3_ext h.1 h.2.1 h.2.2
    obtain ⟨k, hk, hkP, hks⟩ := move _ hd' (fun f hf h0 => by
      have := flat f hf h0
      simp only [dot] at this ⊢; linarith)
    exact .mix (ih _ hjs _ rfl hjP) (ih _ hks _ rfl hkP) (shift_between hj hk.le)

/-- The extreme points of a bounded set that is part of a line. -/
theorem line_ends {l : List Aff} (hb : Bdd l) {x d : P3} (hd : d ≠ ⟨0, 0, 0⟩) (hx : Poly l x) (hline : ∀ y, Poly l y → ∃ k, y = shift x k d) : ∃ m n, Ext (Poly l) m ∧ Ext (Poly l) n ∧ OnSegment m n x := by
  have inj : ∀ {i j : ℚ}, shift x i d = shift x j d → i = j := by
    intro i j h
    by_contra hne
    apply hd
    simp only [shift, Spec.P3.mk.injEq] at h
    obtain ⟨h1, h2, h3⟩ := h
    have hne' : i - j ≠ 0 := sub_ne_zero.2 hne
    apply p3_ext
    · exact (mul_eq_zero.1 (show (i - j) * d.x = 0 by linarith)).resolve_left hne'
    · exact (mul_eq_zero.1 (show (i - j) * d.y = 0 by linarith)).resolve_left hne'
    · exact (mul_eq_zero.1 (show (i - j) * d.z = 0 by linarith)).resolve_left hne'
  have key : ∀ σ : ℚ, σ = 1 ∨ σ = -1 → ∃ k, 0 ≤ k ∧ Ext (Poly l) (shift x (σ * k) d) := by
    intro σ hσ
    have hd' : (⟨σ * d.x, σ * d.y, σ * d.z⟩ : P3) ≠ ⟨0, 0, 0⟩ := by
      intro h
      apply hd
      simp only [Spec.P3.mk.injEq, mul_eq_zero] at h
      have : σ ≠ 0 := by rcases hσ with rfl | rfl <;> norm_num
      exact p3_ext (h.1.resolve_left this) (h.2.1.resolve_left this) (h.2.2.resolve_left this)
    obtain ⟨k, hk, hP, f, hf, hf0, hf1⟩ := exit hb hx hd'
    have e : shift x k ⟨σ * d.x, σ * d.y, σ * d.z⟩ = shift x (σ * k) d := by apply p3_ext <;> simp only [shift] <;> ring
    rw [e] at hP hf0
    have hslope : dot f.n ⟨σ * d.x, σ * d.y, σ * d.z⟩ = σ * dot f.n d := by simp only [dot]; ring
    rw [hslope] at hf1
    refine ⟨k, hk, hP, fun y z hy hz hbt => ?_⟩
    obtain ⟨i, rfl⟩ := hline y hy
    obtain ⟨j, rfl⟩ := hline z hz
    obtain ⟨s, t, hst, hs, ht, e⟩ := hbt
    have e' : seg s t (shift x i d) (shift x j d) = shift x (s * i + t * j) d := by
      have : s = 1 - t := by linarith
      subst this
      apply p3_ext <;> simp only [seg, shift] <;> ring
    have hm := inj (e.trans e')
    have hi := hy f hf
    have hj := hz f hf
    rw [eval_shift] at hi hj hf0
    have h1 : 0 ≤ (i - σ * k) * dot f.n d := by linarith
    have h2 : 0 ≤ (j - σ * k) * dot f.n d := by linarith
    have h3 : s * ((i - σ * k) * dot f.n d) + t * ((j - σ * k) * dot f.n d) = 0 := by
      have : s = 1 - t := by linarith
      subst this
      linear_combination (- dot f.n d) * hm
    have h4 : (i - σ * k) * dot f.n d = 0 := by
      have := mul_nonneg hs.le h1
      have := mul_nonneg ht.le h2
      exact (mul_eq_zero.1 (show s * ((i - σ * k) * dot f.n d) = 0 by linarith)).resolve_left hs.ne'
    have h5 : dot f.n d ≠ 0 := fun h => by rw [h, mul_zero] at hf1; exact lt_irrefl _ hf1
    have : i = σ * k := by have := (mul_eq_zero.1 h4).resolve_right h5; linarith
    rw [this]
  obtain ⟨j, hj, h1⟩ := key 1 (Or.inl rfl)
  obtain ⟨k, hk, h2⟩ := key (-1) (Or.inr rfl)
  refine ⟨_, _, h1, h2, ?_⟩
  rcases hj.eq_or_lt with rfl | hj'
  · have : shift x (1 * 0) d = x := by apply p3_ext <;> simp [shift]
    rw [this]; exact left_end _ _
  · have e1 : shift x (1 * j) d = shift x j d := by rw [one_mul]
    have e2 : shift x (-1 * k) d = shift x k ⟨-d.x, -d.y, -d.z⟩ := by apply p3_ext <;> simp only [shift] <;> ring
    rw [e1, e2]; exact shift_between hj' hk

end Kigumi.Cutting

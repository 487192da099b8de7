import Mathlib.MeasureTheory.Measure.Lebesgue.EqHaar
import Mathlib.Analysis.Convex.Measure
import Mathlib.Topology.Instances.Rat
import Mathlib.Topology.Algebra.Order.Archimedean

/-!
# Areas of triangles that tile a triangle of the plane

Corners are rational, and so are the points for which anything is assumed.
-/
namespace Kigumi.Area
open MeasureTheory

abbrev V := Fin 2 → ℝ

/-- A triangle with rational corners. -/
structure T2 where
  (a b c : Fin 2 → ℚ)

/-- Twice the oriented area. -/
def cross (t : T2) : ℚ := (t.b 0 - t.a 0) * (t.c 1 - t.a 1) - (t.b 1 - t.a 1) * (t.c 0 - t.a 0)

def pt (t : T2) (u v : ℚ) : Fin 2 → ℚ := fun k => t.a k + u * (t.b k - t.a k) + v * (t.c k - t.a k)
def ptR (t : T2) (w : V) : V := fun k => t.a k + w 0 * (t.b k - t.a k) + w 1 * (t.c k - t.a k)

/-- The rational point is in the closed triangle. -/
def InQ (t : T2) (q : Fin 2 → ℚ) : Prop := ∃ u v : ℚ, 0 ≤ u ∧ 0 ≤ v ∧ u + v ≤ 1 ∧ q = pt t u v
/-- It is not on the edges. -/
def InnerQ (t : T2) (q : Fin 2 → ℚ) : Prop := ∃ u v : ℚ, 0 < u ∧ 0 < v ∧ u + v < 1 ∧ q = pt t u v

def So : Set V := {w | 0 < w 0 ∧ 0 < w 1 ∧ w 0 + w 1 < 1}
def Sc : Set V := {w | 0 ≤ w 0 ∧ 0 ≤ w 1 ∧ w 0 + w 1 ≤ 1}
def R (t : T2) : Set V := ptR t '' So
def C (t : T2) : Set V := ptR t '' Sc

noncomputable def bary (t : T2) (q : V) : V := ![((q 0 - t.a 0) * (t.c 1 - t.a 1) - (q 1 - t.a 1) * (t.c 0 - t.a 0)) / (cross t : ℝ), ((t.b 0 - t.a 0) * (q 1 - t.a 1) - (t.b 1 - t.a 1) * (q 0 - t.a 0)) / (cross t : ℝ)]

theorem cross_cast (t : T2) : (cross t : ℝ) = (t.b 0 - t.a 0) * (t.c 1 - t.a 1) - (t.b 1 - t.a 1) * (t.c 0 - t.a 0) := by unfold cross; push_cast; ring

theorem ptR_bary {t : T2} (h : cross t ≠ 0) (q : V) : ptR t (bary t q) = q := by
  have h' : (cross t : ℝ) ≠ 0 := by exact_mod_cast h
  have e := cross_cast t
  funext k
  fin_cases k
  all_goals
    simp only [ptR, bary, Matrix.cons_val_zero, Matrix.cons_val_one, Fin.zero_eta, Fin.mk_one, Fin.isValue]
    field_simp
    rw [e]
    ring

theorem bary_ptR {t : T2} (h : cross t ≠ 0) (w : V) : bary t (ptR t w) = w := by
  have h' : (cross t : ℝ) ≠ 0 := by exact_mod_cast h
  have e := cross_cast t
  funext k
  fin_cases k
  all_goals
    simp only [ptR, bary, Matrix.cons_val_zero, Matrix.cons_val_one, Fin.zero_eta, Fin.mk_one, Fin.isValue]
    rw [div_eq_iff h', e]
    ring

theorem image_eq {t : T2} (h : cross t ≠ 0) (S : Set V) : ptR t '' S = bary t ⁻¹' S := by
  ext q
  constructor
  · rintro ⟨w, hw, rfl⟩
    show bary t (ptR t w) ∈ S
    rw [bary_ptR h]; exact hw
  · intro hq
    exact ⟨_, hq, ptR_bary h q⟩

theorem continuous_bary (t : T2) : Continuous (bary t) := by
  refine continuous_pi fun k => ?_
  fin_cases k
  all_goals
    simp only [bary, Matrix.cons_val_zero, Matrix.cons_val_one, Fin.zero_eta, Fin.mk_one, Fin.isValue]
    fun_prop

theorem isOpen_So : IsOpen So := by
  have h : Continuous fun w : V => w 0 + w 1 := (continuous_apply 0).add (continuous_apply 1)
  have h2 : IsOpen {w : V | w 0 + w 1 < 1} := isOpen_lt h continuous_const
  have h0 : IsOpen {w : V | 0 < w 0} := isOpen_lt continuous_const (continuous_apply 0)
  have h1 : IsOpen {w : V | 0 < w 1} := isOpen_lt continuous_const (continuous_apply 1)
  exact h0.inter (h1.inter h2)

theorem isClosed_Sc : IsClosed Sc := by
  have h : Continuous fun w : V => w 0 + w 1 := (continuous_apply 0).add (continuous_apply 1)
  have h2 : IsClosed {w : V | w 0 + w 1 ≤ 1} := isClosed_le h continuous_const
  have h0 : IsClosed {w : V | 0 ≤ w 0} := isClosed_le continuous_const (continuous_apply 0)
  have h1 : IsClosed {w : V | 0 ≤ w 1} := isClosed_le continuous_const (continuous_apply 1)
  exact h0.inter (h1.inter h2)

theorem isOpen_R {t : T2} (h : cross t ≠ 0) : IsOpen (R t) := by unfold R; rw [image_eq h]; exact isOpen_So.preimage (continuous_bary t)
theorem isClosed_C {t : T2} (h : cross t ≠ 0) : IsClosed (C t) := by unfold C; rw [image_eq h]; exact isClosed_Sc.preimage (continuous_bary t)

theorem convex_Sc : Convex ℝ Sc := by
  rintro x ⟨x0, x1, x2⟩ y ⟨y0, y1, y2⟩ s r hs hr hsr
  refine ⟨?_, ?_, ?_⟩
  · simp only [Pi.add_apply, Pi.smul_apply, smul_eq_mul]; positivity
  · simp only [Pi.add_apply, Pi.smul_apply, smul_eq_mul]; positivity
  · simp only [Pi.add_apply, Pi.smul_apply, smul_eq_mul]; nlinarith

theorem interior_Sc : interior Sc ⊆ So := by
  intro w hw
  obtain ⟨ε, hε, hb⟩ := Metric.isOpen_iff.1 isOpen_interior w hw
  have hb := hb.trans interior_subset
  have near : ∀ s : ℝ, |s| < ε → (fun k => w k + s) ∈ Sc := fun s hs => hb (by
    rw [Metric.mem_ball, dist_pi_lt_iff hε]
    intro k
    rw [Real.dist_eq]; simpa using hs)
  obtain ⟨h0, h1, -⟩ := near (-(ε / 2)) (by rw [abs_neg, abs_of_pos (by linarith)]; linarith)
  obtain ⟨-, -, h2⟩ := near (ε / 2) (by rw [abs_of_pos (by linarith)]; linarith)
  simp only at h0 h1 h2
  exact ⟨by linarith, by linarith, by linarith⟩

theorem So_Sc : So ⊆ Sc := fun _ h => ⟨h.1.le, h.2.1.le, h.2.2.le⟩

theorem volume_Sc : volume Sc = volume So := by
  refine le_antisymm ?_ (measure_mono So_Sc)
  calc volume Sc ≤ volume (interior Sc ∪ frontier Sc) := measure_mono (by rw [← closure_eq_interior_union_frontier]; exact subset_closure)
    _ ≤ volume (interior Sc) + volume (frontier Sc) := measure_union_le _ _
    _ = volume (interior Sc) := by rw [convex_Sc.addHaar_frontier volume, add_zero]
    _ ≤ volume So := measure_mono interior_Sc

theorem volume_So_pos : 0 < volume So := isOpen_So.measure_pos volume ⟨fun _ => 1 / 4, by norm_num [So]⟩

theorem volume_So_ne_top : volume So ≠ ⊤ := by
  have : So ⊆ Metric.closedBall (0 : V) 1 := by
    rintro w ⟨h0, h1, h2⟩
    rw [Metric.mem_closedBall, dist_pi_le_iff zero_le_one]
    intro k
    rw [Real.dist_eq]
    fin_cases k
    all_goals
      simp only [Pi.zero_apply, sub_zero, Fin.zero_eta, Fin.mk_one, Fin.isValue]
      rw [abs_of_pos (by assumption)]
      linarith
  exact ((measure_mono this).trans_lt measure_closedBall_lt_top).ne

noncomputable def mat (t : T2) : Matrix (Fin 2) (Fin 2) ℝ := !![(t.b 0 : ℝ) - t.a 0, (t.c 0 : ℝ) - t.a 0; (t.b 1 : ℝ) - t.a 1, (t.c 1 : ℝ) - t.a 1]

theorem volume_image (t : T2) (S : Set V) : volume (ptR t '' S) = ENNReal.ofReal |(cross t : ℝ)| * volume S := by
  have e : ptR t '' S = (fun w => (fun k => (t.a k : ℝ)) + w) '' (Matrix.toLin' (mat t) '' S) := by
    rw [Set.image_image]
    refine Set.image_congr fun w _ => ?_
    funext k
    fin_cases k
    all_goals
      simp [ptR, mat, Matrix.toLin'_apply, Matrix.mulVec, dotProduct, Fin.sum_univ_two]
      ring
  rw [e, Set.image_add_left, measure_preimage_add, Measure.addHaar_image_linearMap, LinearMap.det_toLin']
  congr 3
  rw [cross_cast]
  simp only [mat, Matrix.det_fin_two_of]
  ring_nf

/-! ## Rational points -/

def cast (q : Fin 2 → ℚ) : V := fun k => (q k : ℝ)

theorem rational_dense {U : Set V} (hU : IsOpen U) (hne : U.Nonempty) : ∃ q : Fin 2 → ℚ, cast q ∈ U := by
  have hd : DenseRange (Pi.map fun (_ : Fin 2) (q : ℚ) => (q : ℝ)) := DenseRange.piMap fun _ => Rat.denseRange_cast
  obtain ⟨q, hq⟩ := hd.exists_mem_open hU hne
  exact ⟨q, hq⟩

theorem bary_cast (t : T2) (q : Fin 2 → ℚ) : ∃ u v : ℚ, bary t (cast q) = ![(u : ℝ), (v : ℝ)] := by
  refine ⟨((q 0 - t.a 0) * (t.c 1 - t.a 1) - (q 1 - t.a 1) * (t.c 0 - t.a 0)) / cross t, ((t.b 0 - t.a 0) * (q 1 - t.a 1) - (t.b 1 - t.a 1) * (q 0 - t.a 0)) / cross t, ?_⟩
  unfold bary cast
  push_cast
  rfl

theorem cast_pt {t : T2} (h : cross t ≠ 0) {q : Fin 2 → ℚ} {u v : ℚ} (hb : bary t (cast q) = ![(u : ℝ), (v : ℝ)]) : q = pt t u v := by
  have := ptR_bary h (cast q)
  rw [hb] at this
  funext k
  have := congrFun this k
  simp only [ptR, cast, Matrix.cons_val_zero, Matrix.cons_val_one] at this
  unfold pt
  exact_mod_cast this.symm

theorem mem_C {t : T2} (h : cross t ≠ 0) (q : Fin 2 → ℚ) : cast q ∈ C t ↔ InQ t q := by
  constructor
  · intro hq
    unfold C at hq
    rw [image_eq h] at hq
    obtain ⟨u, v, e⟩ := bary_cast t q
    have hq : bary t (cast q) ∈ Sc := hq
    rw [e] at hq
    obtain ⟨h0, h1, h2⟩ := hq
    simp only [Matrix.cons_val_zero, Matrix.cons_val_one] at h0 h1 h2
    exact ⟨u, v, by exact_mod_cast h0, by exact_mod_cast h1, by exact_mod_cast h2, cast_pt h e⟩
  · rintro ⟨u, v, h0, h1, h2, rfl⟩
    refine ⟨![(u : ℝ), (v : ℝ)], ⟨?_, ?_, ?_⟩, ?_⟩
    · simpa using h0
    · simpa using h1
    · simp only [Matrix.cons_val_zero, Matrix.cons_val_one]; exact_mod_cast h2
    · funext k
      simp only [ptR, cast, pt, Matrix.cons_val_zero, Matrix.cons_val_one]
      push_cast; rfl

theorem mem_R {t : T2} (h : cross t ≠ 0) (q : Fin 2 → ℚ) (hq : cast q ∈ R t) : InnerQ t q := by
  unfold R at hq
  rw [image_eq h] at hq
  obtain ⟨u, v, e⟩ := bary_cast t q
  have hq : bary t (cast q) ∈ So := hq
  rw [e] at hq
  obtain ⟨h0, h1, h2⟩ := hq
  simp only [Matrix.cons_val_zero, Matrix.cons_val_one] at h0 h1 h2
  exact ⟨u, v, by exact_mod_cast h0, by exact_mod_cast h1, by exact_mod_cast h2, cast_pt h e⟩

theorem C_sub {p t : T2} (ha : InQ t p.a) (hb : InQ t p.b) (hc : InQ t p.c) : C p ⊆ C t := by
  obtain ⟨u0, v0, a0, a1, a2, ea⟩ := ha
  obtain ⟨u1, v1, b0, b1, b2, eb⟩ := hb
  obtain ⟨u2, v2, c0, c1, c2, ec⟩ := hc
  rintro q ⟨w, ⟨w0, w1, w2⟩, rfl⟩
  have q0 : (0 : ℝ) ≤ 1 - w 0 - w 1 := by linarith
  have A0 : (0 : ℝ) ≤ u0 := by exact_mod_cast a0
  have A1 : (0 : ℝ) ≤ v0 := by exact_mod_cast a1
  have A2 : (u0 : ℝ) + v0 ≤ 1 := by exact_mod_cast a2
  have B0 : (0 : ℝ) ≤ u1 := by exact_mod_cast b0
  have B1 : (0 : ℝ) ≤ v1 := by exact_mod_cast b1
  have B2 : (u1 : ℝ) + v1 ≤ 1 := by exact_mod_cast b2
  have C0 : (0 : ℝ) ≤ u2 := by exact_mod_cast c0
  have C1 : (0 : ℝ) ≤ v2 := by exact_mod_cast c1
  have C2 : (u2 : ℝ) + v2 ≤ 1 := by exact_mod_cast c2
  refine ⟨![(1 - w 0 - w 1) * u0 + w 0 * u1 + w 1 * u2, (1 - w 0 - w 1) * v0 + w 0 * v1 + w 1 * v2], ⟨?_, ?_, ?_⟩, ?_⟩
  · exact add_nonneg (add_nonneg (mul_nonneg q0 A0) (mul_nonneg w0 B0)) (mul_nonneg w1 C0)
  · exact add_nonneg (add_nonneg (mul_nonneg q0 A1) (mul_nonneg w0 B1)) (mul_nonneg w1 C1)
  · simp only [Matrix.cons_val_zero, Matrix.cons_val_one]
    nlinarith [mul_nonneg q0 (sub_nonneg.2 A2), mul_nonneg w0 (sub_nonneg.2 B2), mul_nonneg w1 (sub_nonneg.2 C2)]
  · funext k
    simp only [ptR, ea, eb, ec, pt, Matrix.cons_val_zero, Matrix.cons_val_one]
    push_cast; ring

/-! ## Tiles -/

/-- **The areas of tiles add up to the area of the whole.** -/
theorem tiles {ι : Type} {s : Finset ι} {t : T2} {ps : ι → T2} (ht : cross t ≠ 0) (hp : ∀ i ∈ s, cross (ps i) ≠ 0) (inside : ∀ i ∈ s, InQ t (ps i).a ∧ InQ t (ps i).b ∧ InQ t (ps i).c)
    (cover : ∀ q, InQ t q → ∃ i ∈ s, InQ (ps i) q) (apart : ∀ i ∈ s, ∀ j ∈ s, ∀ q, InnerQ (ps i) q → InnerQ (ps j) q → i = j) : ∑ i ∈ s, |cross (ps i)| = |cross t| := by
  have hm := volume_So_pos
  have hM := volume_So_ne_top
  have key : ∑ i ∈ s, ENNReal.ofReal |(cross (ps i) : ℝ)| * volume So = ENNReal.ofReal |(cross t : ℝ)| * volume So := by
    refine le_antisymm ?_ ?_
    · calc ∑ i ∈ s, ENNReal.ofReal |(cross (ps i) : ℝ)| * volume So = ∑ i ∈ s, volume (R (ps i)) := Finset.sum_congr rfl fun i _ => (volume_image _ _).symm
        _ = volume (⋃ i ∈ s, R (ps i)) := (measure_biUnion_finset (fun i hi j hj hij => by
            rw [Function.onFun, Set.disjoint_iff_inter_eq_empty]
            by_contra hne
            obtain ⟨q, h1, h2⟩ := rational_dense ((isOpen_R (hp i hi)).inter (isOpen_R (hp j hj))) (Set.nonempty_iff_ne_empty.2 hne)
            exact hij (apart i hi j hj q (mem_R (hp i hi) q h1) (mem_R (hp j hj) q h2))) fun i hi => (isOpen_R (hp i hi)).measurableSet).symm
        _ ≤ volume (C t) := measure_mono (Set.iUnion₂_subset fun i hi => (Set.image_mono So_Sc).trans (C_sub (inside i hi).1 (inside i hi).2.1 (inside i hi).2.2))
        _ = ENNReal.ofReal |(cross t : ℝ)| * volume So := by rw [← volume_Sc]; exact volume_image _ _
    · calc ENNReal.ofReal |(cross t : ℝ)| * volume So = volume (R t) := (volume_image _ _).symm
        _ ≤ volume (⋃ i ∈ s, C (ps i)) := measure_mono (by
            by_contra hne
            have hcl : IsClosed (⋃ i ∈ s, C (ps i)) := isClosed_biUnion_finset fun i hi => isClosed_C (hp i hi)
            obtain ⟨x, hx, hx'⟩ := Set.not_subset.1 hne
            obtain ⟨q, h1, h2⟩ := rational_dense ((isOpen_R ht).inter hcl.isOpen_compl) ⟨x, hx, hx'⟩
            obtain ⟨u, v, a, b, c, e⟩ := mem_R ht q h1
            obtain ⟨i, hs, hi⟩ := cover q ⟨u, v, a.le, b.le, c.le, e⟩
            exact h2 (Set.mem_biUnion (Finset.mem_coe.2 hs) ((mem_C (hp i hs) q).2 hi)))
        _ ≤ ∑ i ∈ s, volume (C (ps i)) := measure_biUnion_finset_le _ _
        _ = ∑ i ∈ s, ENNReal.ofReal |(cross (ps i) : ℝ)| * volume So := Finset.sum_congr rfl fun i _ => by rw [← volume_Sc]; exact volume_image _ _
  rw [← Finset.sum_mul, ← ENNReal.ofReal_sum_of_nonneg fun i _ => abs_nonneg _] at key
  have := (ENNReal.mul_left_inj hm.ne' hM).1 key
  rw [ENNReal.ofReal_eq_ofReal_iff (Finset.sum_nonneg fun i _ => abs_nonneg _) (abs_nonneg _)] at this
  exact_mod_cast this

end Kigumi.Area

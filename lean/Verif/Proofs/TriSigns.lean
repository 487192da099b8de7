import Verif.Proofs.Tri3

/-! # A segment and a triangle in space: the cases distinguished by the program -/
namespace Kigumi.FaceFace
open Kigumi Geo Spec.Triangles

/-- The vertices of a triangle that a simplex has. -/
abbrev Pat := Bool × Bool × Bool

/-- Number of vertices. -/
def Pat.count (m : Pat) : Nat := m.1.toNat + m.2.1.toNat + m.2.2.toNat

/-- The pairs that a call for an edge reports: the first vertex of the edge (`false`) or the edge (`true`) with a simplex of the face. -/
def allowed (left : Bool) (k : Bool) (m : Pat) : Bool :=
  if k then decide (2 ≤ m.count) && (left || m.count != 2) else decide (1 ≤ m.count) && (left || m.count != 1)

def gEmit (left : Bool) (k : Bool) (m : Pat) : List (Bool × Pat) :=
  if k = true ∧ m.count = 1 then [] else if k.toNat + 1 = m.count ∧ left = false then [] else [(k, m)]

def g3 (left : Bool) (sa sb u v w : Int) : List (Bool × Pat) :=
  if u * v < 0 ∨ v * w < 0 ∨ w * u < 0 then []
  else if sa ≠ 0 ∧ sb = 0 then []
  else gEmit left (decide (sa ≠ 0))
    (if u = 0 ∧ v = 0 then (false, true, false)
      else if v = 0 ∧ w = 0 then (false, false, true)
      else if w = 0 ∧ u = 0 then (true, false, false)
      else if u = 0 then (true, true, false)
      else if v = 0 then (false, true, true)
      else if w = 0 then (true, false, true)
      else (true, true, true))

/-- The sign of a weight. -/
def wsign (part : Bool) (y d : Int) : Bool := if part then decide (0 < y * d) else decide (y = 0)

/-- The sign of the difference of two numbers with these (different or opposite) signs. -/
def dsign (sa sb : Int) : Int := if sa ≠ 0 then sa else -sb

abbrev signs : List Int := [-1, 0, 1]
abbrev bools : List Bool := [false, true]

/-- One row of the table. -/
def g3Row (left : Bool) (sa sb u v w : Int) (k m0 m1 m2 : Bool) : Prop :=
  ¬ (sa = 0 ∧ sb = 0) → sa * sb ≤ 0 → (u = dsign sa sb ∨ v = dsign sa sb ∨ w = dsign sa sb) →
    ((k, m0, m1, m2) ∈ g3 left sa sb u v w ↔ allowed left k (m0, m1, m2) = true ∧ wsign true (-sb) (dsign sa sb) = true ∧ wsign k sa (dsign sa sb) = true ∧
        wsign m0 v (dsign sa sb) = true ∧ wsign m1 w (dsign sa sb) = true ∧ wsign m2 u (dsign sa sb) = true)

instance (left : Bool) (sa sb u v w : Int) (k m0 m1 m2 : Bool) : Decidable (g3Row left sa sb u v w k m0 m1 m2) := by
  unfold g3Row; exact inferInstance

theorem g3_table : ∀ left ∈ bools, ∀ sa ∈ signs, ∀ sb ∈ signs, ∀ u ∈ signs, ∀ v ∈ signs, ∀ w ∈ signs,
    ∀ k ∈ bools, ∀ m0 ∈ bools, ∀ m1 ∈ bools, ∀ m2 ∈ bools, g3Row left sa sb u v w k m0 m1 m2 := by
  decide +kernel

theorem gEmit_nodup (left k : Bool) (m : Pat) : (gEmit left k m).Nodup := by
  unfold gEmit; split
  · exact List.nodup_nil
  · split
    · exact List.nodup_nil
    · exact List.nodup_singleton _

theorem g3_nodup (left : Bool) (sa sb u v w : Int) : (g3 left sa sb u v w).Nodup := by
  unfold g3; split
  · exact List.nodup_nil
  · split
    · exact List.nodup_nil
    · exact gEmit_nodup _ _ _

theorem sgn_mem (x : ℚ) : sgn x ∈ signs := by
  unfold sgn; split
  · decide
  · split <;> decide

theorem bool_mem (b : Bool) : b ∈ bools := by cases b <;> decide

theorem sgn_mul (x y : ℚ) : sgn (x * y) = sgn x * sgn y := by
  rcases lt_trichotomy x 0 with hx | hx | hx <;> rcases lt_trichotomy y 0 with hy | hy | hy
  · have : 0 < x * y := mul_pos_of_neg_of_neg hx hy
    simp [sgn, hx, hy, this.not_gt, this.ne']
  · subst hy; simp [sgn]
  · have : x * y < 0 := mul_neg_of_neg_of_pos hx hy
    simp [sgn, hx, hy.not_gt, hy.ne', this]
  · subst hx; simp [sgn]
  · subst hx; simp [sgn]
  · subst hx; simp [sgn]
  · have : x * y < 0 := mul_neg_of_pos_of_neg hx hy
    simp [sgn, hx.not_gt, hx.ne', hy, this]
  · subst hy; simp [sgn]
  · have : 0 < x * y := mul_pos hx hy
    simp [sgn, hx.not_gt, hx.ne', hy.not_gt, hy.ne', this.not_gt, this.ne']

theorem sgn_neg' (x : ℚ) : sgn (-x) = - sgn x := by
  have := sgn_mul (-1) x
  have h : sgn (-1) = -1 := by decide
  rw [h] at this
  rw [← neg_one_mul, this]; ring

theorem sgn_one {x : ℚ} : sgn x = 1 ↔ 0 < x := by
  constructor
  · intro h; exact sgn_pos.1 (by omega)
  · intro h; simp [sgn, h.not_gt, h.ne']

theorem sgn_minus_one {x : ℚ} : sgn x = -1 ↔ x < 0 := by
  constructor
  · intro h; exact sgn_neg.1 (by omega)
  · intro h; simp [sgn, h]

theorem weight_div {part : Bool} {y d : ℚ} (hd : d ≠ 0) : Weight part (y / d) ↔ wsign part (sgn y) (sgn d) = true := by
  unfold Weight wsign
  cases part
  · simp only [Bool.false_eq_true, if_false, decide_eq_true_eq, sgn_zero, div_eq_zero_iff, hd, or_false]
  · simp only [if_true, decide_eq_true_eq]
    rw [← sgn_mul]
    rw [show (0 < sgn (y * d)) = (sgn (y * d) > 0) from rfl, sgn_pos]
    constructor
    · intro h
      have : y * d = (y / d) * (d * d) := by field_simp
      rw [this]; exact mul_pos h (mul_self_pos.2 hd)
    · intro h
      have : y / d = (y * d) / (d * d) := by field_simp
      rw [this]; exact div_pos h (mul_self_pos.2 hd)

/-- The transversal case of the program. -/
theorem g3_spec (left : Bool) {a b p q r : P3} (h0 : ¬ (sgn (det4 a p q r) = 0 ∧ sgn (det4 b p q r) = 0))
    (hle : sgn (det4 a p q r) * sgn (det4 b p q r) ≤ 0) (k : Bool) (m : Pat) :
    (k, m) ∈ g3 left (sgn (det4 a p q r)) (sgn (det4 b p q r)) (sgn (det4 a b p q)) (sgn (det4 a b q r)) (sgn (det4 a b r p)) ↔
    allowed left k m = true ∧ MeetOnce (Seg true k a b) (Open m.1 m.2.1 m.2.2 p q r) := by
  obtain ⟨m0, m1, m2⟩ := m
  have hd : sgn (det4 a p q r - det4 b p q r) = dsign (sgn (det4 a p q r)) (sgn (det4 b p q r)) := by
    unfold dsign
    rcases lt_trichotomy (det4 a p q r) 0 with ha | ha | ha
    · have hb : ¬ det4 b p q r < 0 := by
        intro hb; rw [sgn_minus_one.2 ha, sgn_minus_one.2 hb] at hle; omega
      rw [sgn_minus_one.2 ha, sgn_minus_one.2 (by linarith [not_lt.1 hb])]; rfl
    · rw [ha, zero_sub, sgn_neg']; simp [sgn_zero]
    · have hb : ¬ 0 < det4 b p q r := by
        intro hb; rw [sgn_one.2 ha, sgn_one.2 hb] at hle; omega
      rw [sgn_one.2 ha, sgn_one.2 (by linarith [not_lt.1 hb])]; rfl
  have hne : det4 a p q r - det4 b p q r ≠ 0 := by
    intro h'
    rw [← sgn_zero, hd] at h'
    unfold dsign at h'
    split at h'
    · contradiction
    · rename_i h
      exact h0 ⟨not_not.1 h, by omega⟩
  have hsum : sgn (det4 a b p q) = sgn (det4 a p q r - det4 b p q r) ∨ sgn (det4 a b q r) = sgn (det4 a p q r - det4 b p q r) ∨
      sgn (det4 a b r p) = sgn (det4 a p q r - det4 b p q r) := by
    have hs := det_sum a b p q r
    rcases lt_or_gt_of_ne hne with h | h
    · rw [sgn_minus_one.2 h, sgn_minus_one, sgn_minus_one, sgn_minus_one]
      by_contra hc; push Not at hc; linarith [hc.1, hc.2.1, hc.2.2]
    · rw [sgn_one.2 h, sgn_one, sgn_one, sgn_one]
      by_contra hc; push Not at hc; linarith [hc.1, hc.2.1, hc.2.2]
  have := g3_table left (bool_mem _) _ (sgn_mem (det4 a p q r)) _ (sgn_mem (det4 b p q r)) _ (sgn_mem (det4 a b p q)) _ (sgn_mem (det4 a b q r))
    _ (sgn_mem (det4 a b r p)) k (bool_mem _) m0 (bool_mem _) m1 (bool_mem _) m2 (bool_mem _) h0 hle (by rw [← hd]; exact hsum)
  rw [this, ← hd, ← sgn_neg']
  simp only [← weight_div hne]
  refine and_congr_right fun _ => ?_
  constructor
  · intro hw
    refine ⟨_, (transversal hne true k m0 m1 m2 _).2 ⟨rfl, hw⟩, ?_⟩
    intro y h1 h2
    exact ((transversal hne true k m0 m1 m2 y).1 ⟨h1, h2⟩).1
  · rintro ⟨x, hx, _⟩
    exact ((transversal hne true k m0 m1 m2 x).1 hx).2

/-- Both ends strictly on the same side: nothing in common. -/
theorem same_side {a b p q r : P3} (h : 0 < sgn (det4 a p q r) * sgn (det4 b p q r)) (k : Bool) (m : Pat) :
    ¬ MeetOnce (Seg true k a b) (Open m.1 m.2.1 m.2.2 p q r) := by
  rintro ⟨x, ⟨⟨s, t, h1, rfl, hs, ht⟩, u, v, w, h2, e, _⟩, _⟩
  have e0 := (common_weights h1 h2 e).1
  rw [← sgn_mul, show (0 < sgn (det4 a p q r * det4 b p q r)) = (sgn (det4 a p q r * det4 b p q r) > 0) from rfl, sgn_pos] at h
  have hs : 0 < s := by simpa [Weight] using hs
  have ht : 0 ≤ t := by
    cases k
    · have : t = 0 := by simpa [Weight] using ht
      exact this.ge
    · exact le_of_lt (by simpa [Weight] using ht)
  have : s * (det4 a p q r * det4 a p q r) + t * (det4 a p q r * det4 b p q r) = 0 := by linear_combination (det4 a p q r) * e0
  have ha : det4 a p q r ≠ 0 := by rintro h'; rw [h'] at h; simp at h
  have := mul_pos hs (mul_self_pos.2 ha)
  have := mul_nonneg ht h.le
  linarith

end Kigumi.FaceFace

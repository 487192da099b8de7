import Verif.Proofs.Tri2

/-! # A segment and a triangle in a plane: the cases distinguished by the program -/
namespace Kigumi.FaceFace
open Kigumi Geo Spec.Triangles

/-- The collinear case: `ap`, `aq` compare the first vertex with the ends of the other edge. -/
def g1 (left : Bool) (ap aq : Int) : List (Bool × Pat) :=
  if ap * aq > 0 then [] else if ap * aq < 0 then [(false, true, true, false)]
  else if ap = 0 ∧ left = true then [(false, true, false, false)] else []

/-- Two edges in a plane; the second one is the first edge of the face. -/
def gEE (left : Bool) (abp abq apq bpq ap aq : Int) : List (Bool × Pat) :=
  if abp * abq > 0 ∨ apq * bpq > 0 then []
  else if abp = 0 ∧ abq = 0 then g1 left ap aq
  else if apq ≠ 0 ∧ bpq = 0 then []
  else if abp ≠ 0 ∧ abq = 0 then []
  else gEmit left (decide (apq ≠ 0)) (true, decide (abp ≠ 0), false)

theorem gEE_nodup (left : Bool) (abp abq apq bpq ap aq : Int) : (gEE left abp abq apq bpq ap aq).Nodup := by
  unfold gEE; split
  · exact List.nodup_nil
  · split
    · unfold g1; split
      · exact List.nodup_nil
      · split
        · exact List.nodup_singleton _
        · split
          · exact List.nodup_singleton _
          · exact List.nodup_nil
    · split
      · exact List.nodup_nil
      · split
        · exact List.nodup_nil
        · exact gEmit_nodup _ _ _

theorem gEmit_mem {left k : Bool} {m : Pat} {x : Bool × Pat} (h : x ∈ gEmit left k m) : x = (k, m) := by
  unfold gEmit at h; split at h
  · exact absurd h List.not_mem_nil
  · split at h
    · exact absurd h List.not_mem_nil
    · simpa using h

/-- Only the first vertex and the edge itself are reported. -/
theorem gEE_shape {left : Bool} {abp abq apq bpq ap aq : Int} {x : Bool × Pat} (h : x ∈ gEE left abp abq apq bpq ap aq) : x.2.1 = true ∧ x.2.2.2 = false := by
  unfold gEE at h; split at h
  · exact absurd h List.not_mem_nil
  · split at h
    · unfold g1 at h; split at h
      · exact absurd h List.not_mem_nil
      · split at h
        · rw [List.mem_singleton] at h; subst h; exact ⟨rfl, rfl⟩
        · split at h
          · rw [List.mem_singleton] at h; subst h; exact ⟨rfl, rfl⟩
          · exact absurd h List.not_mem_nil
    · split at h
      · exact absurd h List.not_mem_nil
      · split at h
        · exact absurd h List.not_mem_nil
        · rw [gEmit_mem h]; exact ⟨rfl, rfl⟩

/-- All signs reversed: the same result. -/
theorem gEE_neg (left : Bool) (abp abq apq bpq ap aq : Int) : gEE left (-abp) (-abq) (-apq) (-bpq) ap aq = gEE left abp abq apq bpq ap aq := by
  unfold gEE
  simp only [neg_mul_neg, neg_eq_zero, ne_eq]

def eeRow (left : Bool) (s1 s2 sP sQ d : Int) (k m1 : Bool) : Prop :=
  d ≠ 0 → (s1 * s2 ≤ 0 → d = dsign s2 s1) → (sP = d ∨ sQ = -d) →
    ((k, true, m1, false) ∈ gEE left sP sQ s1 s2 0 0 ↔ allowed left k (true, m1, false) = true ∧ wsign true s2 d = true ∧ wsign k (-s1) d = true ∧
      wsign true (-sQ) d = true ∧ wsign m1 sP d = true)

instance (left : Bool) (s1 s2 sP sQ d : Int) (k m1 : Bool) : Decidable (eeRow left s1 s2 sP sQ d k m1) := by
  unfold eeRow; exact inferInstance

theorem ee_table : ∀ left ∈ bools, ∀ s1 ∈ signs, ∀ s2 ∈ signs, ∀ sP ∈ signs, ∀ sQ ∈ signs, ∀ d ∈ signs, ∀ k ∈ bools, ∀ m1 ∈ bools, eeRow left s1 s2 sP sQ d k m1 := by
  decide +kernel

theorem gEE_indep (left : Bool) {abp abq : Int} (h : ¬ (abp = 0 ∧ abq = 0)) (apq bpq ap aq ap' aq' : Int) :
    gEE left abp abq apq bpq ap aq = gEE left abp abq apq bpq ap' aq' := by
  unfold gEE; rw [if_neg h, if_neg h]

variable {p q r : P3}

/-- Common points of a segment and an edge of the face that are not parallel. -/
theorem transversal2 (hn : dot (normal p q r) (normal p q r) ≠ 0) {u1 v1 w1 u2 v2 w2 : ℚ} (h1 : u1 + v1 + w1 = 1) (h2 : u2 + v2 + w2 = 1) (hd : w2 - w1 ≠ 0) (k m0 m1 : Bool) (x : P3) :
    (Seg true k (combo u1 v1 w1 p q r) (combo u2 v2 w2 p q r) x ∧ Open m0 m1 false p q r x) ↔
    x = seg (w2 / (w2 - w1)) (-w1 / (w2 - w1)) (combo u1 v1 w1 p q r) (combo u2 v2 w2 p q r) ∧
    Weight true (w2 / (w2 - w1)) ∧ Weight k (-w1 / (w2 - w1)) ∧ Weight m0 (-(w1 * u2 - u1 * w2) / (w2 - w1)) ∧ Weight m1 ((v1 * w2 - w1 * v2) / (w2 - w1)) := by
  have hseg : ∀ s t : ℚ, seg s t (combo u1 v1 w1 p q r) (combo u2 v2 w2 p q r) = combo (s * u1 + t * u2) (s * v1 + t * v2) (s * w1 + t * w2) p q r := by
    intro s t; apply p3_ext <;> simp only [seg, combo] <;> ring
  constructor
  · rintro ⟨⟨s, t, hst, rfl, hs, ht⟩, u, v, w, huvw, e, hu, hv, hw⟩
    have hw0 : w = 0 := by simpa [Weight] using hw
    rw [hseg] at e
    obtain ⟨e1, e2, e3⟩ := weights_unique hn (by linear_combination s * h1 + t * h2 + hst) huvw e
    rw [hw0] at e3
    have hs' : s = w2 / (w2 - w1) := by rw [eq_div_iff hd]; linear_combination -e3 + w2 * hst
    have ht' : t = -w1 / (w2 - w1) := by rw [eq_div_iff hd]; linear_combination e3 - w1 * hst
    have hu' : -(w1 * u2 - u1 * w2) / (w2 - w1) = u := by rw [← e1, hs', ht']; field_simp; ring
    have hv' : (v1 * w2 - w1 * v2) / (w2 - w1) = v := by rw [← e2, hs', ht']; field_simp; ring
    rw [← hs', ← ht', hu', hv']
    exact ⟨rfl, hs, ht, hu, hv⟩
  · rintro ⟨rfl, hs, ht, hu, hv⟩
    refine ⟨⟨_, _, ?_, rfl, hs, ht⟩, _, _, 0, ?_, ?_, hu, hv, by simp [Weight]⟩
    · field_simp; ring
    · field_simp; linear_combination w2 * h1 - w1 * h2
    · rw [hseg]; congr 1 <;> field_simp <;> ring

/-- Two edges in a plane. -/
theorem gEE_spec (hn : dot (normal p q r) (normal p q r) ≠ 0) (left : Bool) {a b : P3} {u1 v1 w1 u2 v2 w2 : ℚ} (h1 : u1 + v1 + w1 = 1) (h2 : u2 + v2 + w2 = 1)
    (ha : a = combo u1 v1 w1 p q r) (hb : b = combo u2 v2 w2 p q r) (hab : a ≠ b) (k m1 : Bool) :
    (k, true, m1, false) ∈ gEE left (sgn (v1 * w2 - w1 * v2)) (sgn (w1 * u2 - u1 * w2)) (sgn w1) (sgn w2) (compareLex a p) (compareLex a q) ↔
    allowed left k (true, m1, false) = true ∧ MeetOnce (Seg true k a b) (Open true m1 false p q r) := by
  have hPQ : (v1 * w2 - w1 * v2) - (w1 * u2 - u1 * w2) = w2 - w1 := by linear_combination w2 * h1 - w1 * h2
  by_cases hd : w2 - w1 = 0
  · have hw : w2 = w1 := by linarith
    by_cases h0 : w1 = 0
    · -- both on the line of the edge
      subst hw; subst h0
      have hpq : p ≠ q := by
        rintro rfl; apply hn
        simp only [normal, cross, sub, dot]; ring
      have hu1 : u1 = 1 - v1 := by linarith
      have ea : a = seg (1 - v1) v1 p q := by rw [ha, hu1]; apply p3_ext <;> simp only [seg, combo] <;> ring
      have ea' : a = seg (1 - u1) u1 q p := by rw [ha, hu1]; apply p3_ext <;> simp only [seg, combo] <;> ring
      have l1 : compareLex a p = sgn v1 * compareLex q p := by rw [ea]; exact compareLex_seg _ _ _
      have l2 : compareLex a q = sgn u1 * compareLex p q := by
        have := compareLex_seg u1 q p
        rw [← ea'] at this; exact this
      have e : gEE left (sgn (v1 * 0 - 0 * v2)) (sgn (0 * u2 - u1 * 0)) (sgn 0) (sgn 0) (compareLex a p) (compareLex a q) = g1 left (sgn v1 * compareLex q p) (sgn u1 * compareLex p q) := by
        rw [l1, l2]; simp [gEE, sgn]
      rw [e]
      have hopen : ∀ m1 : Bool, Open true m1 false p q r a ↔ 0 < u1 ∧ Weight m1 v1 := by
        intro m1; constructor
        · rintro ⟨u, v, w, huvw, e, hu, hv, hw⟩
          rw [ha] at e
          obtain ⟨rfl, rfl, _⟩ := weights_unique hn h1 huvw e
          exact ⟨by simpa [Weight] using hu, hv⟩
        · rintro ⟨hu, hv⟩
          exact ⟨u1, v1, 0, h1, ha, by simpa [Weight] using hu, hv, by simp [Weight]⟩
      cases k
      · rw [once_vertex a b p q r (true, m1, false), hopen]
        have hc : sgn v1 * compareLex q p * (sgn u1 * compareLex p q) = - (sgn v1 * sgn u1) := by
          rw [compareLex_swap p q]
          rcases compareLex_ne hpq with h | h <;> rw [h] <;> ring
        have hc0 : sgn v1 * compareLex q p = 0 ↔ v1 = 0 := by
          rw [compareLex_swap p q, ← sgn_zero]
          rcases compareLex_ne hpq with h | h <;> rw [h] <;> omega
        unfold g1
        rw [hc]
        rcases lt_trichotomy v1 0 with hv | hv | hv
        · have hu : 0 < u1 := by linarith
          rw [sgn_minus_one.2 hv, sgn_one.2 hu]
          simp only [show (-(-1 * 1 : Int) > 0) from by decide, if_true, List.not_mem_nil, false_iff]
          rintro ⟨_, _, hv'⟩
          cases m1
          · simp [Weight] at hv'; linarith
          · simp [Weight] at hv'; linarith
        · have hu : u1 = 1 := by linarith
          have : sgn v1 = 0 := sgn_zero.2 hv
          rw [this]
          simp only [show ¬ (-(0 * sgn u1) > 0) from by omega, show ¬ (-(0 * sgn u1) < 0) from by omega, if_false]
          simp only [zero_mul, true_and]
          cases m1 <;> cases left <;> simp [Weight, allowed, Pat.count, hv, hu]
        · rcases lt_trichotomy u1 0 with hu | hu | hu
          · rw [sgn_one.2 hv, sgn_minus_one.2 hu]
            simp only [show (-(1 * -1 : Int) > 0) from by decide, if_true, List.not_mem_nil, false_iff]
            rintro ⟨_, hu', _⟩; linarith
          · rw [sgn_zero.2 hu]
            simp only [mul_zero, neg_zero, gt_iff_lt, lt_irrefl, if_false]
            have : ¬ (sgn v1 * compareLex q p = 0 ∧ left = true) := by rw [hc0]; rintro ⟨h, _⟩; linarith
            rw [if_neg this]
            simp [hu]
          · rw [sgn_one.2 hv, sgn_one.2 hu]
            simp only [show ¬ (-(1 * 1 : Int) > 0) from by decide, show (-(1 * 1 : Int) < 0) from by decide, if_true, if_false]
            cases m1 <;> cases left <;> simp [Weight, allowed, Pat.count, hv, hu, hv.ne']
      · constructor
        · intro h; exfalso
          unfold g1 at h
          split at h
          · exact absurd h List.not_mem_nil
          · split at h
            · simp at h
            · split at h
              · simp at h
              · exact absurd h List.not_mem_nil
        · rintro ⟨hal, hm⟩; exfalso
          cases m1
          · cases left <;> simp [allowed, Pat.count] at hal
          · exact not_once h1 h2 ha hb hab (m := (true, true, false)) (by simp) (by simp) (by simp) hm
    · -- both on the same side
      have e : gEE left (sgn (v1 * w2 - w1 * v2)) (sgn (w1 * u2 - u1 * w2)) (sgn w1) (sgn w2) (compareLex a p) (compareLex a q) = [] := by
        unfold gEE; rw [if_pos]; right
        rw [hw, ← sgn_mul, sgn_pos]; exact mul_self_pos.2 h0
      rw [e]
      simp only [List.not_mem_nil, false_iff]
      rintro ⟨_, x, ⟨⟨s, t, hst, rfl, _⟩, u, v, w, huvw, e, _, _, hw'⟩, _⟩
      have hw0 : w = 0 := by simpa [Weight] using hw'
      rw [ha, hb] at e
      have hseg : seg s t (combo u1 v1 w1 p q r) (combo u2 v2 w2 p q r) = combo (s * u1 + t * u2) (s * v1 + t * v2) (s * w1 + t * w2) p q r := by
        apply p3_ext <;> simp only [seg, combo] <;> ring
      rw [hseg] at e
      obtain ⟨_, _, e3⟩ := weights_unique hn (by linear_combination s * h1 + t * h2 + hst) huvw e
      apply h0
      rw [hw, hw0] at e3
      linear_combination e3 - w1 * hst
  · have hds : sgn (w2 - w1) ≠ 0 := fun h => hd (sgn_zero.1 h)
    have hnz : ¬ (sgn (v1 * w2 - w1 * v2) = 0 ∧ sgn (w1 * u2 - u1 * w2) = 0) := by
      rintro ⟨e1, e2⟩
      rw [sgn_zero] at e1 e2
      exact hd (by rw [← hPQ, e1, e2]; ring)
    rw [gEE_indep left hnz _ _ _ _ 0 0]
    have row := ee_table left (bool_mem _) _ (sgn_mem w1) _ (sgn_mem w2) _ (sgn_mem (v1 * w2 - w1 * v2)) _ (sgn_mem (w1 * u2 - u1 * w2)) _ (sgn_mem (w2 - w1)) k (bool_mem _) m1 (bool_mem _) hds ?_ ?_
    · rw [row, ← sgn_neg', ← sgn_neg']
      simp only [← weight_div hd]
      refine and_congr_right fun _ => ?_
      subst ha; subst hb
      constructor
      · intro hw
        refine ⟨_, (transversal2 hn h1 h2 hd k true m1 _).2 ⟨rfl, hw⟩, ?_⟩
        intro y e1 e2
        exact ((transversal2 hn h1 h2 hd k true m1 y).1 ⟨e1, e2⟩).1
      · rintro ⟨x, hx, _⟩
        exact ((transversal2 hn h1 h2 hd k true m1 x).1 hx).2
    · intro hle
      unfold dsign
      rcases lt_trichotomy w2 0 with h | h | h
      · have : ¬ w1 < 0 := by intro h'; rw [sgn_minus_one.2 h, sgn_minus_one.2 h'] at hle; omega
        rw [sgn_minus_one.2 h, sgn_minus_one.2 (by linarith [not_lt.1 this])]; rfl
      · rw [h, zero_sub, sgn_neg']; simp [sgn]
      · have : ¬ 0 < w1 := by intro h'; rw [sgn_one.2 h, sgn_one.2 h'] at hle; omega
        rw [sgn_one.2 h, sgn_one.2 (by linarith [not_lt.1 this])]; rfl
    · rw [← sgn_neg']
      rcases lt_or_gt_of_ne hd with h | h
      · rw [sgn_minus_one.2 h, sgn_minus_one, sgn_one.2 (by linarith : 0 < -(w2 - w1)), sgn_one]
        by_contra hc; push Not at hc; linarith [hc.1, hc.2]
      · rw [sgn_one.2 h, sgn_one, sgn_minus_one.2 (by linarith : -(w2 - w1) < 0), sgn_minus_one]
        by_contra hc; push Not at hc; linarith [hc.1, hc.2]

end Kigumi.FaceFace

import Verif.Proofs.TriPlane

/-! # A segment and a triangle: all cases of the program -/
namespace Kigumi.FaceFace
open Kigumi Geo Spec.Triangles

def emb1 (x : Bool × Pat) : Bool × Pat := (x.1, x.2.2.2, x.2.1, x.2.2.1)
def emb2 (x : Bool × Pat) : Bool × Pat := (x.1, x.2.2.1, x.2.2.2, x.2.1)

/-- All three nonzero with the same sign. -/
def sameSigns (x y z : Int) : Bool := decide (x * y > 0 ∧ y * z > 0 ∧ z * x > 0)

def g2 (left : Bool) (apq aqr arp bpq bqr brp abp abq abr ap aq ar : Int) : List (Bool × Pat) :=
  if sameSigns apq aqr arp && sameSigns bpq bqr brp then (if sameSigns apq aqr arp then [(false, true, true, true)] else [])
  else (if sameSigns apq aqr arp then [(false, true, true, true)] else []) ++ gEE left abp abq apq bpq ap aq ++
    (gEE left abq abr aqr bqr aq ar).map emb1 ++ (gEE left abr abp arp brp ar ap).map emb2

theorem g2_neg (left : Bool) (apq aqr arp bpq bqr brp abp abq abr ap aq ar : Int) :
    g2 left (-apq) (-aqr) (-arp) (-bpq) (-bqr) (-brp) (-abp) (-abq) (-abr) ap aq ar = g2 left apq aqr arp bpq bqr brp abp abq abr ap aq ar := by
  have h : ∀ x y z : Int, sameSigns (-x) (-y) (-z) = sameSigns x y z := by intro x y z; simp only [sameSigns, neg_mul_neg]
  unfold g2; simp only [h, gEE_neg]

theorem emb1_inj : Function.Injective emb1 := by
  rintro ⟨k, x, y, z⟩ ⟨k', x', y', z'⟩ h
  simp only [emb1, Prod.mk.injEq] at h
  simp only [h]
theorem emb2_inj : Function.Injective emb2 := by
  rintro ⟨k, x, y, z⟩ ⟨k', x', y', z'⟩ h
  simp only [emb2, Prod.mk.injEq] at h
  simp only [h]

theorem g2_nodup (left : Bool) (apq aqr arp bpq bqr brp abp abq abr ap aq ar : Int) :
    (g2 left apq aqr arp bpq bqr brp abp abq abr ap aq ar).Nodup := by
  unfold g2; split
  · split
    · exact List.nodup_singleton _
    · exact List.nodup_nil
  · have n1 := gEE_nodup left abp abq apq bpq ap aq
    have n2 := (gEE_nodup left abq abr aqr bqr aq ar).map emb1_inj
    have n3 := (gEE_nodup left abr abp arp brp ar ap).map emb2_inj
    have s1 := fun x (h : x ∈ gEE left abp abq apq bpq ap aq) => gEE_shape h
    have s2 : ∀ x, x ∈ (gEE left abq abr aqr bqr aq ar).map emb1 → x.2.1 = false ∧ x.2.2.1 = true := by
      intro x hx
      obtain ⟨y, hy, rfl⟩ := List.mem_map.1 hx
      exact ⟨(gEE_shape hy).2, (gEE_shape hy).1⟩
    have s3 : ∀ x, x ∈ (gEE left abr abp arp brp ar ap).map emb2 → x.2.2.1 = false ∧ x.2.2.2 = true := by
      intro x hx
      obtain ⟨y, hy, rfl⟩ := List.mem_map.1 hx
      exact ⟨(gEE_shape hy).2, (gEE_shape hy).1⟩
    have n0 : (if sameSigns apq aqr arp then [(false, true, true, true)] else ([] : List (Bool × Pat))).Nodup := by
      split
      · exact List.nodup_singleton _
      · exact List.nodup_nil
    have s0 : ∀ x, x ∈ (if sameSigns apq aqr arp then [(false, true, true, true)] else ([] : List (Bool × Pat))) → x.2 = (true, true, true) := by
      intro x hx
      split at hx
      · rw [List.mem_singleton] at hx; rw [hx]
      · exact absurd hx List.not_mem_nil
    refine List.Nodup.append (List.Nodup.append (List.Nodup.append n0 n1 ?_) n2 ?_) n3 ?_
    · intro x h0 h1
      have e := (s1 x h1).2; rw [s0 x h0] at e; exact absurd e (by decide)
    · intro x h h2
      have e2 := s2 x h2
      rcases List.mem_append.1 h with h | h
      · rw [s0 x h] at e2; exact absurd e2.1 (by decide)
      · have := s1 x h; rw [this.1] at e2; exact absurd e2.1 (by decide)
    · intro x h h3
      have e3 := s3 x h3
      rcases List.mem_append.1 h with h | h
      · rcases List.mem_append.1 h with h | h
        · rw [s0 x h] at e3; exact absurd e3.1 (by decide)
        · have := s1 x h; rw [this.2] at e3; exact absurd e3.2 (by decide)
      · have := s2 x h; rw [this.2] at e3; exact absurd e3.1 (by decide)

theorem sameSigns_table : ∀ x ∈ signs, ∀ y ∈ signs, ∀ z ∈ signs, (x = 1 ∨ y = 1 ∨ z = 1) → (sameSigns x y z = true ↔ x = 1 ∧ y = 1 ∧ z = 1) := by decide

theorem sameSigns_iff {u v w : ℚ} (h : u + v + w = 1) : sameSigns (sgn w) (sgn u) (sgn v) = true ↔ 0 < u ∧ 0 < v ∧ 0 < w := by
  rw [sameSigns_table _ (sgn_mem _) _ (sgn_mem _) _ (sgn_mem _), sgn_one, sgn_one, sgn_one]
  · tauto
  · rw [sgn_one, sgn_one, sgn_one]; by_contra hc; push Not at hc; linarith [hc.1, hc.2.1, hc.2.2]

variable {p q r : P3}

theorem open_combo (hn : dot (normal p q r) (normal p q r) ≠ 0) {u v w : ℚ} (h : u + v + w = 1) (m0 m1 m2 : Bool) :
    Open m0 m1 m2 p q r (combo u v w p q r) ↔ Weight m0 u ∧ Weight m1 v ∧ Weight m2 w := by
  constructor
  · rintro ⟨u', v', w', h', e, a, b, c⟩
    obtain ⟨rfl, rfl, rfl⟩ := weights_unique hn h h' e
    exact ⟨a, b, c⟩
  · rintro ⟨a, b, c⟩; exact ⟨u, v, w, h, rfl, a, b, c⟩

theorem normal_ne_rot (hn : dot (normal p q r) (normal p q r) ≠ 0) : dot (normal q r p) (normal q r p) ≠ 0 := by rw [normal_rot]; exact hn

/-- A segment in the plane of the triangle. -/
theorem g2_spec (hn : dot (normal p q r) (normal p q r) ≠ 0) (left : Bool) {a b : P3} {u1 v1 w1 u2 v2 w2 : ℚ} (h1 : u1 + v1 + w1 = 1) (h2 : u2 + v2 + w2 = 1)
    (ha : a = combo u1 v1 w1 p q r) (hb : b = combo u2 v2 w2 p q r) (hab : a ≠ b) (k : Bool) (m : Pat) :
    (k, m) ∈ g2 left (sgn w1) (sgn u1) (sgn v1) (sgn w2) (sgn u2) (sgn v2) (sgn (v1 * w2 - w1 * v2)) (sgn (w1 * u2 - u1 * w2)) (sgn (u1 * v2 - v1 * u2))
      (compareLex a p) (compareLex a q) (compareLex a r) ↔
    allowed left k m = true ∧ MeetOnce (Seg true k a b) (Open m.1 m.2.1 m.2.2 p q r) := by
  have hn1 := normal_ne_rot hn
  have hn2 := normal_ne_rot hn1
  have e1 := fun m1 => gEE_spec hn left h1 h2 ha hb hab k m1
  have e2 := fun m1 => gEE_spec hn1 left (by linarith : v1 + w1 + u1 = 1) (by linarith : v2 + w2 + u2 = 1) (ha.trans (combo_rot _ _ _ _ _ _)) (hb.trans (combo_rot _ _ _ _ _ _)) hab k m1
  have e3 := fun m1 => gEE_spec hn2 left (by linarith : w1 + u1 + v1 = 1) (by linarith : w2 + u2 + v2 = 1) ((ha.trans (combo_rot _ _ _ _ _ _)).trans (combo_rot _ _ _ _ _ _)) ((hb.trans (combo_rot _ _ _ _ _ _)).trans (combo_rot _ _ _ _ _ _)) hab k m1
  have r2 : ∀ m1, MeetOnce (Seg true k a b) (Open true m1 false q r p) ↔ MeetOnce (Seg true k a b) (Open false true m1 p q r) := by
    intro m1; simp only [MeetOnce, open_rot false true m1 p q r]
  have r3 : ∀ m1, MeetOnce (Seg true k a b) (Open true m1 false r p q) ↔ MeetOnce (Seg true k a b) (Open m1 false true p q r) := by
    intro m1; simp only [MeetOnce, open_rot m1 false true p q r, open_rot false true m1 q r p]
  have c2 : ∀ m1, allowed left k (true, m1, false) = allowed left k (false, true, m1) := by intro m1; cases m1 <;> cases k <;> rfl
  have c3 : ∀ m1, allowed left k (true, m1, false) = allowed left k (m1, false, true) := by intro m1; cases m1 <;> cases k <;> rfl
  have inA := sameSigns_iff h1
  have inB := sameSigns_iff h2
  -- the whole face
  have hface : (k, (true, true, true)) ∈ (if sameSigns (sgn w1) (sgn u1) (sgn v1) then [(false, true, true, true)] else ([] : List (Bool × Pat))) ↔
      allowed left k (true, true, true) = true ∧ MeetOnce (Seg true k a b) (Open true true true p q r) := by
    cases k
    · rw [once_vertex a b p q r (true, true, true), ha, open_combo hn h1]
      have : allowed left false (true, true, true) = true := by cases left <;> rfl
      rw [this]
      by_cases hs : sameSigns (sgn w1) (sgn u1) (sgn v1) = true
      · rw [if_pos hs]
        have := inA.1 hs
        simp [Weight, this.1, this.2.1, this.2.2]
      · rw [if_neg hs]
        rw [inA] at hs
        simp [Weight]
        intro x1 x2; by_contra hc; exact hs ⟨x1, x2, not_le.1 hc⟩
    · constructor
      · intro h; split at h
        · simp at h
        · exact absurd h List.not_mem_nil
      · rintro ⟨_, h⟩
        exact absurd h (not_once h1 h2 ha hb hab (m := (true, true, true)) (by simp) (by simp) (by simp))
  -- nothing else is met when both ends are inside
  have hin : sameSigns (sgn w1) (sgn u1) (sgn v1) = true → sameSigns (sgn w2) (sgn u2) (sgn v2) = true → m ≠ (true, true, true) →
      ¬ MeetOnce (Seg true k a b) (Open m.1 m.2.1 m.2.2 p q r) := by
    intro hA hB hm
    rw [inA] at hA; rw [inB] at hB
    rintro ⟨x, ⟨⟨s, t, hst, rfl, hs, ht⟩, ho⟩, _⟩
    have hseg : seg s t a b = combo (s * u1 + t * u2) (s * v1 + t * v2) (s * w1 + t * w2) p q r := by
      rw [ha, hb]; apply p3_ext <;> simp only [seg, combo] <;> ring
    rw [hseg, open_combo hn (by linear_combination s * h1 + t * h2 + hst)] at ho
    have hs : 0 < s := by simpa [Weight] using hs
    have ht : 0 ≤ t := by
      cases k
      · exact (by simpa [Weight] using ht : t = 0).ge
      · exact (by simpa [Weight] using ht : 0 < t).le
    have p1 : 0 < s * u1 + t * u2 := by have := mul_pos hs hA.1; have := mul_nonneg ht hB.1.le; linarith
    have p2 : 0 < s * v1 + t * v2 := by have := mul_pos hs hA.2.1; have := mul_nonneg ht hB.2.1.le; linarith
    have p3 : 0 < s * w1 + t * w2 := by have := mul_pos hs hA.2.2; have := mul_nonneg ht hB.2.2.le; linarith
    obtain ⟨m0, m1, m2⟩ := m
    apply hm
    simp only [Weight] at ho
    cases m0 <;> cases m1 <;> cases m2 <;> simp_all
  unfold g2
  by_cases hAB : (sameSigns (sgn w1) (sgn u1) (sgn v1) && sameSigns (sgn w2) (sgn u2) (sgn v2)) = true
  · rw [if_pos hAB]
    rw [Bool.and_eq_true] at hAB
    by_cases hm : m = (true, true, true)
    · subst hm; exact hface
    · constructor
      · intro h
        rw [if_pos hAB.1] at h
        simp at h; exact absurd h.2 hm
      · rintro ⟨_, h⟩; exact absurd h (hin hAB.1 hAB.2 hm)
  · rw [if_neg hAB]
    simp only [List.mem_append]
    -- which part can contain the pattern
    have x0 : (k, m) ∈ (if sameSigns (sgn w1) (sgn u1) (sgn v1) then [(false, true, true, true)] else ([] : List (Bool × Pat))) → m = (true, true, true) := by
      intro h; split at h
      · simp at h; exact h.2
      · exact absurd h List.not_mem_nil
    have x1 : (k, m) ∈ gEE left (sgn (v1 * w2 - w1 * v2)) (sgn (w1 * u2 - u1 * w2)) (sgn w1) (sgn w2) (compareLex a p) (compareLex a q) → m.1 = true ∧ m.2.2 = false := fun h => gEE_shape h
    have x2 : ∀ (l : List (Bool × Pat)), (k, m) ∈ l.map emb1 ↔ (k, m.2.1, m.2.2, m.1) ∈ l := by
      intro l
      have : (k, m) = emb1 (k, m.2.1, m.2.2, m.1) := rfl
      rw [this]; exact List.mem_map_of_injective emb1_inj
    have x3 : ∀ (l : List (Bool × Pat)), (k, m) ∈ l.map emb2 ↔ (k, m.2.2, m.1, m.2.1) ∈ l := by
      intro l
      have : (k, m) = emb2 (k, m.2.2, m.1, m.2.1) := rfl
      rw [this]; exact List.mem_map_of_injective emb2_inj
    rw [x2, x3]
    obtain ⟨m0, m1, m2⟩ := m
    dsimp only at x0 x1 hin ⊢
    have y2 : (k, m1, m2, m0) ∈ gEE left (sgn (w1 * u2 - u1 * w2)) (sgn (u1 * v2 - v1 * u2)) (sgn u1) (sgn u2) (compareLex a q) (compareLex a r) → m1 = true ∧ m0 = false := fun h => gEE_shape h
    have y3 : (k, m2, m0, m1) ∈ gEE left (sgn (u1 * v2 - v1 * u2)) (sgn (v1 * w2 - w1 * v2)) (sgn v1) (sgn v2) (compareLex a r) (compareLex a p) → m2 = true ∧ m1 = false := fun h => gEE_shape h
    have nomem : allowed left k (false, false, false) = false := by cases left <;> cases k <;> rfl
    have z : ∀ m1, ((k, true, m1, false) ∈ gEE left (sgn (w1 * u2 - u1 * w2)) (sgn (u1 * v2 - v1 * u2)) (sgn u1) (sgn u2) (compareLex a q) (compareLex a r)) ↔
        allowed left k (false, true, m1) = true ∧ MeetOnce (Seg true k a b) (Open false true m1 p q r) := by intro m1; rw [e2, c2, r2]
    have z' : ∀ m1, ((k, true, m1, false) ∈ gEE left (sgn (u1 * v2 - v1 * u2)) (sgn (v1 * w2 - w1 * v2)) (sgn v1) (sgn v2) (compareLex a r) (compareLex a p)) ↔
        allowed left k (m1, false, true) = true ∧ MeetOnce (Seg true k a b) (Open m1 false true p q r) := by intro m1; rw [e3, c3, r3]
    cases m0 <;> cases m1 <;> cases m2
    · simp only [nomem, Bool.false_eq_true, false_and, iff_false]
      rintro (((h | h) | h) | h)
      · exact absurd (x0 h) (by decide)
      · exact absurd (x1 h).1 (by decide)
      · exact absurd (y2 h).1 (by decide)
      · exact absurd (y3 h).1 (by decide)
    · rw [← z' false]
      constructor
      · rintro (((h | h) | h) | h)
        · exact absurd (x0 h) (by decide)
        · exact absurd (x1 h).1 (by decide)
        · exact absurd (y2 h).1 (by decide)
        · exact h
      · exact fun h => Or.inr h
    · rw [← z false]
      constructor
      · rintro (((h | h) | h) | h)
        · exact absurd (x0 h) (by decide)
        · exact absurd (x1 h).1 (by decide)
        · exact h
        · exact absurd (y3 h).1 (by decide)
      · exact fun h => Or.inl (Or.inr h)
    · rw [← z true]
      constructor
      · rintro (((h | h) | h) | h)
        · exact absurd (x0 h) (by decide)
        · exact absurd (x1 h).1 (by decide)
        · exact h
        · exact absurd (y3 h).2 (by decide)
      · exact fun h => Or.inl (Or.inr h)
    · rw [← e1 false]
      constructor
      · rintro (((h | h) | h) | h)
        · exact absurd (x0 h) (by decide)
        · exact h
        · exact absurd (y2 h).1 (by decide)
        · exact absurd (y3 h).1 (by decide)
      · exact fun h => Or.inl (Or.inl (Or.inr h))
    · rw [← z' true]
      constructor
      · rintro (((h | h) | h) | h)
        · exact absurd (x0 h) (by decide)
        · exact absurd (x1 h).2 (by decide)
        · exact absurd (y2 h).1 (by decide)
        · exact h
      · exact fun h => Or.inr h
    · rw [← e1 true]
      constructor
      · rintro (((h | h) | h) | h)
        · exact absurd (x0 h) (by decide)
        · exact h
        · exact absurd (y2 h).2 (by decide)
        · exact absurd (y3 h).1 (by decide)
      · exact fun h => Or.inl (Or.inl (Or.inr h))
    · rw [← hface]
      constructor
      · rintro (((h | h) | h) | h)
        · exact h
        · exact absurd (x1 h).2 (by decide)
        · exact absurd (y2 h).2 (by decide)
        · exact absurd (y3 h).2 (by decide)
      · exact fun h => Or.inl (Or.inl (Or.inl h))

/-- All cases of `edge_face_intersection` as a function of the points. -/
def gEF (left : Bool) (a b p q r : P3) : List (Bool × Pat) :=
  if sgn (det4 a p q r) * sgn (det4 b p q r) > 0 then []
  else if sgn (det4 a p q r) = 0 ∧ sgn (det4 b p q r) = 0 then
    g2 left (coplanarOrientation a p q) (coplanarOrientation a q r) (coplanarOrientation a r p)
      (coplanarOrientation b p q) (coplanarOrientation b q r) (coplanarOrientation b r p)
      (coplanarOrientation a b p) (coplanarOrientation a b q) (coplanarOrientation a b r) (compareLex a p) (compareLex a q) (compareLex a r)
  else g3 left (sgn (det4 a p q r)) (sgn (det4 b p q r)) (sgn (det4 a b p q)) (sgn (det4 a b q r)) (sgn (det4 a b r p))

theorem gEF_nodup (left : Bool) (a b p q r : P3) : (gEF left a b p q r).Nodup := by
  unfold gEF; split
  · exact List.nodup_nil
  · split
    · exact g2_nodup _ _ _ _ _ _ _ _ _ _ _ _ _
    · exact g3_nodup _ _ _ _ _ _

/-- **One call**: exactly the pairs that meet in one point, of those this call is responsible for. -/
theorem gEF_spec (hn : dot (normal p q r) (normal p q r) ≠ 0) (left : Bool) {a b : P3} (hab : a ≠ b) (k : Bool) (m : Pat) :
    (k, m) ∈ gEF left a b p q r ↔ allowed left k m = true ∧ MeetOnce (Seg true k a b) (Open m.1 m.2.1 m.2.2 p q r) := by
  unfold gEF
  by_cases h : sgn (det4 a p q r) * sgn (det4 b p q r) > 0
  · rw [if_pos h]
    simp only [List.not_mem_nil, false_iff]
    rintro ⟨_, hm⟩; exact same_side h k m hm
  · rw [if_neg h]
    by_cases h0 : sgn (det4 a p q r) = 0 ∧ sgn (det4 b p q r) = 0
    · rw [if_pos h0]
      rw [sgn_zero, sgn_zero] at h0
      obtain ⟨u1, v1, w1, h1, ha⟩ := plane_weights hn h0.1
      obtain ⟨u2, v2, w2, h2, hb⟩ := plane_weights hn h0.2
      rw [← g2_spec hn left h1 h2 ha hb hab k m]
      have oo := fun {x1 y1 z1 x2 y2 z2 x3 y3 z3 : ℚ} (i1 : x1 + y1 + z1 = 1) (i2 : x2 + y2 + z2 = 1) (i3 : x3 + y3 + z3 = 1) => orientation_combo i1 i2 i3 p q r
      have i100 : (1 : ℚ) + 0 + 0 = 1 := by norm_num
      have i010 : (0 : ℚ) + 1 + 0 = 1 := by norm_num
      have i001 : (0 : ℚ) + 0 + 1 = 1 := by norm_num
      have o1 : coplanarOrientation a p q = sgn (w1) * coplanarOrientation p q r := by
        have t := oo h1 i100 i010
        rw [← ha, combo_p, combo_q] at t
        rw [t]; congr 2; ring
      have o2 : coplanarOrientation a q r = sgn (u1) * coplanarOrientation p q r := by
        have t := oo h1 i010 i001
        rw [← ha, combo_q, combo_r] at t
        rw [t]; congr 2; ring
      have o3 : coplanarOrientation a r p = sgn (v1) * coplanarOrientation p q r := by
        have t := oo h1 i001 i100
        rw [← ha, combo_r, combo_p] at t
        rw [t]; congr 2; ring
      have o4 : coplanarOrientation b p q = sgn (w2) * coplanarOrientation p q r := by
        have t := oo h2 i100 i010
        rw [← hb, combo_p, combo_q] at t
        rw [t]; congr 2; ring
      have o5 : coplanarOrientation b q r = sgn (u2) * coplanarOrientation p q r := by
        have t := oo h2 i010 i001
        rw [← hb, combo_q, combo_r] at t
        rw [t]; congr 2; ring
      have o6 : coplanarOrientation b r p = sgn (v2) * coplanarOrientation p q r := by
        have t := oo h2 i001 i100
        rw [← hb, combo_r, combo_p] at t
        rw [t]; congr 2; ring
      have o7 : coplanarOrientation a b p = sgn (v1 * w2 - w1 * v2) * coplanarOrientation p q r := by
        have t := oo h1 h2 i100
        rw [← ha, ← hb, combo_p] at t
        rw [t]; congr 2; ring
      have o8 : coplanarOrientation a b q = sgn (w1 * u2 - u1 * w2) * coplanarOrientation p q r := by
        have t := oo h1 h2 i010
        rw [← ha, ← hb, combo_q] at t
        rw [t]; congr 2; ring
      have o9 : coplanarOrientation a b r = sgn (u1 * v2 - v1 * u2) * coplanarOrientation p q r := by
        have t := oo h1 h2 i001
        rw [← ha, ← hb, combo_r] at t
        rw [t]; congr 2; ring
      rw [o1, o2, o3, o4, o5, o6, o7, o8, o9]
      rcases orientation_ne hn with hs | hs
      · rw [hs]; simp only [mul_one]
      · rw [hs]; simp only [mul_neg, mul_one, g2_neg]
    · rw [if_neg h0]
      exact g3_spec left h0 (not_lt.1 h) k m

end Kigumi.FaceFace

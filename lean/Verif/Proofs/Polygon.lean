import Verif.Proofs.FaceFaceHits

/-!
# Convex polygons in homogeneous coordinates

Points are triples with sum 1, half-planes are linear functionals (also triples).
-/
namespace Kigumi.Polygon
open Kigumi Geo FaceFace Spec.Triangles

/-- Sum of the coordinates. -/
def total (X : P3) : ℚ := X.x + X.y + X.z

theorem dot_move (g X D : P3) (t : ℚ) : dot g (move X D t) = dot g X + t * dot g D := by simp only [dot, move]; ring
theorem total_move (X D : P3) (t : ℚ) : total (move X D t) = total X + t * total D := by simp only [total, move]; ring
theorem dot_sub (g X Y : P3) : dot g (sub X Y) = dot g X - dot g Y := by simp only [dot, sub]; ring
theorem total_sub (X Y : P3) : total (sub X Y) = total X - total Y := by simp only [total, sub]; ring

variable (G : List P3)

/-- The polygon. -/
def Pos (X : P3) : Prop := total X = 1 ∧ ∀ g ∈ G, 0 ≤ dot g X

/-- The coordinates are among the functionals: the polygon is bounded. -/
def Bounded : Prop := ⟨1, 0, 0⟩ ∈ G ∧ ⟨0, 1, 0⟩ ∈ G ∧ ⟨0, 0, 1⟩ ∈ G

def Zero (D : P3) : Prop := D.x = 0 ∧ D.y = 0 ∧ D.z = 0

/-- A corner: not the middle of two points of the polygon. -/
def Extreme (X : P3) : Prop := Pos G X ∧ ∀ D, total D = 0 → Pos G (move X D 1) → Pos G (move X D (-1)) → Zero D

variable {G}

theorem pos_between {X D : P3} {s t u : ℚ} (h1 : Pos G (move X D s)) (h2 : Pos G (move X D u)) (hs : s ≤ t) (hu : t ≤ u) : Pos G (move X D t) := by
  by_cases hsu : s = u
  · have : t = s := le_antisymm (hsu ▸ hu) hs
    subst this; exact h1
  have hlt : 0 < u - s := by
    have : s < u := lt_of_le_of_ne (hs.trans hu) hsu
    linarith
  obtain ⟨a1, b1⟩ := h1
  obtain ⟨a2, b2⟩ := h2
  rw [total_move] at a1 a2
  have hD : total D = 0 := by
    have : (u - s) * total D = 0 := by linarith
    exact (mul_eq_zero.1 this).resolve_left hlt.ne'
  refine ⟨by rw [total_move, hD]; rw [hD] at a1; linarith, fun g hg => ?_⟩
  have c1 := b1 g hg; have c2 := b2 g hg
  rw [dot_move] at c1 c2 ⊢
  have e : (u - s) * (dot g X + t * dot g D) = (u - t) * (dot g X + s * dot g D) + (t - s) * (dot g X + u * dot g D) := by ring
  have : 0 ≤ (u - s) * (dot g X + t * dot g D) := by
    rw [e]; exact add_nonneg (mul_nonneg (by linarith) c1) (mul_nonneg (by linarith) c2)
  exact nonneg_of_mul_nonneg_right this hlt

/-- A point strictly between two different points of the polygon is not a corner. -/
theorem not_extreme {X D : P3} {s u : ℚ} (h1 : Pos G (move X D s)) (h2 : Pos G (move X D u)) (hs : s < 0) (hu : 0 < u) (hD : ¬ Zero D) : ¬ Extreme G X := by
  intro hX
  have hp : 0 < min (-s) u := lt_min (by linarith) hu
  have m1 : min (-s) u ≤ -s := min_le_left _ _
  have m2 : min (-s) u ≤ u := min_le_right _ _
  generalize min (-s) u = e at *
  have hmove : ∀ t, move X ⟨e * D.x, e * D.y, e * D.z⟩ t = move X D (t * e) := by
    intro t; simp only [move]; apply p3_ext <;> simp only <;> ring
  have hz := hX.2 ⟨e * D.x, e * D.y, e * D.z⟩ ?_ ?_ ?_
  · apply hD
    exact ⟨(mul_eq_zero.1 hz.1).resolve_left hp.ne', (mul_eq_zero.1 hz.2.1).resolve_left hp.ne', (mul_eq_zero.1 hz.2.2).resolve_left hp.ne'⟩
  · have a1 := h1.1; have a2 := h2.1
    rw [total_move] at a1 a2
    have : (u - s) * total D = 0 := by linarith
    have : total D = 0 := (mul_eq_zero.1 this).resolve_left (by linarith)
    simp only [total] at this ⊢
    linear_combination e * this
  · rw [hmove]; exact pos_between h1 h2 (by linarith) (by linarith)
  · rw [hmove]; exact pos_between h1 h2 (by linarith) (by linarith)

/-- Orientation of three points. -/
def o (X Y Z : P3) : ℚ := dot X (cross Y Z)

theorem o_swap (X Y Z : P3) : o X Z Y = - o X Y Z := by simp only [o, dot, cross]; ring
theorem o_rot (X Y Z : P3) : o Y Z X = o X Y Z := by simp only [o, dot, cross]; ring
theorem o_same (X Y : P3) : o X Y Y = 0 := by simp only [o, dot, cross]; ring
theorem o_same' (X Y : P3) : o X X Y = 0 := by simp only [o, dot, cross]; ring
theorem o_same'' (X Y : P3) : o X Y X = 0 := by simp only [o, dot, cross]; ring

/-- Cramer's rule for a functional. -/
theorem cramer (g X Y Z W : P3) : o X Y Z * dot g W = o W Y Z * dot g X + o X W Z * dot g Y + o X Y W * dot g Z := by
  simp only [o, dot, cross]; ring

theorem move_sub (X Y : P3) : move X (sub Y X) 1 = Y := by apply p3_ext <;> simp only [move, sub] <;> ring
theorem move_zero (X D : P3) : move X D 0 = X := by apply p3_ext <;> simp only [move] <;> ring

theorem zero_sub_iff {X Y : P3} : Zero (sub X Y) ↔ X = Y := by
  constructor
  · rintro ⟨h1, h2, h3⟩; simp only [sub] at h1 h2 h3; exact p3_ext (by linarith) (by linarith) (by linarith)
  · rintro rfl; simp [Zero, sub]

/-- Points on a line are multiples. -/
theorem collinear_move {X Y Z : P3} (hX : total X = 1) (hY : total Y = 1) (hZ : total Z = 1) (hne : X ≠ Y) (h : o X Y Z = 0) : ∃ t, Z = move X (sub Y X) t := by
  simp only [total] at hX hY hZ
  have hz : ∀ W : P3, W.x + W.y + W.z = 1 → W.z = 1 - W.x - W.y := fun W h => by linarith
  have e : (Y.x - X.x) * (Z.y - X.y) - (Y.y - X.y) * (Z.x - X.x) = 0 := by
    rw [← h]; simp only [o, dot, cross]; rw [hz X hX, hz Y hY, hz Z hZ]; ring
  by_cases hx : Y.x - X.x = 0
  · have hy : Y.y - X.y ≠ 0 := by
      intro hy; apply hne
      exact p3_ext (by linarith) (by linarith) (by linarith)
    refine ⟨(Z.y - X.y) / (Y.y - X.y), ?_⟩
    have e1 : Z.x - X.x = 0 := by
      have : (Y.y - X.y) * (Z.x - X.x) = 0 := by rw [hx] at e; linarith
      exact (mul_eq_zero.1 this).resolve_left hy
    have e2 : (Z.y - X.y) / (Y.y - X.y) * (Y.y - X.y) = Z.y - X.y := div_mul_cancel₀ _ hy
    apply p3_ext <;> simp only [move, sub]
    · rw [hx]; linarith
    · linarith
    · rw [hz X hX, hz Y hY, hz Z hZ]; linear_combination -e1 + e2 + ((Z.y - X.y) / (Y.y - X.y)) * hx
  · refine ⟨(Z.x - X.x) / (Y.x - X.x), ?_⟩
    have e1 : (Z.x - X.x) / (Y.x - X.x) * (Y.x - X.x) = Z.x - X.x := div_mul_cancel₀ _ hx
    have e2 : (Z.x - X.x) / (Y.x - X.x) * (Y.y - X.y) = Z.y - X.y := by
      rw [div_mul_eq_mul_div, div_eq_iff hx]; linarith
    apply p3_ext <;> simp only [move, sub]
    · linarith
    · linarith
    · rw [hz X hX, hz Y hY, hz Z hZ]; linear_combination e1 + e2

/-- Three corners are not on a line. -/
theorem extreme_noncollinear {X Y Z : P3} (hX : Extreme G X) (hY : Extreme G Y) (hZ : Extreme G Z) (h1 : X ≠ Y) (h2 : X ≠ Z) (h3 : Y ≠ Z) : o X Y Z ≠ 0 := by
  intro h
  obtain ⟨t, ht⟩ := collinear_move hX.1.1 hY.1.1 hZ.1.1 h1 h
  have hD : ¬ Zero (sub Y X) := fun h => h1 (zero_sub_iff.1 h).symm
  have pX : Pos G (move X (sub Y X) 0) := by rw [move_zero]; exact hX.1
  have pY : Pos G (move X (sub Y X) 1) := by rw [move_sub]; exact hY.1
  have pZ : Pos G (move X (sub Y X) t) := by rw [← ht]; exact hZ.1
  have sh : ∀ s u, move (move X (sub Y X) s) (sub Y X) u = move X (sub Y X) (s + u) := by
    intro s u; apply p3_ext <;> simp only [move] <;> ring
  rcases lt_trichotomy t 0 with h0 | h0 | h0
  · exact not_extreme pZ pY h0 one_pos hD hX
  · rw [h0, move_zero] at ht; exact h2 ht.symm
  · rcases lt_trichotomy t 1 with h4 | h4 | h4
    · refine not_extreme (X := Z) (D := sub Y X) (s := -t) (u := 1 - t) ?_ ?_ (by linarith) (by linarith) hD hZ
      · rw [ht, sh]; have : t + -t = 0 := by ring
        rw [this]; exact pX
      · rw [ht, sh]; have : t + (1 - t) = 1 := by ring
        rw [this]; exact pY
    · rw [h4, move_sub] at ht; exact h3 ht.symm
    · refine not_extreme (X := Y) (D := sub Y X) (s := -1) (u := t - 1) ?_ ?_ (by linarith) (by linarith) hD hY
      · have : move Y (sub Y X) (-1) = move X (sub Y X) 0 := by
          apply p3_ext <;> simp only [move, sub] <;> ring
        rw [this]; exact pX
      · have : move Y (sub Y X) (t - 1) = move X (sub Y X) t := by
          apply p3_ext <;> simp only [move, sub] <;> ring
        rw [this]; exact pZ

/-- Moving until the first functional becomes zero. -/
theorem first_hit (X D : P3) : ∀ (G : List P3), (∀ g ∈ G, 0 ≤ dot g X) → (∀ g ∈ G, dot g X = 0 → dot g D = 0) → (∃ g ∈ G, dot g D < 0) →
    ∃ t > 0, (∀ g ∈ G, 0 ≤ dot g X + t * dot g D) ∧ ∃ g ∈ G, 0 < dot g X ∧ dot g X + t * dot g D = 0 := by
  intro G
  induction G with
  | nil => rintro _ _ ⟨g, hg, _⟩; exact absurd hg List.not_mem_nil
  | cons g G ih =>
    intro h1 h2 h3
    have p1 := h1 g List.mem_cons_self
    have p2 := h2 g List.mem_cons_self
    have q1 := fun g' (h : g' ∈ G) => h1 g' (List.mem_cons_of_mem _ h)
    have q2 := fun g' (h : g' ∈ G) => h2 g' (List.mem_cons_of_mem _ h)
    by_cases hex : ∃ g ∈ G, dot g D < 0
    · obtain ⟨t, ht, a, g1, hg1, b1, b2⟩ := ih q1 q2 hex
      by_cases hok : 0 ≤ dot g X + t * dot g D
      · refine ⟨t, ht, ?_, g1, List.mem_cons_of_mem _ hg1, b1, b2⟩
        intro g' hg'
        rcases List.mem_cons.1 hg' with rfl | hg'
        · exact hok
        · exact a g' hg'
      · -- the new functional is hit earlier
        have hneg : dot g D < 0 := by
          by_contra hc
          have := mul_nonneg ht.le (not_lt.1 hc)
          exact hok (by linarith)
        have hpos : 0 < dot g X := lt_of_le_of_ne p1 (fun h => hneg.ne (p2 h.symm))
        let t' := dot g X / (- dot g D)
        have ht' : 0 < t' := div_pos hpos (by linarith)
        have e : t' * (- dot g D) = dot g X := div_mul_cancel₀ _ (by linarith)
        have hle : t' < t := by
          by_contra hc
          apply hok
          have : t * (- dot g D) ≤ t' * (- dot g D) := mul_le_mul_of_nonneg_right (not_lt.1 hc) (by linarith)
          linarith
        refine ⟨t', ht', ?_, g, List.mem_cons_self, hpos, by linarith⟩
        intro g' hg'
        rcases List.mem_cons.1 hg' with rfl | hg'
        · linarith
        · have c1 := a g' hg'
          have c0 := q1 g' hg'
          -- between 0 and t
          have : 0 ≤ t * (dot g' X + t' * dot g' D) := by
            have : t * (dot g' X + t' * dot g' D) = (t - t') * dot g' X + t' * (dot g' X + t * dot g' D) := by ring
            rw [this]; exact add_nonneg (mul_nonneg (by linarith) c0) (mul_nonneg ht'.le c1)
          exact nonneg_of_mul_nonneg_right this ht
    · have hneg : dot g D < 0 := by
        obtain ⟨g', hg', h⟩ := h3
        rcases List.mem_cons.1 hg' with rfl | hg'
        · exact h
        · exact absurd ⟨g', hg', h⟩ hex
      have hpos : 0 < dot g X := lt_of_le_of_ne p1 (fun h => hneg.ne (p2 h.symm))
      have ht' : 0 < dot g X / (- dot g D) := div_pos hpos (by linarith)
      have e : dot g X / (- dot g D) * (- dot g D) = dot g X := div_mul_cancel₀ _ (by linarith)
      refine ⟨_, ht', ?_, g, List.mem_cons_self, hpos, by linarith⟩
      intro g' hg'
      rcases List.mem_cons.1 hg' with rfl | hg'
      · linarith
      · have : 0 ≤ dot g' D := by
          by_contra hc; exact hex ⟨g', hg', not_le.1 hc⟩
        have := mul_nonneg ht'.le this
        have := q1 g' hg'
        linarith

/-- Number of functionals that are positive. -/
def slack (G : List P3) (X : P3) : Nat := (G.filter (fun g => decide (0 < dot g X))).length

theorem slack_lt {X Y : P3} (h1 : ∀ g ∈ G, 0 < dot g Y → 0 < dot g X) (h2 : ∃ g ∈ G, 0 < dot g X ∧ ¬ 0 < dot g Y) : slack G Y < slack G X := by
  unfold slack
  induction G with
  | nil => obtain ⟨g, hg, _⟩ := h2; exact absurd hg List.not_mem_nil
  | cons g G ih =>
    have q1 := fun g' (h : g' ∈ G) => h1 g' (List.mem_cons_of_mem _ h)
    have p1 := h1 g List.mem_cons_self
    have hle : (G.filter (fun g => decide (0 < dot g Y))).length ≤ (G.filter (fun g => decide (0 < dot g X))).length := by
      clear ih h2 h1 p1
      induction G with
      | nil => exact Nat.le_refl _
      | cons g' G ih =>
        have := ih (fun g'' h => q1 g'' (List.mem_cons_of_mem _ h))
        have p1 := q1 g' List.mem_cons_self
        rw [List.filter_cons, List.filter_cons]
        by_cases a : 0 < dot g' Y
        · simp only [a, p1 a, decide_true, if_true, List.length_cons]; omega
        · simp only [a, decide_false, Bool.false_eq_true, if_false]
          split
          · rw [List.length_cons]; omega
          · exact this
    rw [List.filter_cons, List.filter_cons]
    by_cases a : 0 < dot g Y
    · simp only [a, p1 a, decide_true, if_true, List.length_cons]
      have := ih q1 (by
        obtain ⟨g', hg', h⟩ := h2
        rcases List.mem_cons.1 hg' with rfl | hg'
        · exact absurd a h.2
        · exact ⟨g', hg', h⟩)
      omega
    · simp only [a, decide_false, Bool.false_eq_true, if_false]
      by_cases b : 0 < dot g X
      · simp only [b, decide_true, if_true, List.length_cons]; omega
      · simp only [b, decide_false, Bool.false_eq_true, if_false]
        exact ih q1 (by
          obtain ⟨g', hg', h⟩ := h2
          rcases List.mem_cons.1 hg' with rfl | hg'
          · exact absurd h.1 b
          · exact ⟨g', hg', h⟩)

/-- **Every functional is minimised at a corner.** -/
theorem descent (hb : Bounded G) (h : P3) : ∀ (n : Nat) (X : P3), slack G X = n → Pos G X → ∃ Z, Extreme G Z ∧ dot h Z ≤ dot h X := by
  intro n
  induction n using Nat.strongRecOn with
  | _ n ih =>
    intro X hn hX
    by_cases hext : Extreme G X
    · exact ⟨X, hext, le_refl _⟩
    · have : ∃ D, total D = 0 ∧ Pos G (move X D 1) ∧ Pos G (move X D (-1)) ∧ ¬ Zero D := by
        by_contra hc
        apply hext
        refine ⟨hX, fun D h1 h2 h3 => ?_⟩
        by_contra h4; exact hc ⟨D, h1, h2, h3, h4⟩
      have : ∃ D, total D = 0 ∧ Pos G (move X D 1) ∧ Pos G (move X D (-1)) ∧ ¬ Zero D ∧ dot h D ≤ 0 := by
        obtain ⟨D, h1, h2, h3, h4⟩ := this
        by_cases hs : dot h D ≤ 0
        · exact ⟨D, h1, h2, h3, h4, hs⟩
        · have hm : ∀ t, move X ⟨-D.x, -D.y, -D.z⟩ t = move X D (-t) := by
            intro t; apply p3_ext <;> simp only [move] <;> ring
          refine ⟨⟨-D.x, -D.y, -D.z⟩, ?_, ?_, ?_, ?_, ?_⟩
          · simp only [total] at h1 ⊢; linarith
          · rw [hm]; exact h3
          · rw [hm, neg_neg]; exact h2
          · rintro ⟨a, b, c⟩; exact h4 ⟨by linarith [neg_eq_zero.1 a], by linarith [neg_eq_zero.1 b], by linarith [neg_eq_zero.1 c]⟩
          · have : dot h ⟨-D.x, -D.y, -D.z⟩ = - dot h D := by simp only [dot]; ring
            rw [this]; linarith
      obtain ⟨D, h1, h2, h3, h4, h5⟩ := this
      have z : ∀ g ∈ G, dot g X = 0 → dot g D = 0 := by
        intro g hg e
        have a := h2.2 g hg; have b := h3.2 g hg
        rw [dot_move, e] at a b; linarith
      have hneg : ∃ g ∈ G, dot g D < 0 := by
        by_contra hc; push Not at hc
        have a := hc _ hb.1; have b := hc _ hb.2.1; have c := hc _ hb.2.2
        simp only [dot, total] at a b c h1
        apply h4
        exact ⟨by linarith, by linarith, by linarith⟩
      obtain ⟨t, ht, a, g, hg, b1, b2⟩ := first_hit X D G hX.2 z hneg
      have hP : Pos G (move X D t) := ⟨by rw [total_move, h1, hX.1]; ring, fun g hg => by rw [dot_move]; exact a g hg⟩
      have hlt : slack G (move X D t) < n := by
        rw [← hn]
        refine slack_lt (fun g hg hpos => ?_) ⟨g, hg, b1, by rw [dot_move, b2]; exact lt_irrefl _⟩
        rw [dot_move] at hpos
        refine lt_of_le_of_ne (hX.2 g hg) (fun e => ?_)
        rw [← e, z g hg e.symm] at hpos; simp at hpos
      obtain ⟨Z, hZ, hle⟩ := ih _ hlt _ rfl hP
      refine ⟨Z, hZ, hle.trans ?_⟩
      rw [dot_move]
      have := mul_nonneg ht.le (by linarith : 0 ≤ - dot h D)
      linarith

end Kigumi.Polygon

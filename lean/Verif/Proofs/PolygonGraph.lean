import Verif.Proofs.Polygon
import Mathlib.Algebra.Order.Ring.Abs
import Mathlib.Data.List.Perm.Subperm

/-! # The corners of a convex polygon form a cycle -/
namespace Kigumi.Polygon
open Kigumi Geo FaceFace Spec.Triangles

variable {G : List P3}

/-- There is room for a small step both ways. -/
theorem room (X D : P3) : ∀ (G : List P3), (∀ g ∈ G, 0 ≤ dot g X) → (∀ g ∈ G, dot g X = 0 → dot g D = 0) →
    ∃ e > 0, ∀ t, -e ≤ t → t ≤ e → ∀ g ∈ G, 0 ≤ dot g X + t * dot g D := by
  intro G
  induction G with
  | nil => intro _ _; exact ⟨1, one_pos, fun _ _ _ g hg => absurd hg List.not_mem_nil⟩
  | cons g G ih =>
    intro h1 h2
    obtain ⟨e, he, f⟩ := ih (fun g' h => h1 g' (List.mem_cons_of_mem _ h)) (fun g' h => h2 g' (List.mem_cons_of_mem _ h))
    have p1 := h1 g List.mem_cons_self
    have p2 := h2 g List.mem_cons_self
    by_cases hz : dot g X = 0
    · refine ⟨e, he, fun t a b g' hg' => ?_⟩
      rcases List.mem_cons.1 hg' with rfl | hg'
      · rw [hz, p2 hz]; simp
      · exact f t a b g' hg'
    · have hpos : 0 < dot g X := lt_of_le_of_ne p1 (Ne.symm hz)
      have hk : 0 < |dot g D| + 1 := by positivity
      have he' : 0 < dot g X / (|dot g D| + 1) := div_pos hpos hk
      have hm : dot g X / (|dot g D| + 1) * (|dot g D| + 1) = dot g X := div_mul_cancel₀ _ hk.ne'
      refine ⟨min e (dot g X / (|dot g D| + 1)), lt_min he he', fun t a b g' hg' => ?_⟩
      rcases List.mem_cons.1 hg' with rfl | hg'
      · have a' : -(dot g' X / (|dot g' D| + 1)) ≤ t := by have := min_le_right e (dot g' X / (|dot g' D| + 1)); linarith
        have b' : t ≤ dot g' X / (|dot g' D| + 1) := b.trans (min_le_right _ _)
        have habs : |t| ≤ dot g' X / (|dot g' D| + 1) := abs_le.2 ⟨a', b'⟩
        have h3 : |t * dot g' D| ≤ dot g' X := by
          rw [abs_mul]
          calc |t| * |dot g' D| ≤ dot g' X / (|dot g' D| + 1) * (|dot g' D| + 1) := mul_le_mul habs (by linarith) (abs_nonneg _) he'.le
            _ = _ := hm
        have := (abs_le.1 h3).1
        linarith
      · exact f t (by have := min_le_left e (dot g X / (|dot g D| + 1)); linarith) (b.trans (min_le_left _ _)) g' hg'

/-- Sum of functionals. -/
def sumv : List P3 → P3
  | [] => ⟨0, 0, 0⟩
  | g :: G => ⟨g.x + (sumv G).x, g.y + (sumv G).y, g.z + (sumv G).z⟩

theorem dot_sumv (g : P3) (G : List P3) (X : P3) : dot (sumv (g :: G)) X = dot g X + dot (sumv G) X := by simp only [sumv, dot]; ring

theorem sumv_nonneg {X : P3} : ∀ (G : List P3), (∀ g ∈ G, 0 ≤ dot g X) → 0 ≤ dot (sumv G) X ∧ (dot (sumv G) X = 0 → ∀ g ∈ G, dot g X = 0) := by
  intro G
  induction G with
  | nil => intro _; exact ⟨by simp [sumv, dot], fun _ g hg => absurd hg List.not_mem_nil⟩
  | cons g G ih =>
    intro h
    obtain ⟨a, b⟩ := ih (fun g' h' => h g' (List.mem_cons_of_mem _ h'))
    have p := h g List.mem_cons_self
    rw [dot_sumv]
    refine ⟨by linarith, fun e g' hg' => ?_⟩
    rcases List.mem_cons.1 hg' with rfl | hg'
    · linarith
    · exact b (by linarith) g' hg'

theorem sumv_zero {X : P3} : ∀ (G : List P3), (∀ g ∈ G, dot g X = 0) → dot (sumv G) X = 0 := by
  intro G
  induction G with
  | nil => intro _; simp [sumv, dot]
  | cons g G ih => intro h; rw [dot_sumv, h g List.mem_cons_self, ih (fun g' h' => h g' (List.mem_cons_of_mem _ h'))]; ring

/-- A functional that is zero at a corner only. -/
theorem exposed {X : P3} (hX : Extreme G X) : ∃ h, dot h X = 0 ∧ ∀ Y, Pos G Y → Y ≠ X → 0 < dot h Y := by
  let T := G.filter (fun g => decide (dot g X = 0))
  have hT : ∀ g, g ∈ T ↔ g ∈ G ∧ dot g X = 0 := by intro g; simp [T, List.mem_filter]
  refine ⟨sumv T, sumv_zero T (fun g hg => ((hT g).1 hg).2), fun Y hY hne => ?_⟩
  obtain ⟨a, b⟩ := sumv_nonneg (X := Y) T (fun g hg => hY.2 g ((hT g).1 hg).1)
  refine lt_of_le_of_ne a (fun e => hne ?_)
  have hz := b e.symm
  obtain ⟨e, he, f⟩ := room X (sub Y X) G hX.1.2 (fun g hg h0 => by rw [dot_sub, hz g ((hT g).2 ⟨hg, h0⟩), h0]; ring)
  have hp : ∀ t, -e ≤ t → t ≤ e → Pos G (move X (sub Y X) t) := fun t h1 h2 =>
    ⟨by rw [total_move, total_sub, hX.1.1, hY.1]; ring, fun g hg => by rw [dot_move]; exact f t h1 h2 g hg⟩
  by_contra hne
  exact not_extreme (hp (-e) (le_refl _) (by linarith)) (hp e (by linarith) (le_refl _)) (by linarith) he (fun h => hne (zero_sub_iff.1 h)) hX

/-- The corners of a polygon given by the half-planes `G'`. -/
structure Corners (G G' cs : List P3) : Prop where
  bounded : Bounded G
  sub : ∀ g ∈ G', g ∈ G
  rest : ∀ g ∈ G, g ∈ G' ∨ Zero g
  nonzero : ∀ g ∈ G', ¬ Zero g
  mem : ∀ X, X ∈ cs ↔ Extreme G X

/-- Two corners on the border of the same half-plane. -/
def Adj (G' : List P3) (X Y : P3) : Prop := ∃ g ∈ G', dot g X = 0 ∧ dot g Y = 0

theorem Adj.symm {G' : List P3} {X Y : P3} (h : Adj G' X Y) : Adj G' Y X := by
  obtain ⟨g, hg, a, b⟩ := h; exact ⟨g, hg, b, a⟩

variable {G' cs : List P3}

/-- At most two corners on a border line. -/
theorem tight_two (H : Corners G G' cs) {g X Y Z : P3} (hg : g ∈ G') (hX : X ∈ cs) (hY : Y ∈ cs) (hZ : Z ∈ cs) (h1 : X ≠ Y) (h2 : X ≠ Z) (h3 : Y ≠ Z)
    (a : dot g X = 0) (b : dot g Y = 0) (c : dot g Z = 0) : False := by
  have ho := extreme_noncollinear ((H.mem X).1 hX) ((H.mem Y).1 hY) ((H.mem Z).1 hZ) h1 h2 h3
  have hw : ∀ W, dot g W = 0 := by
    intro W
    have := cramer g X Y Z W
    rw [a, b, c] at this
    exact (mul_eq_zero.1 (by linarith)).resolve_left ho
  apply H.nonzero g hg
  have e1 := hw ⟨1, 0, 0⟩; have e2 := hw ⟨0, 1, 0⟩; have e3 := hw ⟨0, 0, 1⟩
  simp only [dot] at e1 e2 e3
  exact ⟨by linarith, by linarith, by linarith⟩

/-- Two corners with all others on one side are on a common border line. -/
theorem adj_of_side (H : Corners G G' cs) {h X Y W : P3} (hX : X ∈ cs) (hY : Y ∈ cs) (hW : W ∈ cs) (h0 : dot h X = 0) (h1 : dot h Y = 0) (h2 : 0 < dot h W) (h3 : ∀ Z ∈ cs, 0 ≤ dot h Z) : Adj G' X Y := by
  by_contra hadj
  have eX := (H.mem X).1 hX; have eY := (H.mem Y).1 hY; have eW := (H.mem W).1 hW
  have hm : ∀ g, dot g (move X (Geo.sub Y X) (1 / 2)) = (dot g X + dot g Y) / 2 := by
    intro g; rw [dot_move, dot_sub]; ring
  have hpos : ∀ g ∈ G', 0 < dot g (move X (Geo.sub Y X) (1 / 2)) := by
    intro g hg
    have a := eX.1.2 g (H.sub g hg); have b := eY.1.2 g (H.sub g hg)
    rw [hm]
    by_contra hc
    exact hadj ⟨g, hg, by linarith, by linarith⟩
  have hzero : ∀ g V, Zero g → dot g V = 0 := by
    rintro g V ⟨a, b, c⟩; simp only [dot, a, b, c]; ring
  obtain ⟨e, he, f⟩ := room (move X (Geo.sub Y X) (1 / 2)) (Geo.sub X W) G (fun g hg => by
      rcases H.rest g hg with h | h
      · exact (hpos g h).le
      · rw [hzero g _ h])
    (fun g hg hz => by
      rcases H.rest g hg with h | h
      · exact absurd hz (hpos g h).ne'
      · rw [hzero g _ h])
  have hP : Pos G (move (move X (Geo.sub Y X) (1 / 2)) (Geo.sub X W) e) := by
    refine ⟨?_, fun g hg => ?_⟩
    · rw [total_move, total_move, total_sub, total_sub, eX.1.1, eY.1.1, eW.1.1]; ring
    · rw [dot_move]; exact f e (by linarith) (le_refl _) g hg
  obtain ⟨Z, hZ, hle⟩ := descent H.bounded h _ _ rfl hP
  have := h3 Z ((H.mem Z).2 hZ)
  rw [dot_move, hm, dot_sub, h0, h1] at hle
  have := mul_pos he h2
  linarith

theorem plucker (h X Y Z W : P3) (h0 : dot h X = 0) : dot h Z * o X Y W = dot h Y * o X Z W + dot h W * o X Y Z := by
  have := cramer h X Y Z W
  rw [h0] at this
  have e1 : o X W Z = - o X Z W := by rw [o_swap]
  rw [e1] at this
  linarith

/-- The smallest element for a relation that is total and transitive on a list. -/
theorem exists_min {R : P3 → P3 → Prop} : ∀ (l : List P3), l ≠ [] → (∀ x ∈ l, ∀ y ∈ l, x ≠ y → R x y ∨ R y x) → (∀ x ∈ l, ∀ y ∈ l, ∀ z ∈ l, R x y → R y z → R x z) → ∃ m ∈ l, ∀ y ∈ l, y ≠ m → R m y := by
  intro l
  induction l with
  | nil => intro h; exact absurd rfl h
  | cons x l ih =>
    intro _ htot htr
    by_cases hl : l = []
    · subst hl
      exact ⟨x, List.mem_cons_self, fun y hy hne => by simp at hy; exact absurd hy hne⟩
    · obtain ⟨m, hm, hmin⟩ := ih hl (fun a ha b hb => htot a (List.mem_cons_of_mem _ ha) b (List.mem_cons_of_mem _ hb))
        (fun a ha b hb c hc => htr a (List.mem_cons_of_mem _ ha) b (List.mem_cons_of_mem _ hb) c (List.mem_cons_of_mem _ hc))
      by_cases hxm : x = m
      · refine ⟨m, List.mem_cons_of_mem _ hm, fun y hy hne => ?_⟩
        rcases List.mem_cons.1 hy with rfl | hy
        · exact absurd hxm hne
        · exact hmin y hy hne
      rcases htot x List.mem_cons_self m (List.mem_cons_of_mem _ hm) hxm with h | h
      · refine ⟨x, List.mem_cons_self, fun y hy hne => ?_⟩
        rcases List.mem_cons.1 hy with rfl | hy
        · exact absurd rfl hne
        · by_cases hym : y = m
          · rw [hym]; exact h
          · exact htr x List.mem_cons_self m (List.mem_cons_of_mem _ hm) y (List.mem_cons_of_mem _ hy) h (hmin y hy hym)
      · refine ⟨m, List.mem_cons_of_mem _ hm, fun y hy hne => ?_⟩
        rcases List.mem_cons.1 hy with rfl | hy
        · exact h
        · exact hmin y hy hne

/-- The two neighbours of a corner. -/
structure Nbrs (G' cs : List P3) (X Y1 Y2 : P3) : Prop where
  m1 : Y1 ∈ cs
  m2 : Y2 ∈ cs
  n1 : Y1 ≠ X
  n2 : Y2 ≠ X
  n12 : Y1 ≠ Y2
  s1 : ∀ Z ∈ cs, Z ≠ X → Z ≠ Y1 → 0 < o X Y1 Z
  s2 : ∀ Z ∈ cs, Z ≠ X → Z ≠ Y2 → 0 < o X Z Y2
  a1 : Adj G' X Y1
  a2 : Adj G' X Y2
  only : ∀ Z ∈ cs, Z ≠ X → Adj G' X Z → Z = Y1 ∨ Z = Y2

/-- **Every corner of a polygon with three corners or more has exactly two neighbours.** -/
theorem nbrs (H : Corners G G' cs) {X : P3} (hX : X ∈ cs) (h3 : ∃ Y Z, Y ∈ cs ∧ Z ∈ cs ∧ Y ≠ X ∧ Z ≠ X ∧ Y ≠ Z) : ∃ Y1 Y2, Nbrs G' cs X Y1 Y2 := by
  obtain ⟨A, B, hA, hB, hAX, hBX, hAB⟩ := h3
  have eX := (H.mem X).1 hX
  obtain ⟨h, h0, hpos⟩ := exposed eX
  let l := cs.filter (fun Y => decide (Y ≠ X))
  have hl : ∀ Y, Y ∈ l ↔ Y ∈ cs ∧ Y ≠ X := by intro Y; simp [l, List.mem_filter]
  have hne : l ≠ [] := by intro e; have := (hl A).2 ⟨hA, hAX⟩; rw [e] at this; exact List.not_mem_nil this
  have hp : ∀ Y ∈ l, 0 < dot h Y := fun Y hY => hpos Y ((H.mem Y).1 ((hl Y).1 hY).1).1 ((hl Y).1 hY).2
  have htot : ∀ x ∈ l, ∀ y ∈ l, x ≠ y → 0 < o X x y ∨ 0 < o X y x := by
    intro x hx y hy hxy
    have := extreme_noncollinear eX ((H.mem x).1 ((hl x).1 hx).1) ((H.mem y).1 ((hl y).1 hy).1) (Ne.symm ((hl x).1 hx).2) (Ne.symm ((hl y).1 hy).2) hxy
    rcases lt_or_gt_of_ne this with h | h
    · right; rw [o_swap]; linarith
    · left; exact h
  have htr : ∀ x ∈ l, ∀ y ∈ l, ∀ z ∈ l, 0 < o X x y → 0 < o X y z → 0 < o X x z := by
    intro x hx y hy z hz h1 h2
    have := plucker h X x y z h0
    have a := mul_pos (hp x hx) h2
    have b := mul_pos (hp z hz) h1
    exact pos_of_mul_pos_right (by linarith : 0 < dot h y * o X x z) (hp y hy).le
  obtain ⟨Y1, hY1, min1⟩ := exists_min (R := fun a b => 0 < o X a b) l hne htot htr
  obtain ⟨Y2, hY2, min2⟩ := exists_min (R := fun a b => 0 < o X b a) l hne (fun x hx y hy hxy => htot y hy x hx (Ne.symm hxy)) (fun x hx y hy z hz h1 h2 => htr z hz y hy x hx h2 h1)
  obtain ⟨c1, d1⟩ := (hl Y1).1 hY1
  obtain ⟨c2, d2⟩ := (hl Y2).1 hY2
  have s1 : ∀ Z ∈ cs, Z ≠ X → Z ≠ Y1 → 0 < o X Y1 Z := fun Z hZ hZX hZY => min1 Z ((hl Z).2 ⟨hZ, hZX⟩) hZY
  have s2 : ∀ Z ∈ cs, Z ≠ X → Z ≠ Y2 → 0 < o X Z Y2 := fun Z hZ hZX hZY => min2 Z ((hl Z).2 ⟨hZ, hZX⟩) hZY
  have n12 : Y1 ≠ Y2 := by
    rintro rfl
    by_cases hA1 : A = Y1
    · have := s1 B hB hBX (fun e => hAB (hA1.trans e.symm))
      have := s2 B hB hBX (fun e => hAB (hA1.trans e.symm))
      rw [o_swap] at this; linarith
    · have := s1 A hA hAX hA1
      have := s2 A hA hAX hA1
      rw [o_swap] at this; linarith
  have f1 : ∀ Z, dot (cross X Y1) Z = o X Y1 Z := by intro Z; simp only [o, dot, cross]; ring
  have f2 : ∀ Z, dot (cross Y2 X) Z = o X Z Y2 := by intro Z; simp only [o, dot, cross]; ring
  refine ⟨Y1, Y2, c1, c2, d1, d2, n12, s1, s2, ?_, ?_, ?_⟩
  · refine adj_of_side H (h := cross X Y1) hX c1 c2 (by rw [f1, o_same'']) (by rw [f1, o_same]) (by rw [f1]; exact s1 Y2 c2 d2 (Ne.symm n12)) (fun Z hZ => ?_)
    rw [f1]
    by_cases e1 : Z = X
    · rw [e1, o_same'']
    · by_cases e2 : Z = Y1
      · rw [e2, o_same]
      · exact (s1 Z hZ e1 e2).le
  · refine adj_of_side H (h := cross Y2 X) hX c2 c1 (by rw [f2, o_same']) (by rw [f2, o_same]) (by rw [f2]; exact s2 Y1 c1 d1 n12) (fun Z hZ => ?_)
    rw [f2]
    by_cases e1 : Z = X
    · rw [e1, o_same']
    · by_cases e2 : Z = Y2
      · rw [e2, o_same]
      · exact (s2 Z hZ e1 e2).le
  · intro Z hZ hZX hadj
    by_contra hc
    push Not at hc
    obtain ⟨g, hg, g1, g2⟩ := hadj
    have p1 := s1 Z hZ hZX hc.1
    have p2 := s2 Z hZ hZX hc.2
    have e := cramer g X Z Y2 Y1
    rw [g1, g2] at e
    have e2 : o X Z Y1 = - o X Y1 Z := by rw [o_swap]
    rw [e2] at e
    have q1 := ((H.mem Y1).1 c1).1.2 g (H.sub g hg)
    have q2 := ((H.mem Y2).1 c2).1.2 g (H.sub g hg)
    have a := mul_nonneg p2.le q1
    have b := mul_nonneg p1.le q2
    have hz : o X Z Y2 * dot g Y1 = 0 := by linarith
    have hz : dot g Y1 = 0 := (mul_eq_zero.1 hz).resolve_left p2.ne'
    exact tight_two H hg hX hZ c1 (Ne.symm hZX) (Ne.symm d1) hc.1 g1 g2 hz

/-- **The corners are connected.** -/
theorem connected (H : Corners G G' cs) (h3 : ∀ X ∈ cs, ∃ Y Z, Y ∈ cs ∧ Z ∈ cs ∧ Y ≠ X ∧ Z ≠ X ∧ Y ≠ Z) (S : P3 → Prop)
    (h0 : ∃ X ∈ cs, S X) (hS : ∀ X ∈ cs, ∀ Y ∈ cs, S X → Adj G' X Y → S Y) : ∀ X ∈ cs, S X := by
  classical
  obtain ⟨z, hz, sz⟩ := h0
  by_contra hc
  push Not at hc
  obtain ⟨w, hw, nw⟩ := hc
  obtain ⟨h, hz0, hpos⟩ := exposed ((H.mem z).1 hz)
  let l := cs.filter (fun Y => decide (¬ S Y))
  have hl : ∀ Y, Y ∈ l ↔ Y ∈ cs ∧ ¬ S Y := by intro Y; simp [l, List.mem_filter]
  have hne : l ≠ [] := by intro e; have := (hl w).2 ⟨hw, nw⟩; rw [e] at this; exact List.not_mem_nil this
  obtain ⟨u, hu, hmin⟩ := exists_min (R := fun a b => dot h a ≤ dot h b) l hne (fun x _ y _ _ => le_total _ _) (fun x _ y _ z _ => le_trans)
  obtain ⟨cu, nu⟩ := (hl u).1 hu
  have huz : u ≠ z := by rintro rfl; exact nu sz
  have hup := hpos u ((H.mem u).1 cu).1 huz
  obtain ⟨Y1, Y2, N⟩ := nbrs H cu (h3 u cu)
  have hlow : ∀ Y ∈ cs, Adj G' u Y → dot h u ≤ dot h Y := by
    intro Y hY ha
    by_cases e : Y = u
    · rw [e]
    · exact hmin Y ((hl Y).2 ⟨hY, fun sY => nu (hS Y hY u cu sY ha.symm)⟩) e
  have b1 := hlow Y1 N.m1 N.a1
  have b2 := hlow Y2 N.m2 N.a2
  have e := cramer h u Y1 Y2 z
  have e1 := cramer ⟨1, 1, 1⟩ u Y1 Y2 z
  have tot : ∀ X, Extreme G X → dot ⟨1, 1, 1⟩ X = 1 := by
    intro X hX; have := hX.1.1; simp only [total] at this; simp only [dot]; linarith
  rw [tot u ((H.mem u).1 cu), tot Y1 ((H.mem Y1).1 N.m1), tot Y2 ((H.mem Y2).1 N.m2), tot z ((H.mem z).1 hz)] at e1
  have p12 : 0 < o u Y1 Y2 := N.s1 Y2 N.m2 N.n2 (Ne.symm N.n12)
  have q1 : 0 ≤ o u Y1 z := by
    by_cases e : z = Y1
    · rw [e, o_same]
    · exact (N.s1 z hz (Ne.symm huz) e).le
  have q2 : 0 ≤ o u z Y2 := by
    by_cases e : z = Y2
    · rw [e, o_same]
    · exact (N.s2 z hz (Ne.symm huz) e).le
  rw [hz0] at e
  have r1 := mul_le_mul_of_nonneg_left b1 q2
  have r2 := mul_le_mul_of_nonneg_left b2 q1
  have r3 : o z Y1 Y2 = o u Y1 Y2 - o u z Y2 - o u Y1 z := by linarith
  rw [r3] at e
  have := mul_pos p12 hup
  nlinarith

/-- **No more corners than half-planes.** -/
theorem corners_le (H : Corners G G' cs) (hnd : cs.Nodup) (h3 : ∀ X ∈ cs, ∃ Y Z, Y ∈ cs ∧ Z ∈ cs ∧ Y ≠ X ∧ Z ≠ X ∧ Y ≠ Z) : cs.length ≤ G'.length := by
  classical
  have hx : ∀ X, ∃ g Y, X ∈ cs → g ∈ G' ∧ Y ∈ cs ∧ Y ≠ X ∧ dot g X = 0 ∧ dot g Y = 0 ∧ ∀ Z ∈ cs, Z ≠ X → Z ≠ Y → 0 < o X Y Z := by
    intro X
    by_cases h : X ∈ cs
    · obtain ⟨Y1, Y2, N⟩ := nbrs H h (h3 X h)
      obtain ⟨g, hg, a, b⟩ := N.a1
      exact ⟨g, Y1, fun _ => ⟨hg, N.m1, N.n1, a, b, N.s1⟩⟩
    · exact ⟨X, X, fun h' => absurd h' h⟩
  choose f nx hf using hx
  have hinj : ∀ X ∈ cs, ∀ Z ∈ cs, f X = f Z → X = Z := by
    intro X hX Z hZ e
    by_contra hne
    obtain ⟨g1, y1, ny1, x0, y0, sx⟩ := hf X hX
    obtain ⟨g2, y2, ny2, z0, w0, sz⟩ := hf Z hZ
    rw [← e] at z0 w0
    have e1 : nx X = Z := by
      by_contra h; exact tight_two H g1 hX y1 hZ (Ne.symm ny1) hne h x0 y0 z0
    have e2 : nx Z = X := by
      by_contra h; exact tight_two H g1 hZ y2 hX (Ne.symm ny2) (Ne.symm hne) h z0 w0 x0
    obtain ⟨A, B, hA, hB, hAX, hBX, hAB⟩ := h3 X hX
    have : ∃ W ∈ cs, W ≠ X ∧ W ≠ Z := by
      by_cases h : A = Z
      · exact ⟨B, hB, hBX, fun h' => hAB (h.trans h'.symm)⟩
      · exact ⟨A, hA, hAX, h⟩
    obtain ⟨W, hW, w1, w2⟩ := this
    have p1 := sx W hW w1 (by rw [e1]; exact w2)
    have p2 := sz W hW w2 (by rw [e2]; exact w1)
    rw [e1] at p1; rw [e2] at p2
    have : o Z X W = - o X Z W := by simp only [o, dot, cross]; ring
    linarith
  have hnd' : (cs.map f).Nodup := List.Nodup.map_on hinj hnd
  have hsub : cs.map f ⊆ G' := by
    intro g hg
    obtain ⟨X, hX, rfl⟩ := List.mem_map.1 hg
    exact (hf X hX).1
  have := (List.subperm_of_subset hnd' hsub).length_le
  rwa [List.length_map] at this

end Kigumi.Polygon

import Verif.Proofs.PolygonGraph

/-! # The pairs found are the corners of the intersection -/
namespace Kigumi.FaceFace
open Kigumi Outcome Geo Region Spec.Triangles Polygon

/-- The weights of a point of the plane of a triangle. -/
def wt (a b c x : P3) : P3 :=
  ⟨1 - dot (cross (sub x a) (sub c a)) (normal a b c) / dot (normal a b c) (normal a b c) - dot (cross (sub b a) (sub x a)) (normal a b c) / dot (normal a b c) (normal a b c),
   dot (cross (sub x a) (sub c a)) (normal a b c) / dot (normal a b c) (normal a b c),
   dot (cross (sub b a) (sub x a)) (normal a b c) / dot (normal a b c) (normal a b c)⟩

/-- The point with given weights. -/
def pnt (p q r X : P3) : P3 := combo X.x X.y X.z p q r

theorem wt_total (a b c x : P3) : total (wt a b c x) = 1 := by simp only [total, wt]; ring

theorem pnt_wt {a b c x : P3} (hn : dot (normal a b c) (normal a b c) ≠ 0) (h : det4 x a b c = 0) : pnt a b c (wt a b c x) = x := by
  have h0 : dot (normal a b c) (sub x a) = 0 := by
    have : dot (normal a b c) (sub x a) = - det4 x a b c := by simp only [det4, normal, dot, cross, sub]; ring
    rw [this, h]; ring
  have i1 := plane_identity a b c x Spec.P3.x (Or.inl rfl)
  have i2 := plane_identity a b c x Spec.P3.y (Or.inr (Or.inl rfl))
  have i3 := plane_identity a b c x Spec.P3.z (Or.inr (Or.inr rfl))
  rw [h0] at i1 i2 i3
  simp only [pnt, combo, wt]
  generalize dot (cross (sub x a) (sub c a)) (normal a b c) = A at *
  generalize dot (cross (sub b a) (sub x a)) (normal a b c) = B at *
  generalize dot (normal a b c) (normal a b c) = N at *
  apply p3_ext <;> simp only <;> field_simp <;> linarith

theorem wt_combo {a b c : P3} (hn : dot (normal a b c) (normal a b c) ≠ 0) {u v w : ℚ} (h : u + v + w = 1) : wt a b c (combo u v w a b c) = ⟨u, v, w⟩ := by
  have e := pnt_wt hn (det_combo_first u v w h a b c)
  have ht := wt_total a b c (combo u v w a b c)
  obtain ⟨e1, e2, e3⟩ := weights_unique hn ht h e
  exact p3_ext e1 e2 e3

/-- Weights are affine. -/
theorem wt_affine (a b c p q r : P3) {u v w : ℚ} (h : u + v + w = 1) :
    wt a b c (combo u v w p q r) = pnt (wt a b c p) (wt a b c q) (wt a b c r) ⟨u, v, w⟩ := by
  have hw : w = 1 - u - v := by linarith
  subst hw
  generalize hn : normal a b c = n
  simp only [wt, pnt, combo, hn]
  generalize dot n n = N
  apply p3_ext <;> simp only [dot, cross, sub, combo] <;> ring

section
variable (a b c p q r : P3)

/-- The weights for the first triangle as functionals. -/
def F0 : P3 := ⟨(wt a b c p).x, (wt a b c q).x, (wt a b c r).x⟩
def F1 : P3 := ⟨(wt a b c p).y, (wt a b c q).y, (wt a b c r).y⟩
def F2 : P3 := ⟨(wt a b c p).z, (wt a b c q).z, (wt a b c r).z⟩
/-- The plane of the first triangle as a functional. -/
def EE : P3 := ⟨det4 p a b c, det4 q a b c, det4 r a b c⟩
def EN : P3 := ⟨- det4 p a b c, - det4 q a b c, - det4 r a b c⟩

/-- The six half-planes. -/
def six : List P3 := [⟨1, 0, 0⟩, ⟨0, 1, 0⟩, ⟨0, 0, 1⟩, F0 a b c p q r, F1 a b c p q r, F2 a b c p q r]
def eight : List P3 := six a b c p q r ++ [EE a b c p q r, EN a b c p q r]
end

variable {a b c p q r : P3}

theorem det_first_combo {u v w : ℚ} (h : u + v + w = 1) (a b c p q r : P3) : det4 (combo u v w p q r) a b c = u * det4 p a b c + v * det4 q a b c + w * det4 r a b c := by
  have hw : w = 1 - u - v := by linarith
  subst hw
  simp only [det4, dot, cross, sub, combo]; ring

theorem dotF {X : P3} (hX : total X = 1) : dot (F0 a b c p q r) X = (wt a b c (pnt p q r X)).x ∧ dot (F1 a b c p q r) X = (wt a b c (pnt p q r X)).y ∧ dot (F2 a b c p q r) X = (wt a b c (pnt p q r X)).z := by
  have := wt_affine a b c p q r (u := X.x) (v := X.y) (w := X.z) hX
  unfold pnt at this ⊢
  rw [this]
  simp only [F0, F1, F2, dot, combo]
  refine ⟨by ring, by ring, by ring⟩

theorem dotE {X : P3} (hX : total X = 1) : dot (EE a b c p q r) X = det4 (pnt p q r X) a b c := by
  unfold pnt; rw [det_first_combo hX]; simp only [EE, dot]; ring

theorem pos_iff {X : P3} : Pos (eight a b c p q r) X ↔ total X = 1 ∧ (0 ≤ X.x ∧ 0 ≤ X.y ∧ 0 ≤ X.z) ∧
    (0 ≤ (wt a b c (pnt p q r X)).x ∧ 0 ≤ (wt a b c (pnt p q r X)).y ∧ 0 ≤ (wt a b c (pnt p q r X)).z) ∧ det4 (pnt p q r X) a b c = 0 := by
  unfold Pos
  constructor
  · rintro ⟨h, hg⟩
    obtain ⟨f0, f1, f2⟩ := dotF (a := a) (b := b) (c := c) (p := p) (q := q) (r := r) h
    have e := dotE (a := a) (b := b) (c := c) (p := p) (q := q) (r := r) h
    rw [← f0, ← f1, ← f2, ← e]
    have g1 := hg ⟨1, 0, 0⟩ (by simp [eight, six]); have g2 := hg ⟨0, 1, 0⟩ (by simp [eight, six]); have g3 := hg ⟨0, 0, 1⟩ (by simp [eight, six])
    have g4 := hg (EE a b c p q r) (by simp [eight]); have g5 := hg (EN a b c p q r) (by simp [eight])
    have en : dot (EN a b c p q r) X = - dot (EE a b c p q r) X := by simp only [EN, EE, dot]; ring
    simp only [dot] at g1 g2 g3
    exact ⟨h, ⟨by linarith, by linarith, by linarith⟩, ⟨hg _ (by simp [eight, six]), hg _ (by simp [eight, six]), hg _ (by simp [eight, six])⟩, by linarith⟩
  · rintro ⟨h, ⟨x1, x2, x3⟩, hw, hd⟩
    obtain ⟨f0, f1, f2⟩ := dotF (a := a) (b := b) (c := c) (p := p) (q := q) (r := r) h
    have e := dotE (a := a) (b := b) (c := c) (p := p) (q := q) (r := r) h
    rw [← f0, ← f1, ← f2] at hw
    rw [← e] at hd
    have en : dot (EN a b c p q r) X = - dot (EE a b c p q r) X := by simp only [EN, EE, dot]; ring
    refine ⟨h, fun g hg => ?_⟩
    simp only [eight, six, List.cons_append, List.nil_append, List.mem_cons, List.not_mem_nil, or_false] at hg
    rcases hg with rfl | rfl | rfl | rfl | rfl | rfl | rfl | rfl
    · simp only [dot]; linarith
    · simp only [dot]; linarith
    · simp only [dot]; linarith
    · exact hw.1
    · exact hw.2.1
    · exact hw.2.2
    · linarith
    · linarith

/-- The simplex whose interior contains the point with given weights. -/
def pat (U : P3) : Pat := (decide (0 < U.x), decide (0 < U.y), decide (0 < U.z))

theorem weight_dec {u : ℚ} (h : 0 ≤ u) : Weight (decide (0 < u)) u := by
  by_cases hu : 0 < u
  · simp [Weight, hu]
  · have : u = 0 := le_antisymm (not_lt.1 hu) h
    simp [Weight, this]

theorem dec_weight {m : Bool} {u : ℚ} (h : Weight m u) : m = decide (0 < u) ∧ 0 ≤ u := by
  cases m
  · have : u = 0 := by simpa [Weight] using h
    simp [this]
  · have : 0 < u := by simpa [Weight] using h
    exact ⟨by simp [this], this.le⟩

theorem patOpen_iff {L : Pat} {x : P3} (hn : dot (normal a b c) (normal a b c) ≠ 0) : PatOpen L a b c x ↔ det4 x a b c = 0 ∧ L = pat (wt a b c x) ∧ 0 ≤ (wt a b c x).x ∧ 0 ≤ (wt a b c x).y ∧ 0 ≤ (wt a b c x).z := by
  constructor
  · rintro ⟨u, v, w, h, rfl, hu, hv, hw⟩
    rw [wt_combo hn h]
    obtain ⟨a1, b1⟩ := dec_weight hu
    obtain ⟨a2, b2⟩ := dec_weight hv
    obtain ⟨a3, b3⟩ := dec_weight hw
    exact ⟨det_combo_first u v w h a b c, Prod.ext a1 (Prod.ext a2 a3), b1, b2, b3⟩
  · rintro ⟨h, rfl, h1, h2, h3⟩
    exact ⟨_, _, _, wt_total a b c x, (pnt_wt hn h).symm, weight_dec h1, weight_dec h2, weight_dec h3⟩

/-- The pair of simplices of a corner. -/
def hitOf (a b c p q r X : P3) : Hit := pairCode (pat (wt a b c (pnt p q r X))) (pat X)

theorem wt_pnt (hn : dot (normal p q r) (normal p q r) ≠ 0) {X : P3} (h : total X = 1) : wt p q r (pnt p q r X) = X := wt_combo hn h

theorem pnt_move {X D : P3} (t : ℚ) : pnt p q r (move X D t) = move (pnt p q r X) (pnt p q r D) t := by
  simp only [pnt, move, combo]; apply p3_ext <;> simp only <;> ring

/-- Weights along a line. -/
theorem wt_line {X D : P3} (h : total X = 1) (hD : total D = 0) (t : ℚ) :
    wt a b c (pnt p q r (move X D t)) = move (wt a b c (pnt p q r X)) ⟨dot (F0 a b c p q r) D, dot (F1 a b c p q r) D, dot (F2 a b c p q r) D⟩ t := by
  have hm : total (move X D t) = 1 := by rw [total_move, h, hD]; ring
  obtain ⟨f0, f1, f2⟩ := dotF (a := a) (b := b) (c := c) (p := p) (q := q) (r := r) h
  obtain ⟨g0, g1, g2⟩ := dotF (a := a) (b := b) (c := c) (p := p) (q := q) (r := r) hm
  apply p3_ext
  · rw [← g0, dot_move, f0]; rfl
  · rw [← g1, dot_move, f1]; rfl
  · rw [← g2, dot_move, f2]; rfl

theorem pat_half {U D : P3} (h1 : 0 ≤ U.x + D.x ∧ 0 ≤ U.y + D.y ∧ 0 ≤ U.z + D.z) (h2 : 0 ≤ U.x - D.x ∧ 0 ≤ U.y - D.y ∧ 0 ≤ U.z - D.z) :
    pat (move U D (1 / 2)) = pat U := by
  have k : ∀ u d : ℚ, 0 ≤ u + d → 0 ≤ u - d → (0 < u + 1 / 2 * d ↔ 0 < u) := by
    intro u d a b
    constructor
    · intro h; linarith
    · intro h; linarith
  simp only [pat, move]
  exact Prod.ext (decide_eq_decide.2 (k _ _ h1.1 h2.1)) (Prod.ext (decide_eq_decide.2 (k _ _ h1.2.1 h2.2.1)) (decide_eq_decide.2 (k _ _ h1.2.2 h2.2.2)))

/-- **The pairs of simplices that meet in one point are those of the corners.** -/
theorem once_extreme (h1 : dot (normal a b c) (normal a b c) ≠ 0) (h2 : dot (normal p q r) (normal p q r) ≠ 0) {X : P3} (hX : Extreme (eight a b c p q r) X) :
    MeetOnce (PatOpen (pat (wt a b c (pnt p q r X))) a b c) (PatOpen (pat X) p q r) := by
  have hp := pos_iff.1 hX.1
  obtain ⟨t, ⟨x1, x2, x3⟩, ⟨w1, w2, w3⟩, d⟩ := hp
  have hx1 : PatOpen (pat (wt a b c (pnt p q r X))) a b c (pnt p q r X) := (patOpen_iff h1).2 ⟨d, rfl, w1, w2, w3⟩
  have hx2 : PatOpen (pat X) p q r (pnt p q r X) := by
    rw [patOpen_iff h2, wt_pnt h2 t]
    exact ⟨det_combo_first _ _ _ t _ _ _, rfl, x1, x2, x3⟩
  refine ⟨pnt p q r X, ⟨hx1, hx2⟩, fun y y1 y2 => ?_⟩
  obtain ⟨dy, ey, v1, v2, v3⟩ := (patOpen_iff h1).1 y1
  obtain ⟨dy', ey', u1, u2, u3⟩ := (patOpen_iff h2).1 y2
  -- the weights of `y`
  have hY : y = pnt p q r (wt p q r y) := (pnt_wt h2 dy').symm
  generalize hYY : wt p q r y = Y at *
  have tY : total Y = 1 := by rw [← hYY]; exact wt_total _ _ _ _
  subst hY
  by_contra hne
  have hne' : ¬ Zero (Geo.sub Y X) := fun h => hne (by rw [zero_sub_iff.1 h])
  have tD : total (Geo.sub Y X) = 0 := by rw [total_sub, t, tY]; ring
  have pd : ∀ {u v : ℚ}, 0 ≤ v → 0 ≤ u → decide (0 < u) = decide (0 < v) → u = 0 → v - u = 0 := by
    intro u v hv hu e h0
    have : ¬ 0 < v := by rw [← decide_eq_decide.1 e, h0]; exact lt_irrefl _
    rw [h0, le_antisymm (not_lt.1 this) hv]; ring
  obtain ⟨k1, k2⟩ := Prod.ext_iff.1 ey'
  obtain ⟨k2, k3⟩ := Prod.ext_iff.1 k2
  obtain ⟨l1, l2⟩ := Prod.ext_iff.1 ey
  obtain ⟨l2, l3⟩ := Prod.ext_iff.1 l2
  obtain ⟨e0, e1, e2⟩ := dotF (a := a) (b := b) (c := c) (p := p) (q := q) (r := r) t
  obtain ⟨e0', e1', e2'⟩ := dotF (a := a) (b := b) (c := c) (p := p) (q := q) (r := r) tY
  have hroom := room X (Geo.sub Y X) (eight a b c p q r) hX.1.2 ?_
  · obtain ⟨e, he, f⟩ := hroom
    have hpp : ∀ s, -e ≤ s → s ≤ e → Pos (eight a b c p q r) (move X (Geo.sub Y X) s) := fun s a1 a2 =>
      ⟨by rw [total_move, tD, t]; ring, fun g hg => by rw [dot_move]; exact f s a1 a2 g hg⟩
    exact not_extreme (hpp (-e) (le_refl _) (by linarith)) (hpp e (by linarith) (le_refl _)) (by linarith) he hne' hX
  · intro g hg h0
    simp only [eight, six, List.cons_append, List.nil_append, List.mem_cons, List.not_mem_nil, or_false] at hg
    rw [dot_sub]
    have hE := dotE (a := a) (b := b) (c := c) (p := p) (q := q) (r := r) t
    have hE' := dotE (a := a) (b := b) (c := c) (p := p) (q := q) (r := r) tY
    have en : ∀ Z, dot (EN a b c p q r) Z = - dot (EE a b c p q r) Z := by intro Z; simp only [EN, EE, dot]; ring
    rcases hg with rfl | rfl | rfl | rfl | rfl | rfl | rfl | rfl
    · simp only [dot] at h0 ⊢; have := pd u1 x1 k1 (by linarith); linarith
    · simp only [dot] at h0 ⊢; have := pd u2 x2 k2 (by linarith); linarith
    · simp only [dot] at h0 ⊢; have := pd u3 x3 k3 (by linarith); linarith
    · rw [e0, e0']; exact pd v1 w1 l1 (by rw [← e0]; exact h0)
    · rw [e1, e1']; exact pd v2 w2 l2 (by rw [← e1]; exact h0)
    · rw [e2, e2']; exact pd v3 w3 l3 (by rw [← e2]; exact h0)
    · rw [hE, hE', d, dy]; ring
    · rw [en, en, hE, hE', d, dy]; ring

theorem extreme_once (h1 : dot (normal a b c) (normal a b c) ≠ 0) (h2 : dot (normal p q r) (normal p q r) ≠ 0) {L R : Pat} (hm : MeetOnce (PatOpen L a b c) (PatOpen R p q r)) :
    ∃ X, Extreme (eight a b c p q r) X ∧ L = pat (wt a b c (pnt p q r X)) ∧ R = pat X := by
  obtain ⟨x, ⟨hx1, hx2⟩, hu⟩ := hm
  obtain ⟨d1, e1, w1, w2, w3⟩ := (patOpen_iff h1).1 hx1
  obtain ⟨d2, e2, u1, u2, u3⟩ := (patOpen_iff h2).1 hx2
  have hY : x = pnt p q r (wt p q r x) := (pnt_wt h2 d2).symm
  generalize hXX : wt p q r x = X at *
  have tX : total X = 1 := by rw [← hXX]; exact wt_total _ _ _ _
  subst hY
  refine ⟨X, ⟨pos_iff.2 ⟨tX, ⟨u1, u2, u3⟩, ⟨w1, w2, w3⟩, d1⟩, ?_⟩, e1, e2⟩
  intro D hD p1 p2
  obtain ⟨t1, ⟨a1, a2, a3⟩, ⟨b1, b2, b3⟩, g1⟩ := pos_iff.1 p1
  obtain ⟨t2, ⟨a4, a5, a6⟩, ⟨b4, b5, b6⟩, g2⟩ := pos_iff.1 p2
  have hh : Pos (eight a b c p q r) (move X D (1 / 2)) := pos_between p2 p1 (by norm_num) (by norm_num)
  obtain ⟨t3, ⟨a7, a8, a9⟩, ⟨b7, b8, b9⟩, g3⟩ := pos_iff.1 hh
  rw [wt_line tX hD] at b1 b2 b3 b4 b5 b6
  simp only [move] at a1 a2 a3 a4 a5 a6 b1 b2 b3 b4 b5 b6
  have := hu (pnt p q r (move X D (1 / 2))) ((patOpen_iff h1).2 ⟨g3, ?_, b7, b8, b9⟩) ((patOpen_iff h2).2 ⟨det_combo_first _ _ _ t3 _ _ _, ?_, ?_⟩)
  · have hwt := congrArg (wt p q r) this
    rw [wt_pnt h2 t3, wt_pnt h2 tX] at hwt
    have ex := congrArg Spec.P3.x hwt; have ey := congrArg Spec.P3.y hwt; have ez := congrArg Spec.P3.z hwt
    simp only [move] at ex ey ez
    exact ⟨by linarith, by linarith, by linarith⟩
  · rw [e1, wt_line tX hD, pat_half] <;> simp only
    · exact ⟨by linarith, by linarith, by linarith⟩
    · exact ⟨by linarith, by linarith, by linarith⟩
  · rw [wt_pnt h2 t3, e2, pat_half]
    · exact ⟨by linarith, by linarith, by linarith⟩
    · exact ⟨by linarith, by linarith, by linarith⟩
  · rw [wt_pnt h2 t3]; exact ⟨a7, a8, a9⟩

theorem bounded_eight : Bounded (eight a b c p q r) := ⟨by simp [eight, six], by simp [eight, six], by simp [eight, six]⟩

theorem inTriangle_iff {x : P3} (hn : dot (normal a b c) (normal a b c) ≠ 0) : InTriangle a b c x ↔ det4 x a b c = 0 ∧ 0 ≤ (wt a b c x).x ∧ 0 ≤ (wt a b c x).y ∧ 0 ≤ (wt a b c x).z := by
  constructor
  · rintro ⟨u, v, w, h, rfl, hu, hv, hw⟩
    rw [wt_combo hn h]
    exact ⟨det_combo_first u v w h a b c, hu, hv, hw⟩
  · rintro ⟨h, h1, h2, h3⟩
    exact ⟨_, _, _, wt_total a b c x, (pnt_wt hn h).symm, h1, h2, h3⟩

/-- **Something is found if and only if the closed triangles have a point in common.** -/
theorem allHits_nonempty (h1 : dot (normal a b c) (normal a b c) ≠ 0) (h2 : dot (normal p q r) (normal p q r) ≠ 0) :
    allHits a b c p q r ≠ [] ↔ ∃ x, InTriangle a b c x ∧ InTriangle p q r x := by
  constructor
  · intro hne
    obtain ⟨h, hh⟩ := List.exists_mem_of_ne_nil _ hne
    obtain ⟨L, R, rfl⟩ := allHits_pair hh
    obtain ⟨x, ⟨hx1, hx2⟩, _⟩ := (allHits_spec h1 h2 L R).1 hh
    obtain ⟨d1, _, w⟩ := (patOpen_iff h1).1 hx1
    obtain ⟨d2, _, u⟩ := (patOpen_iff h2).1 hx2
    exact ⟨x, (inTriangle_iff h1).2 ⟨d1, w⟩, (inTriangle_iff h2).2 ⟨d2, u⟩⟩
  · rintro ⟨x, hx1, hx2⟩
    obtain ⟨d1, w⟩ := (inTriangle_iff h1).1 hx1
    obtain ⟨d2, u⟩ := (inTriangle_iff h2).1 hx2
    have hP : Pos (eight a b c p q r) (wt p q r x) := pos_iff.2 ⟨wt_total _ _ _ _, u, by rw [pnt_wt h2 d2]; exact w, by rw [pnt_wt h2 d2]; exact d1⟩
    obtain ⟨Z, hZ, _⟩ := descent bounded_eight ⟨0, 0, 0⟩ _ _ rfl hP
    have := (allHits_spec h1 h2 _ _).2 (once_extreme h1 h2 hZ)
    intro e; rw [e] at this; exact List.not_mem_nil this

/-- The corner of a pair. -/
theorem corner_of (h1 : dot (normal a b c) (normal a b c) ≠ 0) (h2 : dot (normal p q r) (normal p q r) ≠ 0) {h : Hit} :
    h ∈ allHits a b c p q r ↔ ∃ X, Extreme (eight a b c p q r) X ∧ h = hitOf a b c p q r X := by
  constructor
  · intro hh
    obtain ⟨L, R, rfl⟩ := allHits_pair hh
    obtain ⟨X, hX, rfl, rfl⟩ := extreme_once h1 h2 ((allHits_spec h1 h2 L R).1 hh)
    exact ⟨X, hX, rfl⟩
  · rintro ⟨X, hX, rfl⟩
    exact (allHits_spec h1 h2 _ _).2 (once_extreme h1 h2 hX)

theorem hitOf_inj (h1 : dot (normal a b c) (normal a b c) ≠ 0) (h2 : dot (normal p q r) (normal p q r) ≠ 0) {X Y : P3}
    (hX : Extreme (eight a b c p q r) X) (hY : Extreme (eight a b c p q r) Y) (e : hitOf a b c p q r X = hitOf a b c p q r Y) : X = Y := by
  obtain ⟨e1, e2⟩ := pairCode_inj e
  have inX : PatOpen (pat (wt a b c (pnt p q r X))) a b c (pnt p q r X) ∧ PatOpen (pat X) p q r (pnt p q r X) := by
    obtain ⟨t, x, w, d⟩ := pos_iff.1 hX.1
    exact ⟨(patOpen_iff h1).2 ⟨d, rfl, w⟩, (patOpen_iff h2).2 ⟨det_combo_first _ _ _ t _ _ _, by rw [wt_pnt h2 t], by rw [wt_pnt h2 t]; exact x⟩⟩
  have inY : PatOpen (pat (wt a b c (pnt p q r Y))) a b c (pnt p q r Y) ∧ PatOpen (pat Y) p q r (pnt p q r Y) := by
    obtain ⟨t, x, w, d⟩ := pos_iff.1 hY.1
    exact ⟨(patOpen_iff h1).2 ⟨d, rfl, w⟩, (patOpen_iff h2).2 ⟨det_combo_first _ _ _ t _ _ _, by rw [wt_pnt h2 t], by rw [wt_pnt h2 t]; exact x⟩⟩
  rw [← e1, ← e2] at inY
  obtain ⟨z, _, hz⟩ := once_extreme h1 h2 hX
  have a1 := hz _ inX.1 inX.2
  have a2 := hz _ inY.1 inY.2
  have := congrArg (wt p q r) (a1.trans a2.symm)
  rwa [wt_pnt h2 hX.1.1, wt_pnt h2 hY.1.1] at this

end Kigumi.FaceFace

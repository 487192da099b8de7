import Verif.Proofs.FaceFaceCorners
import Verif.Proofs.FaceFaceOrder

/-! # The corners of the intersection of two triangles form a cycle -/
namespace Kigumi.FaceFace
open Kigumi Outcome Geo Region Spec.Triangles Polygon

variable {a b c p q r : P3}

def orPat (L L' : Pat) : Pat := (L.1 || L'.1, L.2.1 || L'.2.1, L.2.2 || L'.2.2)

theorem hull_pat (left : Bool) (L L' : Pat) (h : L ≠ (false, false, false)) : hullIsEdge (patCode left L) (patCode left L') = ok ((orPat L L').count == 2) := by
  obtain ⟨x, y, z⟩ := L
  obtain ⟨x', y', z'⟩ := L'
  cases left <;> cases x <;> cases y <;> cases z <;> cases x' <;> cases y' <;> cases z' <;> first | rfl | exact absurd rfl h

theorem linked_pat (L R L' R' : Pat) (h : L ≠ (false, false, false)) (h' : R ≠ (false, false, false)) :
    linked (pairCode L R) (pairCode L' R') = ok (((orPat L L').count == 2) || ((orPat R R').count == 2)) := by
  have e : linked (pairCode L R) (pairCode L' R') = (hullIsEdge (patCode true L) (patCode true L')).bind fun l => if l then ok true else hullIsEdge (patCode false R) (patCode false R') := rfl
  rw [e, hull_pat true L L' h, hull_pat false R R' h']
  generalize ((orPat L L').count == 2) = x
  cases x <;> rfl

/-- Two different points of a triangle span an edge exactly when they are on a common edge. -/
theorem count_two {U V : P3} (hU : total U = 1) (hV : total V = 1) (u : 0 ≤ U.x ∧ 0 ≤ U.y ∧ 0 ≤ U.z) (v : 0 ≤ V.x ∧ 0 ≤ V.y ∧ 0 ≤ V.z) (hne : U ≠ V) :
    ((orPat (pat U) (pat V)).count == 2) = true ↔ (U.x = 0 ∧ V.x = 0) ∨ (U.y = 0 ∧ V.y = 0) ∨ (U.z = 0 ∧ V.z = 0) := by
  obtain ⟨u1, u2, u3⟩ := u
  obtain ⟨v1, v2, v3⟩ := v
  simp only [total] at hU hV
  have z : ∀ {s t : ℚ}, 0 ≤ s → 0 ≤ t → ((s = 0 ∧ t = 0) ↔ (decide (0 < s) || decide (0 < t)) = false) := by
    intro s t hs ht
    rw [Bool.or_eq_false_iff, decide_eq_false_iff_not, decide_eq_false_iff_not, not_lt, not_lt]
    constructor
    · rintro ⟨rfl, rfl⟩; exact ⟨le_refl _, le_refl _⟩
    · rintro ⟨a, b⟩; exact ⟨le_antisymm a hs, le_antisymm b ht⟩
  have e12 : ¬ ((U.x = 0 ∧ V.x = 0) ∧ (U.y = 0 ∧ V.y = 0)) := by
    rintro ⟨⟨a, b⟩, c, d⟩; exact hne (p3_ext (by linarith) (by linarith) (by linarith))
  have e13 : ¬ ((U.x = 0 ∧ V.x = 0) ∧ (U.z = 0 ∧ V.z = 0)) := by
    rintro ⟨⟨a, b⟩, c, d⟩; exact hne (p3_ext (by linarith) (by linarith) (by linarith))
  have e23 : ¬ ((U.y = 0 ∧ V.y = 0) ∧ (U.z = 0 ∧ V.z = 0)) := by
    rintro ⟨⟨a, b⟩, c, d⟩; exact hne (p3_ext (by linarith) (by linarith) (by linarith))
  simp only [z u1 v1, z u2 v2, z u3 v3] at e12 e13 e23 ⊢
  simp only [orPat, pat, Pat.count]
  generalize (decide (0 < U.x) || decide (0 < V.x)) = x at *
  generalize (decide (0 < U.y) || decide (0 < V.y)) = y at *
  generalize (decide (0 < U.z) || decide (0 < V.z)) = w at *
  cases x <;> cases y <;> cases w <;> simp_all

theorem pat_ne {U : P3} (hU : total U = 1) : pat U ≠ (false, false, false) := by
  intro h
  obtain ⟨h1, h2⟩ := Prod.ext_iff.1 h
  obtain ⟨h2, h3⟩ := Prod.ext_iff.1 h2
  simp only [pat, decide_eq_false_iff_not, not_lt] at h1 h2 h3
  simp only [total] at hU; linarith

/-- The relation between two corners. -/
def AdjHit (a b c p q r : P3) (h h' : Hit) : Prop :=
  ∃ X Y, Extreme (eight a b c p q r) X ∧ Extreme (eight a b c p q r) Y ∧ h = hitOf a b c p q r X ∧ h' = hitOf a b c p q r Y ∧ Adj (six a b c p q r) X Y

theorem adj_iff {X Y : P3} (hX : total X = 1) (hY : total Y = 1) : Adj (six a b c p q r) X Y ↔
    ((X.x = 0 ∧ Y.x = 0) ∨ (X.y = 0 ∧ Y.y = 0) ∨ (X.z = 0 ∧ Y.z = 0)) ∨
    (((wt a b c (pnt p q r X)).x = 0 ∧ (wt a b c (pnt p q r Y)).x = 0) ∨ ((wt a b c (pnt p q r X)).y = 0 ∧ (wt a b c (pnt p q r Y)).y = 0) ∨ ((wt a b c (pnt p q r X)).z = 0 ∧ (wt a b c (pnt p q r Y)).z = 0)) := by
  obtain ⟨e0, e1, e2⟩ := dotF (a := a) (b := b) (c := c) (p := p) (q := q) (r := r) hX
  obtain ⟨f0, f1, f2⟩ := dotF (a := a) (b := b) (c := c) (p := p) (q := q) (r := r) hY
  have d0 : ∀ Z : P3, dot ⟨1, 0, 0⟩ Z = Z.x := by intro Z; simp only [dot]; ring
  have d1 : ∀ Z : P3, dot ⟨0, 1, 0⟩ Z = Z.y := by intro Z; simp only [dot]; ring
  have d2 : ∀ Z : P3, dot ⟨0, 0, 1⟩ Z = Z.z := by intro Z; simp only [dot]; ring
  rw [← e0, ← e1, ← e2, ← f0, ← f1, ← f2]
  unfold Adj
  simp only [six, List.mem_cons, List.not_mem_nil, or_false, exists_eq_or_imp, exists_eq_left, d0, d1, d2, or_assoc]

theorem extreme_facts {X : P3} (hX : Extreme (eight a b c p q r) X) : total X = 1 ∧ (0 ≤ X.x ∧ 0 ≤ X.y ∧ 0 ≤ X.z) ∧
    (0 ≤ (wt a b c (pnt p q r X)).x ∧ 0 ≤ (wt a b c (pnt p q r X)).y ∧ 0 ≤ (wt a b c (pnt p q r X)).z) ∧ det4 (pnt p q r X) a b c = 0 := pos_iff.1 hX.1

/-- `linked` decides the relation. -/
theorem linked_adj (h1 : dot (normal a b c) (normal a b c) ≠ 0) (h2 : dot (normal p q r) (normal p q r) ≠ 0) {X Y : P3}
    (hX : Extreme (eight a b c p q r) X) (hY : Extreme (eight a b c p q r) Y) (hne : X ≠ Y) :
    ∃ b', linked (hitOf a b c p q r X) (hitOf a b c p q r Y) = ok b' ∧ (b' = true ↔ Adj (six a b c p q r) X Y) := by
  obtain ⟨tX, x, w, d⟩ := extreme_facts hX
  obtain ⟨tY, y, w', d'⟩ := extreme_facts hY
  refine ⟨_, linked_pat _ _ _ _ (pat_ne (wt_total _ _ _ _)) (pat_ne tX), ?_⟩
  have hw : wt a b c (pnt p q r X) ≠ wt a b c (pnt p q r Y) := by
    intro e
    have := congrArg (pnt a b c) e
    rw [pnt_wt h1 d, pnt_wt h1 d'] at this
    have := congrArg (wt p q r) this
    rw [wt_pnt h2 tX, wt_pnt h2 tY] at this
    exact hne this
  rw [Bool.or_eq_true, count_two (wt_total _ _ _ _) (wt_total _ _ _ _) w w' hw, count_two tX tY x y hne, adj_iff tX tY, or_comm]

theorem exists_three {α : Type} {l : List α} (hn : l.Nodup) (h3 : 3 ≤ l.length) (x : α) : ∃ y z, y ∈ l ∧ z ∈ l ∧ y ≠ x ∧ z ≠ x ∧ y ≠ z := by
  match l, h3 with
  | u :: v :: w :: l, _ =>
    simp only [List.nodup_cons, List.mem_cons, not_or] at hn
    obtain ⟨⟨uv, uw, _⟩, ⟨vw, _⟩, _⟩ := hn
    by_cases e1 : u = x
    · subst e1; exact ⟨v, w, by simp, by simp, Ne.symm uv, Ne.symm uw, vw⟩
    · by_cases e2 : v = x
      · subst e2; exact ⟨u, w, by simp, by simp, uv, Ne.symm vw, uw⟩
      · exact ⟨u, v, by simp, by simp, e1, e2, uv⟩

/-- The list of corners. -/
theorem corner_list (h1 : dot (normal a b c) (normal a b c) ≠ 0) (h2 : dot (normal p q r) (normal p q r) ≠ 0) :
    ∃ cs : List P3, cs.Nodup ∧ cs.map (hitOf a b c p q r) = allHits a b c p q r ∧ ∀ X, X ∈ cs ↔ Extreme (eight a b c p q r) X := by
  have hc : ∀ h : Hit, ∃ X, h ∈ allHits a b c p q r → Extreme (eight a b c p q r) X ∧ h = hitOf a b c p q r X := by
    intro h
    by_cases hh : h ∈ allHits a b c p q r
    · obtain ⟨X, hX⟩ := (corner_of h1 h2).1 hh; exact ⟨X, fun _ => hX⟩
    · exact ⟨a, fun h' => absurd h' hh⟩
  choose χ hχ using hc
  have hmap : (List.map χ (allHits a b c p q r)).map (hitOf a b c p q r) = allHits a b c p q r := by
    rw [List.map_map]
    conv_rhs => rw [← List.map_id (allHits a b c p q r)]
    exact List.map_congr_left (fun h hh => (hχ h hh).2.symm)
  refine ⟨(allHits a b c p q r).map χ, ?_, hmap, ?_⟩
  · have := allHits_nodup h1 h2
    rw [← hmap] at this
    exact List.Nodup.of_map _ this
  · intro X
    constructor
    · intro hX
      obtain ⟨h, hh, rfl⟩ := List.mem_map.1 hX
      exact (hχ h hh).1
    · intro hX
      have hh : hitOf a b c p q r X ∈ allHits a b c p q r := (corner_of h1 h2).2 ⟨X, hX, rfl⟩
      have := hχ _ hh
      rw [hitOf_inj h1 h2 hX this.1 this.2]
      exact List.mem_map_of_mem hh

/-- With three corners the triangles are in one plane. -/
theorem corners_struct (h1 : dot (normal a b c) (normal a b c) ≠ 0) (h2 : dot (normal p q r) (normal p q r) ≠ 0) {cs : List P3}
    (hnd : cs.Nodup) (hmem : ∀ X, X ∈ cs ↔ Extreme (eight a b c p q r) X) (h3 : 3 ≤ cs.length) : Corners (eight a b c p q r) (six a b c p q r) cs := by
  obtain ⟨X, Y, hX, hY, _, _, hXY⟩ := exists_three hnd h3 a
  obtain ⟨Z, W, hZ, hW, hZX, hWX, hZW⟩ := exists_three hnd h3 X
  have : ∃ Z ∈ cs, X ≠ Z ∧ Y ≠ Z := by
    by_cases e : Z = Y
    · exact ⟨W, hW, Ne.symm hWX, fun e' => hZW (e.trans e')⟩
    · exact ⟨Z, hZ, Ne.symm hZX, Ne.symm e⟩
  obtain ⟨Z, hZ, hXZ, hYZ⟩ := this
  have hE : Zero (EE a b c p q r) := by
    have ho := extreme_noncollinear ((hmem X).1 hX) ((hmem Y).1 hY) ((hmem Z).1 hZ) hXY hXZ hYZ
    have ez : ∀ X ∈ cs, dot (EE a b c p q r) X = 0 := by
      intro X hX
      obtain ⟨t, _, _, d⟩ := extreme_facts ((hmem X).1 hX)
      rw [dotE t, d]
    have hw : ∀ W, dot (EE a b c p q r) W = 0 := by
      intro W
      have := cramer (EE a b c p q r) X Y Z W
      rw [ez X hX, ez Y hY, ez Z hZ] at this
      exact (mul_eq_zero.1 (by linarith)).resolve_left ho
    have e1 := hw ⟨1, 0, 0⟩; have e2 := hw ⟨0, 1, 0⟩; have e3 := hw ⟨0, 0, 1⟩
    simp only [dot] at e1 e2 e3
    exact ⟨by linarith, by linarith, by linarith⟩
  obtain ⟨z1, z2, z3⟩ := hE
  simp only [EE] at z1 z2 z3
  refine ⟨bounded_eight, ?_, ?_, ?_, hmem⟩
  · intro g hg; simp only [eight]; exact List.mem_append.2 (Or.inl hg)
  · intro g hg
    simp only [eight] at hg
    rcases List.mem_append.1 hg with h | h
    · exact Or.inl h
    · right
      simp only [List.mem_cons, List.not_mem_nil, or_false] at h
      rcases h with rfl | rfl
      · exact ⟨z1, z2, z3⟩
      · simp only [Polygon.Zero, EN]; exact ⟨by rw [z1]; ring, by rw [z2]; ring, by rw [z3]; ring⟩
  · -- the vertices of the first triangle are in the plane of the second
    have hpl : ∀ x : P3, det4 x a b c = 0 → det4 x p q r = 0 := by
      intro x hx
      -- p, q, r are in the plane of a b c
      obtain ⟨up, vp, wp, hp, rfl⟩ := plane_weights h1 z1
      obtain ⟨uq, vq, wq, hq, rfl⟩ := plane_weights h1 z2
      obtain ⟨ur, vr, wr, hr, rfl⟩ := plane_weights h1 z3
      obtain ⟨ux, vx, wx, hx', rfl⟩ := plane_weights h1 hx
      have e1 : up = 1 - vp - wp := by linarith
      have e2 : uq = 1 - vq - wq := by linarith
      have e3 : ur = 1 - vr - wr := by linarith
      have e4 : ux = 1 - vx - wx := by linarith
      subst e1; subst e2; subst e3; subst e4
      simp only [det4, dot, cross, sub, combo]; ring
    have fa : det4 a a b c = 0 := by simp only [det4, dot, cross, sub]; ring
    have fb : det4 b a b c = 0 := by simp only [det4, dot, cross, sub]; ring
    have fc : det4 c a b c = 0 := by simp only [det4, dot, cross, sub]; ring
    have hzero : ∀ g V, Polygon.Zero g → dot g V = 0 := by
      rintro g V ⟨a, b, c⟩; simp only [dot, a, b, c]; ring
    have wa : wt a b c a = ⟨1, 0, 0⟩ := by have := wt_combo h1 (u := 1) (v := 0) (w := 0) (by norm_num); rwa [combo_p] at this
    have wb : wt a b c b = ⟨0, 1, 0⟩ := by have := wt_combo h1 (u := 0) (v := 1) (w := 0) (by norm_num); rwa [combo_q] at this
    have wc : wt a b c c = ⟨0, 0, 1⟩ := by have := wt_combo h1 (u := 0) (v := 0) (w := 1) (by norm_num); rwa [combo_r] at this
    have key : ∀ x : P3, det4 x a b c = 0 → dot (F0 a b c p q r) (wt p q r x) = (wt a b c x).x ∧ dot (F1 a b c p q r) (wt p q r x) = (wt a b c x).y ∧ dot (F2 a b c p q r) (wt p q r x) = (wt a b c x).z := by
      intro x hx
      have := dotF (a := a) (b := b) (c := c) (p := p) (q := q) (r := r) (wt_total p q r x)
      rwa [pnt_wt h2 (hpl x hx)] at this
    intro g hg hz
    simp only [six, List.mem_cons, List.not_mem_nil, or_false] at hg
    rcases hg with rfl | rfl | rfl | rfl | rfl | rfl
    · exact one_ne_zero hz.1
    · exact one_ne_zero hz.2.1
    · exact one_ne_zero hz.2.2
    · have := (key a fa).1; rw [hzero _ _ hz, wa] at this; exact one_ne_zero this.symm
    · have := (key b fb).2.1; rw [hzero _ _ hz, wb] at this; exact one_ne_zero this.symm
    · have := (key c fc).2.2; rw [hzero _ _ hz, wc] at this; exact one_ne_zero this.symm

theorem adjHit_iff (h1 : dot (normal a b c) (normal a b c) ≠ 0) (h2 : dot (normal p q r) (normal p q r) ≠ 0) {X Y : P3}
    (hX : Extreme (eight a b c p q r) X) (hY : Extreme (eight a b c p q r) Y) : AdjHit a b c p q r (hitOf a b c p q r X) (hitOf a b c p q r Y) ↔ Adj (six a b c p q r) X Y := by
  constructor
  · rintro ⟨X', Y', hX', hY', e1, e2, h⟩
    rw [hitOf_inj h1 h2 hX hX' e1, hitOf_inj h1 h2 hY hY' e2]; exact h
  · intro h; exact ⟨X, Y, hX, hY, rfl, rfl, h⟩

/-- **The pairs found form a cycle.** -/
theorem hits_cycle (h1 : dot (normal a b c) (normal a b c) ≠ 0) (h2 : dot (normal p q r) (normal p q r) ≠ 0) (h3 : 3 ≤ (allHits a b c p q r).length) :
    Cycle (allHits a b c p q r) (AdjHit a b c p q r) := by
  classical
  obtain ⟨cs, hnd, hmap, hmem⟩ := corner_list h1 h2
  have hlen : cs.length = (allHits a b c p q r).length := by rw [← hmap, List.length_map]
  have H := corners_struct h1 h2 hnd hmem (by omega)
  have three := fun X (_ : X ∈ cs) => exists_three hnd (by omega) X
  have hit : ∀ h ∈ allHits a b c p q r, ∃ X ∈ cs, h = hitOf a b c p q r X := by
    intro h hh; rw [← hmap] at hh
    obtain ⟨X, hX, rfl⟩ := List.mem_map.1 hh; exact ⟨X, hX, rfl⟩
  have inhit : ∀ X ∈ cs, hitOf a b c p q r X ∈ allHits a b c p q r := by
    intro X hX; rw [← hmap]; exact List.mem_map_of_mem hX
  have ex : ∀ {X}, X ∈ cs → Extreme (eight a b c p q r) X := fun h => (hmem _).1 h
  have adj : ∀ {X Y}, X ∈ cs → Y ∈ cs → (AdjHit a b c p q r (hitOf a b c p q r X) (hitOf a b c p q r Y) ↔ Adj (six a b c p q r) X Y) := fun hX hY => adjHit_iff h1 h2 (ex hX) (ex hY)
  refine ⟨allHits_nodup h1 h2, h3, ?_, ?_, ?_, ?_, ?_, ?_⟩
  · rw [← hlen]; exact corners_le H hnd three
  · intro h hh h' hh' hne
    obtain ⟨X, hX, rfl⟩ := hit h hh
    obtain ⟨Y, hY, rfl⟩ := hit h' hh'
    rw [adj hX hY]
    exact linked_adj h1 h2 (ex hX) (ex hY) (fun e => hne (by rw [e]))
  · rintro h h' ⟨X, Y, hX, hY, e1, e2, hA⟩
    exact ⟨Y, X, hY, hX, e2, e1, hA.symm⟩
  · intro h hh
    obtain ⟨X, hX, rfl⟩ := hit h hh
    obtain ⟨Y1, Y2, N⟩ := nbrs H hX (three X hX)
    refine ⟨hitOf a b c p q r Y1, hitOf a b c p q r Y2, inhit _ N.m1, inhit _ N.m2, fun e => N.n1 (hitOf_inj h1 h2 (ex N.m1) (ex hX) e), fun e => N.n2 (hitOf_inj h1 h2 (ex N.m2) (ex hX) e),
      fun e => N.n12 (hitOf_inj h1 h2 (ex N.m1) (ex N.m2) e), (adj hX N.m1).2 N.a1, (adj hX N.m2).2 N.a2, ?_⟩
    intro w hw hne hA
    obtain ⟨W, hW, rfl⟩ := hit w hw
    rcases N.only W hW (fun e => hne (by rw [e])) ((adj hX hW).1 hA) with rfl | rfl
    · exact Or.inl rfl
    · exact Or.inr rfl
  · rintro S ⟨h0, hh0, s0⟩ hS h hh
    obtain ⟨X0, hX0, rfl⟩ := hit h0 hh0
    obtain ⟨X, hX, rfl⟩ := hit h hh
    refine connected H three (fun X => S (hitOf a b c p q r X)) ⟨X0, hX0, s0⟩ ?_ X hX
    intro X hX Y hY sX hA
    by_cases e : X = Y
    · rw [← e]; exact sX
    · exact hS _ (inhit X hX) _ (inhit Y hY) sX (fun e' => e (hitOf_inj h1 h2 (ex hX) (ex hY) e')) ((adj hX hY).2 hA)
  · -- every edge has its own half-plane
    intro es hes hall hanti
    have hx : ∀ e : Hit × Hit, ∃ g, e ∈ es → g ∈ six a b c p q r ∧ ∃ X Y, X ∈ cs ∧ Y ∈ cs ∧ X ≠ Y ∧ e = (hitOf a b c p q r X, hitOf a b c p q r Y) ∧ dot g X = 0 ∧ dot g Y = 0 := by
      intro e
      by_cases he : e ∈ es
      · obtain ⟨m1, m2, ne, X, Y, hX, hY, e1, e2, g, hg, g1, g2⟩ := hall e he
        exact ⟨g, fun _ => ⟨hg, X, Y, (hmem X).2 hX, (hmem Y).2 hY, fun h => ne (by rw [e1, e2, h]), Prod.ext e1 e2, g1, g2⟩⟩
      · exact ⟨a, fun h => absurd h he⟩
    choose f hf using hx
    have hinj : ∀ e ∈ es, ∀ e' ∈ es, f e = f e' → e = e' := by
      intro e he e' he' heq
      obtain ⟨hg, X, Y, hX, hY, hXY, e1, g1, g2⟩ := hf e he
      obtain ⟨_, X', Y', hX', hY', hXY', e2, g3, g4⟩ := hf e' he'
      rw [← heq] at g3 g4
      have key : ∀ Z ∈ cs, dot (f e) Z = 0 → Z = X ∨ Z = Y := by
        intro Z hZ hz
        by_contra hc
        push Not at hc
        exact tight_two H hg hX hY hZ hXY (Ne.symm hc.1) (Ne.symm hc.2) g1 g2 hz
      rcases key X' hX' g3 with rfl | rfl
      · rcases key Y' hY' g4 with rfl | rfl
        · exact absurd rfl hXY'
        · rw [e1, e2]
      · rcases key Y' hY' g4 with rfl | rfl
        · exfalso
          apply hanti e he
          rw [e1]; dsimp only; rw [← e2]; exact he'
        · exact absurd rfl hXY'
    have hnd' : (es.map f).Nodup := List.Nodup.map_on hinj hes
    have hsub : es.map f ⊆ six a b c p q r := by
      intro g hg
      obtain ⟨e, he, rfl⟩ := List.mem_map.1 hg
      exact (hf e he).1
    have := (List.subperm_of_subset hnd' hsub).length_le
    rwa [List.length_map] at this

end Kigumi.FaceFace

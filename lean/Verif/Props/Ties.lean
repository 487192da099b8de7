import Verif.Props.Crossing

/-! # C81: four points on a circle -/
namespace Kigumi.Props
open Kigumi Outcome Geo Spec.Triangles Spec.Side FaceFace Space
open Kigumi.Spec (SameTri HasCorners operandTris truth onSets RegionInv)
open Kigumi.Corefine (Env Gives GivesBy construct Operands both)
variable {D : Type} {E : Env} {E' : Mix.Env} {orig : Bool → List (Tri P3)} {χ : Bool → P3 → Prop} {a b : Region P3 D} {ord : Tri P3 → P3 → P3 → Prop}

/-! ## The orders -/

theorem second_multiple (k : ℚ) (n : P3) (h : first ⟨k * n.x, k * n.y, k * n.z⟩ = ⟨k * (first n).x, k * (first n).y, k * (first n).z⟩) :
    second ⟨k * n.x, k * n.y, k * n.z⟩ = ⟨k * k * (second n).x, k * k * (second n).y, k * k * (second n).z⟩ := by
  simp only [second, h]
  apply p3_ext <;> simp only <;> ring

theorem first_multiple {k : ℚ} (hk : k ≠ 0) (n : P3) : first ⟨k * n.x, k * n.y, k * n.z⟩ = ⟨k * (first n).x, k * (first n).y, k * (first n).z⟩ := by
  unfold first
  have : |k * n.y| ≤ |k * n.z| ↔ |n.y| ≤ |n.z| := by
    rw [abs_mul, abs_mul]
    exact mul_le_mul_iff_right₀ (abs_pos.2 hk)
  simp only [this]
  split <;> apply p3_ext <;> simp

theorem first_orthogonal (n : P3) : n.x * (first n).x + n.y * (first n).y + n.z * (first n).z = 0 := by
  unfold first; split <;> simp only <;> ring

theorem first_ne {n : P3} (h : n ≠ ⟨0, 0, 0⟩) : 0 < (first n).x ^ 2 + (first n).y ^ 2 + (first n).z ^ 2 := by
  have pos : ∀ {u v : ℚ}, u ≠ 0 ∨ v ≠ 0 → 0 < u ^ 2 + v ^ 2 := by
    rintro u v (h | h)
    · have := pow_pos (abs_pos.2 h) 2
      rw [sq_abs] at this
      linarith [sq_nonneg v]
    · have := pow_pos (abs_pos.2 h) 2
      rw [sq_abs] at this
      linarith [sq_nonneg u]
  unfold first
  split
  · rename_i k
    have : n.z ≠ 0 ∨ -n.x ≠ 0 := by
      by_contra hn
      push Not at hn
      rw [hn.1, abs_zero] at k
      exact h (p3_ext (by linarith [hn.2]) (abs_nonpos_iff.1 k) hn.1)
    simpa using pos this
  · rename_i k
    have : n.y ≠ 0 ∨ -n.x ≠ 0 := by
      left
      rintro h0
      rw [h0, abs_zero] at k
      exact k (abs_nonneg _)
    simpa using pos this

/-- **The orders by two directions in the plane are orders** of the points of each plane, and depend on the direction of the normal only. -/
theorem C81_axes : Orders axes ∧ Uniform axes := by
  refine ⟨⟨?_, ?_, ?_⟩, ?_⟩
  · rintro t x (h | h)
    exacts [lt_irrefl _ h, lt_irrefl _ h.2]
  · rintro t x y z (h | ⟨h, k⟩) (h' | ⟨h', k'⟩)
    · exact .inl (h.trans h')
    · exact .inl (h' ▸ h)
    · exact .inl (h ▸ h')
    · exact .inr ⟨h.trans h', k.trans k'⟩
  · intro t ht x y hx hy
    rcases lt_trichotomy (along (first (outward t)) x) (along (first (outward t)) y) with h | h | h
    · exact .inr (.inl (.inl h))
    · rcases lt_trichotomy (along (second (outward t)) x) (along (second (outward t)) y) with k | k | k
      · exact .inr (.inl (.inr ⟨h, k⟩))
      · left
        unfold LiesIn at hx hy
        have n0 : outward t ≠ ⟨0, 0, 0⟩ := ht
        have o1 := first_orthogonal (outward t)
        have f0 := first_ne n0
        simp only [along, second] at h k
        generalize outward t = n at *
        generalize first n = f at *
        have nn : 0 < n.x ^ 2 + n.y ^ 2 + n.z ^ 2 := by
          refine lt_of_le_of_ne (by positivity) fun e => n0 ?_
          have e1 := sq_nonneg n.x; have e2 := sq_nonneg n.y; have e3 := sq_nonneg n.z
          exact p3_ext (pow_eq_zero_iff two_ne_zero |>.1 (by linarith)) (pow_eq_zero_iff two_ne_zero |>.1 (by linarith)) (pow_eq_zero_iff two_ne_zero |>.1 (by linarith))
        have hp : 0 < (n.x ^ 2 + n.y ^ 2 + n.z ^ 2) * (f.x ^ 2 + f.y ^ 2 + f.z ^ 2) - (n.x * f.x + n.y * f.y + n.z * f.z) ^ 2 := by
          rw [o1]
          have := mul_pos nn f0
          linarith
        have zero : ∀ {d : ℚ}, ((n.x ^ 2 + n.y ^ 2 + n.z ^ 2) * (f.x ^ 2 + f.y ^ 2 + f.z ^ 2) - (n.x * f.x + n.y * f.y + n.z * f.z) ^ 2) * d = 0 → d = 0 := fun e => (mul_eq_zero.1 e).resolve_left hp.ne'
        refine p3_ext (sub_eq_zero.1 (zero ?_)) (sub_eq_zero.1 (zero ?_)) (sub_eq_zero.1 (zero ?_))
        · linear_combination (n.y * f.z - n.z * f.y) * k + (f.y * (n.x * f.y - n.y * f.x) - f.z * (n.z * f.x - n.x * f.z)) * (hx - hy) + ((n.z * f.x - n.x * f.z) * n.z - (n.x * f.y - n.y * f.x) * n.y) * h
        · linear_combination (n.z * f.x - n.x * f.z) * k + (f.z * (n.y * f.z - n.z * f.y) - f.x * (n.x * f.y - n.y * f.x)) * (hx - hy) + ((n.x * f.y - n.y * f.x) * n.x - (n.y * f.z - n.z * f.y) * n.z) * h
        · linear_combination (n.x * f.y - n.y * f.x) * k + (f.x * (n.z * f.x - n.x * f.z) - f.y * (n.y * f.z - n.z * f.y)) * (hx - hy) + ((n.y * f.z - n.z * f.y) * n.y - (n.z * f.x - n.x * f.z) * n.x) * h
      · exact .inr (.inr (.inr ⟨h.symm, k⟩))
    · exact .inr (.inr (.inl h))
  · intro t u k hk hm x y h
    have e1 := first_multiple hk.ne' (outward t)
    have e2 := second_multiple k (outward t) e1
    unfold Multiple at hm
    unfold axes
    rw [hm, e1, e2]
    have l1 : ∀ x, along ⟨k * (first (outward t)).x, k * (first (outward t)).y, k * (first (outward t)).z⟩ x = k * along (first (outward t)) x := fun x => by simp only [along]; ring
    have l2 : ∀ x, along ⟨k * k * (second (outward t)).x, k * k * (second (outward t)).y, k * k * (second (outward t)).z⟩ x = k * k * along (second (outward t)) x := fun x => by simp only [along]; ring
    rw [l1, l1, l2, l2]
    rcases h with h | ⟨h, h'⟩
    · exact .inl (mul_lt_mul_of_pos_left h hk)
    · exact .inr ⟨by rw [h], mul_lt_mul_of_pos_left h' (mul_pos hk hk)⟩

/-- Where the orders depend on the direction of the normal only, nothing is required of faces that look into the same direction. -/
theorem C81_split (ho : Orders ord) (hu : Uniform ord) (hn : NoFourOpposite orig) : SplitCircles ord orig := by
  intro t ht u hu' k hk hm w x y z ew ex ey ez hyz hc l1 l2 l3 l4 l5 l6
  rcases lt_or_gt_of_ne hk with neg | pos
  · have ne : ∀ {s p q}, ord s p q → p ≠ q := by rintro s p q h rfl; exact ho.irrefl _ _ h
    rcases hn t ht u hu' k neg hm w x y z ew ex ey ez hc with e | e | e | e | e | e
    exacts [absurd e (ne l1), absurd e.symm (ne l5), absurd e.symm (ne l6), absurd e.symm (ne l2), absurd e.symm (ne l3), absurd e hyz]
  · exact absurd (ho.trans _ _ _ _ l4 (hu t u k pos hm _ _ l1)) (ho.irrefl _ _)

/-! ## Existence -/

/-- **Constrained Delaunay triangulations exist in which all ties are broken by the order.** -/
theorem C81_triangulation (ho : Orders ord) {t : Tri P3} (ht : Proper t) {V : P3 → Prop} {S : P3 → P3 → Prop} (L : List P3) (hL : ∀ x, V x ↔ x ∈ L) (hin : ∀ x, V x → In t x)
    (hS : ∀ c d, S c d → (V c ∨ c ∈ t.toList) ∧ (V d ∨ d ∈ t.toList) ∧ c ≠ d) (hap : ∀ c d c' d', S c d → S c' d' → ¬ Cross c d c' d') : ∃ ps, Triangulates t V S ps ∧ TiesBy (ord t) t V S ps :=
  Cdt3.cdt_exists_by ht (Cdt3.orders_order ht ho) L hL hin hS hap

/-- **The corefinement has an execution with such triangulations**, for all operands whose triangles have nothing in common but vertices and edges. -/
theorem C81_mixed (ho : Orders ord) {op : Bool → List (Tri P3)} {s : Bool → Soup P3 D} (h : Operands op s) (hE : E.Valid op) : ∃ m border, GivesBy ord E (s true) (s false) m border :=
  Corefine.givesOf_exists h hE fun _ _ _ _ _ _ _ hent => Corefine.correct_exists_by ho hent.expected

/-! ## Boolean operations -/

/-- **Boolean operations of solids, also with four points on a circle.** The triangulations break ties by orders of the points.  If the greatest of four corners of a common part for the one face is the greatest one for the other, or opposite to it, then for every
execution: if the constructor of the builder returns, there is no warning, no operation throws, and its result is the result of the operation on the two sets. -/
theorem C81_boolean (ho : Orders ord) (hs : SplitCircles ord orig) (ha : IsSolid a (orig true) (χ true)) (hb : IsSolid b (orig false) (χ false)) (hE : E.Valid orig) (hman : ManifoldWhereCoinciding orig) (hE' : E'.Valid orig)
    {bb : Builder P3 D} {w : Global.Warnings} (h : Mix.Built E' (GivesBy ord E) a b bb w) (op : Op) (pf : Bool) :
    w = .none ∧ ∃ r, bb.run op pf = ok r ∧ Denotes r (fun x => x ∈ onSets op {x | χ true x} {x | χ false x}) (fun x => Surface (orig true) x ∨ Surface (orig false) x) :=
  boolean_by ha hb hE (Cutting.settled_ties ho hs) hman hE' h op pf

/-- **The classification returns** if from every point off the surface of an operand the centroid of some triangle is visible. -/
theorem C81_returns (ho : Orders ord) (hs : SplitCircles ord orig) (ha : IsSolid a (orig true) (χ true)) (hb : IsSolid b (orig false) (χ false)) (hE : E.Valid orig) (hman : ManifoldWhereCoinciding orig) (hE' : E'.Valid orig)
    (hv : ∀ c, orig c ≠ [] → Seen (orig c)) : ∃ bb w, Mix.Built E' (GivesBy ord E) a b bb w :=
  built_by ha hb hE (Cutting.settled_ties ho hs) hman hE' hv (C81_mixed ho (s := both a.boundary b.boundary) (solid_operands ha hb) hE)

/-- **Boolean operations of convex solids** return, with the right result. -/
theorem C81_convex (ho : Orders ord) (hs : SplitCircles ord orig) (ha : IsSolid a (orig true) (χ true)) (hb : IsSolid b (orig false) (χ false)) (hE : E.Valid orig) (hman : ManifoldWhereCoinciding orig) (hE' : E'.Valid orig)
    (hc : ∀ c, ConvexSet fun x => χ c x ∨ Surface (orig c) x) :
    (a.kind = .boundaryDefined → b.kind = .boundaryDefined → ∀ m0 border, GivesBy ord E a.boundary b.boundary m0 border → ¬ Mix.Fails E' a.boundary b.boundary m0 border) ∧ (∃ bb w, Mix.Built E' (GivesBy ord E) a b bb w) ∧
    ∀ bb w, Mix.Built E' (GivesBy ord E) a b bb w → ∀ op pf, ∃ r, bb.run op pf = ok r ∧ Denotes r (fun x => x ∈ onSets op {x | χ true x} {x | χ false x}) (fun x => Surface (orig true) x ∨ Surface (orig false) x) :=
  convex_by ha hb hE (Cutting.settled_ties ho hs) hman hE' hc (C81_mixed ho (s := both a.boundary b.boundary) (solid_operands ha hb) hE)

/-! ## Tetrahedra -/

theorem tetra_two {p q r s : P3} (h : 0 < det4 p q r s) {c d : P3} (hc : c ∈ [p, q, r, s]) (hd : d ∈ [p, q, r, s]) (hcd : c ≠ d) : TwoAtEdge (Space.tetra p q r s) c d := by
  have npq : p ≠ q := by rintro rfl; simp only [det4, dot, cross, sub] at h; ring_nf at h; exact lt_irrefl _ h
  have npr : p ≠ r := by rintro rfl; simp only [det4, dot, cross, sub] at h; ring_nf at h; exact lt_irrefl _ h
  have nps : p ≠ s := by rintro rfl; simp only [det4, dot, cross, sub] at h; ring_nf at h; exact lt_irrefl _ h
  have nqr : q ≠ r := by rintro rfl; simp only [det4, dot, cross, sub] at h; ring_nf at h; exact lt_irrefl _ h
  have nqs : q ≠ s := by rintro rfl; simp only [det4, dot, cross, sub] at h; ring_nf at h; exact lt_irrefl _ h
  have nrs : r ≠ s := by rintro rfl; simp only [det4, dot, cross, sub] at h; ring_nf at h; exact lt_irrefl _ h
  have nqp := npq.symm; have nrp := npr.symm; have nsp := nps.symm; have nrq := nqr.symm; have nsq := nqs.symm; have nsr := nrs.symm
  clear h
  have swap : ∀ {c d}, TwoAtEdge (Space.tetra p q r s) c d → TwoAtEdge (Space.tetra p q r s) d c := by
    rintro c d ⟨t1, h1, t2, h2, ne, k1, k2, k⟩
    exact ⟨t1, h1, t2, h2, ne, k1.symm, k2.symm, fun t ht a b => k t ht b a⟩
  have pair : ∀ {c d : P3} (t1 t2 : Tri P3), t1 ∈ Space.tetra p q r s → t2 ∈ Space.tetra p q r s → t1 ≠ t2 → c ∈ t1.toList → d ∈ t1.toList → c ∈ t2.toList → d ∈ t2.toList →
      (∀ t ∈ Space.tetra p q r s, c ∈ t.toList → d ∈ t.toList → t = t1 ∨ t = t2) → TwoAtEdge (Space.tetra p q r s) c d :=
    fun t1 t2 h1 h2 ne k1 k2 k3 k4 k => ⟨t1, h1, t2, h2, ne, ⟨k1, k2⟩, ⟨k3, k4⟩, k⟩
  have pq : TwoAtEdge (Space.tetra p q r s) p q := pair ⟨p, q, s⟩ ⟨p, r, q⟩ (by simp [Space.tetra]) (by simp [Space.tetra]) (by simp [*]) (by simp [Tri.toList]) (by simp [Tri.toList]) (by simp [Tri.toList]) (by simp [Tri.toList]) (by simp [Space.tetra, Tri.toList, *])
  have pr : TwoAtEdge (Space.tetra p q r s) p r := pair ⟨p, s, r⟩ ⟨p, r, q⟩ (by simp [Space.tetra]) (by simp [Space.tetra]) (by simp [*]) (by simp [Tri.toList]) (by simp [Tri.toList]) (by simp [Tri.toList]) (by simp [Tri.toList]) (by simp [Space.tetra, Tri.toList, *])
  have ps : TwoAtEdge (Space.tetra p q r s) p s := pair ⟨p, s, r⟩ ⟨p, q, s⟩ (by simp [Space.tetra]) (by simp [Space.tetra]) (by simp [*]) (by simp [Tri.toList]) (by simp [Tri.toList]) (by simp [Tri.toList]) (by simp [Tri.toList]) (by simp [Space.tetra, Tri.toList, *])
  have qr : TwoAtEdge (Space.tetra p q r s) q r := pair ⟨q, r, s⟩ ⟨p, r, q⟩ (by simp [Space.tetra]) (by simp [Space.tetra]) (by simp [*]) (by simp [Tri.toList]) (by simp [Tri.toList]) (by simp [Tri.toList]) (by simp [Tri.toList]) (by simp [Space.tetra, Tri.toList, *])
  have qs : TwoAtEdge (Space.tetra p q r s) q s := pair ⟨q, r, s⟩ ⟨p, q, s⟩ (by simp [Space.tetra]) (by simp [Space.tetra]) (by simp [*]) (by simp [Tri.toList]) (by simp [Tri.toList]) (by simp [Tri.toList]) (by simp [Tri.toList]) (by simp [Space.tetra, Tri.toList, *])
  have rs : TwoAtEdge (Space.tetra p q r s) r s := pair ⟨q, r, s⟩ ⟨p, s, r⟩ (by simp [Space.tetra]) (by simp [Space.tetra]) (by simp [*]) (by simp [Tri.toList]) (by simp [Tri.toList]) (by simp [Tri.toList]) (by simp [Tri.toList]) (by simp [Space.tetra, Tri.toList, *])
  simp only [List.mem_cons, List.not_mem_nil, or_false] at hc hd
  rcases hc with rfl | rfl | rfl | rfl <;> rcases hd with rfl | rfl | rfl | rfl <;> first | exact absurd rfl hcd | assumption | exact swap (by assumption)

theorem tetra_manifold {p q r s p' q' r' s' : P3} (h : 0 < det4 p q r s) (h' : 0 < det4 p' q' r' s') : ManifoldWhereCoinciding (both (Space.tetra p q r s) (Space.tetra p' q' r' s')) := by
  have mem : ∀ {p q r s : P3} {t : Tri P3} {c : P3}, t ∈ Space.tetra p q r s → c ∈ t.toList → c ∈ [p, q, r, s] := by
    intro p q r s t c ht hc
    simp only [Space.tetra, List.mem_cons, List.not_mem_nil, or_false] at ht
    rcases ht with rfl | rfl | rfl | rfl <;> simp only [Tri.toList, List.mem_cons, List.not_mem_nil, or_false] at hc ⊢ <;> tauto
  intro b t ht _ c hc d hd hcd
  cases b
  · exact tetra_two h' (mem ht hc) (mem ht hd) hcd
  · exact tetra_two h (mem ht hc) (mem ht hd) hcd

/-- **Any two tetrahedra** of which faces in a plane do not look into opposite directions, or have no four corners of their common part on a circle: with the orders by two directions, whatever the threads do, all Boolean operations return, with the right result. -/
theorem C81_tetrahedra {p q r s p' q' r' s' : P3} (h : 0 < det4 p q r s) (h' : 0 < det4 p' q' r' s') (hopp : NoFourOpposite (both (Space.tetra p q r s) (Space.tetra p' q' r' s'))) {E : Env} {E' : Mix.Env}
    (hE : E.Valid (both (Space.tetra p q r s) (Space.tetra p' q' r' s'))) (hE' : E'.Valid (both (Space.tetra p q r s) (Space.tetra p' q' r' s'))) :
    (∀ m0 border, GivesBy axes E (simplex p q r s).boundary (simplex p' q' r' s').boundary m0 border → ¬ Mix.Fails E' (simplex p q r s).boundary (simplex p' q' r' s').boundary m0 border) ∧
    (∃ bb w, Mix.Built E' (GivesBy axes E) (simplex p q r s) (simplex p' q' r' s') bb w) ∧
    ∀ bb w, Mix.Built E' (GivesBy axes E) (simplex p q r s) (simplex p' q' r' s') bb w → ∀ op pf, ∃ R, bb.run op pf = ok R ∧
      Denotes R (fun x => x ∈ onSets op {x | Within (Space.tetra p q r s) x} {x | Within (Space.tetra p' q' r' s') x}) (fun x => Surface (Space.tetra p q r s) x ∨ Surface (Space.tetra p' q' r' s') x) := by
  obtain ⟨h1, h2, h3⟩ := C81_convex (χ := fun c => Within (both (Space.tetra p q r s) (Space.tetra p' q' r' s') c)) C81_axes.1 (C81_split C81_axes.1 C81_axes.2 hopp) (simplex_is h) (simplex_is h') hE (tetra_manifold h h') hE' (by
    intro c
    cases c
    exacts [within_convexSet (tetra_convex h'), within_convexSet (tetra_convex h)])
  exact ⟨h1 rfl rfl, h2, h3⟩

/-! ## Two tetrahedra on a table, whose bases have a square in common -/

def tableLeft : List (Tri P3) := Space.tetra ⟨0, 0, 0⟩ ⟨4, 0, 0⟩ ⟨0, 4, 0⟩ ⟨0, 0, 4⟩
def tableRight : List (Tri P3) := Space.tetra ⟨2, 2, 0⟩ ⟨-2, 2, 0⟩ ⟨2, -2, 0⟩ ⟨2, 2, 8⟩

theorem table_det : 0 < det4 ⟨0, 0, 0⟩ ⟨4, 0, 0⟩ ⟨0, 4, 0⟩ ⟨0, 0, 4⟩ ∧ 0 < det4 ⟨2, 2, 0⟩ ⟨-2, 2, 0⟩ ⟨2, -2, 0⟩ ⟨2, 2, 8⟩ := by decide +kernel

/-- Faces with opposite normals are in different planes. -/
theorem table_opposite : NoFourOpposite (both tableLeft tableRight) := by
  intro t ht u hu k hk hm w x y z hw
  exfalso
  obtain ⟨⟨h1, h2⟩, -⟩ := hw
  have p1 := Side.plane_in h1
  have p2 := Side.plane_in h2
  change t ∈ tableLeft at ht
  change u ∈ tableRight at hu
  simp only [tableLeft, tableRight, Space.tetra, List.mem_cons, List.not_mem_nil, or_false] at ht hu
  rcases ht with rfl | rfl | rfl | rfl <;> rcases hu with rfl | rfl | rfl | rfl <;> simp only [Multiple, outward, Spec.P3.mk.injEq] at hm <;> obtain ⟨m1, m2, m3⟩ := hm <;>
    simp only [Side.plane, Side.Aff.eval, normal, dot, cross, sub] at p1 p2 <;> linarith

theorem in_square {x : P3} : Common ⟨⟨0, 0, 0⟩, ⟨0, 4, 0⟩, ⟨4, 0, 0⟩⟩ ⟨⟨2, 2, 0⟩, ⟨2, -2, 0⟩, ⟨-2, 2, 0⟩⟩ x ↔ x.z = 0 ∧ 0 ≤ x.x ∧ x.x ≤ 2 ∧ 0 ≤ x.y ∧ x.y ≤ 2 := by
  constructor
  · rintro ⟨⟨u, v, w, h, rfl, hu, hv, hw⟩, u', v', w', h', e, hu', hv', hw'⟩
    simp only [combo, Spec.P3.mk.injEq] at e ⊢
    obtain ⟨e1, e2, -⟩ := e
    refine ⟨?_, ?_, ?_, ?_, ?_⟩ <;> linarith
  · obtain ⟨x, y, z⟩ := x
    rintro ⟨rfl, h1, h2, h3, h4⟩
    simp only at h1 h2 h3 h4
    refine ⟨⟨1 - y / 4 - x / 4, y / 4, x / 4, by ring, ?_, by linarith, by linarith, by linarith⟩, ⟨(x + y) / 4, (2 - y) / 4, (2 - x) / 4, by ring, ?_, by linarith, by linarith, by linarith⟩⟩ <;> apply p3_ext <;> simp only [combo] <;> ring

theorem square_extreme {x : P3} (h : x ∈ [(⟨0, 0, 0⟩ : P3), ⟨2, 0, 0⟩, ⟨2, 2, 0⟩, ⟨0, 2, 0⟩]) : Extreme (Common ⟨⟨0, 0, 0⟩, ⟨0, 4, 0⟩, ⟨4, 0, 0⟩⟩ ⟨⟨2, 2, 0⟩, ⟨2, -2, 0⟩, ⟨-2, 2, 0⟩⟩) x := by
  have low : ∀ {s t p q : ℚ}, 0 < s → 0 ≤ t → 0 ≤ p → 0 ≤ q → s * p + t * q ≤ 0 → p = 0 := by
    intro s t p q s0 t0 p0 q0 h
    have := mul_nonneg t0 q0
    have h1 : s * p ≤ 0 := by linarith
    exact le_antisymm (nonpos_of_mul_nonpos_right h1 s0) p0
  have key : ∀ {s t p q c : ℚ}, s + t = 1 → 0 < s → 0 ≤ t → 0 ≤ p → p ≤ 2 → 0 ≤ q → q ≤ 2 → c = 0 ∨ c = 2 → c = s * p + t * q → p = c := by
    rintro s t p q c one s0 t0 p0 p1 q0 q1 (rfl | rfl) e
    · exact low s0 t0 p0 q0 e.ge
    · have := low (p := 2 - p) (q := 2 - q) s0 t0 (by linarith) (by linarith) (by nlinarith)
      linarith
  constructor
  · rw [in_square]
    simp only [List.mem_cons, List.not_mem_nil, or_false] at h
    rcases h with rfl | rfl | rfl | rfl <;> norm_num
  · rintro y z hy hz ⟨s, t, one, s0, t0, e⟩
    rw [in_square] at hy hz
    obtain ⟨y1, y2, y3, y4, y5⟩ := hy
    obtain ⟨z1, z2, z3, z4, z5⟩ := hz
    have cx : (x.x = 0 ∨ x.x = 2) ∧ (x.y = 0 ∨ x.y = 2) ∧ x.z = 0 := by
      simp only [List.mem_cons, List.not_mem_nil, or_false] at h
      rcases h with rfl | rfl | rfl | rfl <;> simp
    have e1 := congrArg Spec.P3.x e; have e2 := congrArg Spec.P3.y e
    simp only at e1 e2
    rcases s0.lt_or_eq with hs | hs
    · exact .inl (p3_ext (key one hs t0 y2 y3 z2 z3 cx.1 e1) (key one hs t0 y4 y5 z4 z5 cx.2.1 e2) (by rw [y1, cx.2.2]))
    · have ht : 0 < t := by linarith
      exact .inr (p3_ext (key (by linarith) ht s0 z2 z3 y2 y3 cx.1 (by linarith)) (key (by linarith) ht s0 z4 z5 y4 y5 cx.2.1 (by linarith)) (by rw [z1, cx.2.2]))

/-- The bases have four corners of a square in common. -/
example : ¬ NoFourOnCircle (both tableLeft tableRight) := by
  intro h
  have := h ⟨⟨0, 0, 0⟩, ⟨0, 4, 0⟩, ⟨4, 0, 0⟩⟩ (by simp [both, tableLeft, Space.tetra]) ⟨⟨2, 2, 0⟩, ⟨2, -2, 0⟩, ⟨-2, 2, 0⟩⟩ (by simp [both, tableRight, Space.tetra]) ⟨1, 1, 0⟩ _ _ _ _ (square_extreme (x := ⟨0, 0, 0⟩) (by simp))
    (square_extreme (x := ⟨2, 0, 0⟩) (by simp)) (square_extreme (x := ⟨2, 2, 0⟩) (by simp)) (square_extreme (x := ⟨0, 2, 0⟩) (by simp)) (by norm_num [dist2]) (by norm_num [dist2]) (by norm_num [dist2])
  norm_num at this

/-- The union of the two. -/
example : ∃ bb w, Mix.Built (someEnv (both tableLeft tableRight)) (GivesBy axes (Corefine.exactEnv (both tableLeft tableRight))) (simplex ⟨0, 0, 0⟩ ⟨4, 0, 0⟩ ⟨0, 4, 0⟩ ⟨0, 0, 4⟩) (simplex ⟨2, 2, 0⟩ ⟨-2, 2, 0⟩ ⟨2, -2, 0⟩ ⟨2, 2, 8⟩) bb w ∧
    ∃ R, bb.run .union false = ok R ∧ Denotes R (fun x => x ∈ onSets .union {x | Within tableLeft x} {x | Within tableRight x}) (fun x => Surface tableLeft x ∨ Surface tableRight x) := by
  obtain ⟨-, ⟨bb, w, hb⟩, h3⟩ := C81_tetrahedra table_det.1 table_det.2 table_opposite (C74_consistent _) (C70_consistent (by
    intro c
    cases c
    exacts [tetra_proper table_det.2.ne', tetra_proper table_det.1.ne']))
  exact ⟨bb, w, hb, h3 bb w hb .union false⟩

end Kigumi.Props

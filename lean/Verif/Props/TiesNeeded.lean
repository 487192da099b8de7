import Verif.Props.Ties
import Verif.Proofs.Untied

/-! # C82: where ties are broken in different ways, results are wrong -/
namespace Kigumi.Props
open Kigumi Outcome Geo Spec.Triangles Spec.Side FaceFace Space
open Kigumi.Spec (SameTri HasCorners operandTris truth onSets RegionInv)
open Kigumi.Corefine (Env Gives GivesBy construct Operands both)
variable {E : Env} {E' : Mix.Env}

/-! ## A tetrahedron on the table, and one below it -/

def tableBelow : List (Tri P3) := Space.tetra ⟨2, 2, 0⟩ ⟨2, -2, 0⟩ ⟨-2, 2, 0⟩ ⟨2, 2, -8⟩

/-- The base of the tetrahedron on the table. -/
def baseAbove : Tri P3 := ⟨⟨0, 0, 0⟩, ⟨0, 4, 0⟩, ⟨4, 0, 0⟩⟩
/-- The base of the tetrahedron below the table. -/
def baseBelow : Tri P3 := ⟨⟨2, 2, 0⟩, ⟨-2, 2, 0⟩, ⟨2, -2, 0⟩⟩

theorem below_det : 0 < det4 ⟨2, 2, 0⟩ ⟨2, -2, 0⟩ ⟨-2, 2, 0⟩ ⟨2, 2, -8⟩ := by decide +kernel

theorem above_mem : baseAbove ∈ tableLeft := by simp [tableLeft, Space.tetra, baseAbove]
theorem below_mem : baseBelow ∈ tableBelow := by simp [tableBelow, Space.tetra, baseBelow]

theorem in_below {x : P3} : In baseBelow x ↔ In ⟨⟨2, 2, 0⟩, ⟨2, -2, 0⟩, ⟨-2, 2, 0⟩⟩ x :=
  ⟨in_match (.inr (.inl rfl)), in_match (.inr (.inl rfl))⟩

theorem common_below {x : P3} : Common baseAbove baseBelow x ↔ Common ⟨⟨0, 0, 0⟩, ⟨0, 4, 0⟩, ⟨4, 0, 0⟩⟩ ⟨⟨2, 2, 0⟩, ⟨2, -2, 0⟩, ⟨-2, 2, 0⟩⟩ x := and_congr Iff.rfl in_below

theorem square_corners {x : P3} : Extreme (Common baseAbove baseBelow) x ↔ x = ⟨2, 2, 0⟩ ∨ x = ⟨0, 2, 0⟩ ∨ x = ⟨0, 0, 0⟩ ∨ x = ⟨2, 0, 0⟩ := by
  have e : Extreme (Common baseAbove baseBelow) x ↔ Extreme (Common ⟨⟨0, 0, 0⟩, ⟨0, 4, 0⟩, ⟨4, 0, 0⟩⟩ ⟨⟨2, 2, 0⟩, ⟨2, -2, 0⟩, ⟨-2, 2, 0⟩⟩) x := by
    unfold Extreme
    simp only [common_below]
  rw [e]
  constructor
  · rintro ⟨hx, h⟩
    rw [in_square] at hx
    simp only [in_square] at h
    obtain ⟨x, y, z⟩ := x
    obtain ⟨rfl, h1, h2, h3, h4⟩ := hx
    simp only at h1 h2 h3 h4
    have ex : x = 0 ∨ x = 2 := by
      rcases h ⟨0, y, 0⟩ ⟨2, y, 0⟩ ⟨rfl, by norm_num, by norm_num, h3, h4⟩ ⟨rfl, by norm_num, by norm_num, h3, h4⟩ ⟨1 - x / 2, x / 2, by ring, by linarith, by linarith, by apply p3_ext <;> simp only <;> ring⟩ with e | e
      · left; exact (congrArg Spec.P3.x e).symm
      · right; exact (congrArg Spec.P3.x e).symm
    have ey : y = 0 ∨ y = 2 := by
      rcases h ⟨x, 0, 0⟩ ⟨x, 2, 0⟩ ⟨rfl, h1, h2, by norm_num, by norm_num⟩ ⟨rfl, h1, h2, by norm_num, by norm_num⟩ ⟨1 - y / 2, y / 2, by ring, by linarith, by linarith, by apply p3_ext <;> simp only <;> ring⟩ with e | e
      · left; exact (congrArg Spec.P3.y e).symm
      · right; exact (congrArg Spec.P3.y e).symm
    rcases ex with rfl | rfl <;> rcases ey with rfl | rfl <;> simp
  · intro h
    refine square_extreme ?_
    rcases h with rfl | rfl | rfl | rfl <;> simp

/-- The greatest corners of the square, as seen from above and from below, are neighbours. -/
theorem square_crosswise : Cutting.Crosswise (axes baseAbove) (axes baseBelow) baseAbove baseBelow ⟨2, 2, 0⟩ ⟨0, 2, 0⟩ ⟨0, 0, 0⟩ ⟨2, 0, 0⟩ where
  corners _ := square_corners
  distinct := by norm_num
  circle := ⟨⟨1, 1, 0⟩, by norm_num [dist2], by norm_num [dist2], by norm_num [dist2]⟩
  first := by norm_num [axes, along, first, second, outward, baseAbove, sub, cross]
  second := by norm_num [axes, along, first, second, outward, baseBelow, sub, cross]
  beside := by
    rintro ⟨x, ⟨s, t, one, -, -, e⟩, ⟨s', t', -, -, -, e'⟩⟩
    have h1 := congrArg Spec.P3.y e
    have h2 := congrArg Spec.P3.y e'
    simp only at h1 h2
    linarith

theorem below_not {t : Tri P3} (ht : t ∈ tableLeft) : ¬ Match t baseBelow := by
  intro h
  have key : ∀ t ∈ tableLeft, (⟨2, 2, 0⟩ : P3) ∉ t.toList := by decide +kernel
  exact key t ht ((match_mem h ⟨2, 2, 0⟩).2 (by simp [baseBelow, Tri.toList]))

theorem above_not {u : Tri P3} (hu : u ∈ tableBelow) : ¬ Match baseAbove u := by
  intro h
  have key : ∀ u ∈ tableBelow, (⟨0, 0, 0⟩ : P3) ∉ u.toList := by decide +kernel
  exact key u hu ((match_mem h ⟨0, 0, 0⟩).1 (by simp [baseAbove, Tri.toList]))

theorem above_coincides : ¬ Coincides (both tableLeft tableBelow) true baseAbove := fun ⟨_, hu, hm⟩ => above_not hu hm
theorem below_coincides : ¬ Coincides (both tableLeft tableBelow) false baseBelow := fun ⟨_, hu, hm⟩ => below_not hu (match_symm hm)

theorem match_outward {p r : Tri P3} (h : Match p r) : ∃ e : ℚ, (e = 1 ∨ e = -1) ∧ outward r = ⟨e * (outward p).x, e * (outward p).y, e * (outward p).z⟩ := by
  rcases h with h | h
  · exact ⟨1, .inl rfl, by rw [Cutting.outward_sameTri h]; simp⟩
  · exact ⟨-1, .inr rfl, by rw [Cutting.outward_sameTri h, Cutting.outward_flip]; simp⟩

/-- No piece of the one tetrahedron is a piece of the other. -/
theorem table_differ {cut : Bool → Tri P3 → List (Tri P3)} (h : Cutting.Cuts (both tableLeft tableBelow) cut) (hc : Cutting.TiesCut axes (both tableLeft tableBelow) cut) : Cutting.PiecesDiffer (both tableLeft tableBelow) cut := by
  intro t ht u hu p hp r hr hm
  by_cases hb : t = baseAbove ∧ u = baseBelow
  · obtain ⟨rfl, rfl⟩ := hb
    exact Cutting.disagree (b := true) h hc ht hu above_coincides below_coincides square_crosswise hp hr hm
  obtain ⟨k, hk, e1⟩ := (h.tri true t ht).oriented p hp
  obtain ⟨k', hk', e2⟩ := (h.tri false u hu).oriented r hr
  obtain ⟨e, he, e3⟩ := match_outward hm
  have p1 := Side.plane_in ((h.tri true t ht).inside p hp p.a (Side.in_a p))
  have p2 := Side.plane_in ((h.tri false u hu).inside r hr p.a (in_match hm (Side.in_a p)))
  rw [e2, e1, Spec.P3.mk.injEq] at e3
  simp only at e3
  obtain ⟨n1, n2, n3⟩ := e3
  change t ∈ tableLeft at ht
  change u ∈ tableBelow at hu
  simp only [tableLeft, tableBelow, Space.tetra, List.mem_cons, List.not_mem_nil, or_false] at ht hu
  rcases he with rfl | rfl <;> rcases ht with rfl | rfl | rfl | rfl <;> rcases hu with rfl | rfl | rfl | rfl <;> simp only [outward, Side.plane, Side.Aff.eval, normal, dot, cross, sub] at p1 p2 n1 n2 n3 <;>
    first | exact hb ⟨rfl, rfl⟩ | linarith

/-! ## The sets -/

theorem in_left {x : P3} : Within tableLeft x ↔ 0 < x.x ∧ 0 < x.y ∧ 0 < x.z ∧ x.x + x.y + x.z < 4 := by
  simp only [Within, tableLeft, Space.tetra, List.mem_cons, List.not_mem_nil, or_false, forall_eq_or_imp, forall_eq, Side.plane, Side.Aff.eval, normal, dot, cross, sub]
  constructor
  · rintro ⟨h1, h2, h3, h4⟩
    refine ⟨?_, ?_, ?_, ?_⟩ <;> linarith
  · rintro ⟨h1, h2, h3, h4⟩
    refine ⟨?_, ?_, ?_, ?_⟩ <;> linarith

theorem in_right {x : P3} : Within tableBelow x ↔ x.x < 2 ∧ x.y < 2 ∧ x.z < 0 ∧ 0 < 2 * (x.x + x.y) + x.z := by
  simp only [Within, tableBelow, Space.tetra, List.mem_cons, List.not_mem_nil, or_false, forall_eq_or_imp, forall_eq, Side.plane, Side.Aff.eval, normal, dot, cross, sub]
  constructor
  · rintro ⟨h1, h2, h3, h4⟩
    refine ⟨?_, ?_, ?_, ?_⟩ <;> linarith
  · rintro ⟨h1, h2, h3, h4⟩
    refine ⟨?_, ?_, ?_, ?_⟩ <;> linarith

theorem within_off {p q r s : P3} (h : 0 < det4 p q r s) {x : P3} (hx : Within (Space.tetra p q r s) x) : ¬ Surface (Space.tetra p q r s) x := by
  rintro ⟨t, ht, hin⟩
  have := hx t ht
  rw [((tetra_convex h t ht x).1 hin).1] at this
  exact lt_irrefl _ this

theorem left_surface {x : P3} (h : Surface tableLeft x) : 0 ≤ x.z := by
  obtain ⟨t, ht, hin⟩ := h
  have := ((tetra_convex table_det.1 t ht x).1 hin).2 baseAbove above_mem
  simp only [baseAbove, Side.plane, Side.Aff.eval, normal, dot, cross, sub] at this
  linarith

theorem below_surface {x : P3} (h : Surface tableBelow x) : x.z ≤ 0 := by
  obtain ⟨t, ht, hin⟩ := h
  have := ((tetra_convex below_det t ht x).1 hin).2 baseBelow below_mem
  simp only [baseBelow, Side.plane, Side.Aff.eval, normal, dot, cross, sub] at this
  linarith

/-- Points above and below the square. -/
theorem near_square {x : P3} (h1 : 0 < x.x ∧ x.x < 2) (h2 : 0 < x.y ∧ x.y < 2) : (0 < x.z → x.x + x.y + x.z < 4 → Within tableLeft x ∧ ¬ (Surface tableLeft x ∨ Surface tableBelow x)) ∧
    (x.z < 0 → 0 < 2 * (x.x + x.y) + x.z → Within tableBelow x ∧ ¬ (Surface tableLeft x ∨ Surface tableBelow x)) := by
  constructor
  · intro h3 h4
    have hw := in_left.2 ⟨h1.1, h2.1, h3, h4⟩
    refine ⟨hw, ?_⟩
    rintro (h | h)
    · exact within_off table_det.1 hw h
    · linarith [below_surface h]
  · intro h3 h4
    have hw := in_right.2 ⟨h1.2, h2.2, h3, h4⟩
    refine ⟨hw, ?_⟩
    rintro (h | h)
    · linarith [left_surface h]
    · exact within_off below_det hw h

/-- At a triangle of a solid that is in the square, there is a point of the solid above it and a point that is not in the solid below it. -/
theorem solid_jump {ts : List (Tri P3)} {χ : P3 → Prop} (hc : Complex ts) (ho : Once ts) (hb : Bounds ts χ) {p : Tri P3} (hp : p ∈ ts) (h1 : ∀ v ∈ p.toList, In baseAbove v) (h2 : ∀ v ∈ p.toList, In baseBelow v) {k : ℚ} (hk : 0 < k)
    (hn : outward p = ⟨k * (outward baseAbove).x, k * (outward baseAbove).y, k * (outward baseAbove).z⟩) :
    ∃ y z, (Within tableLeft y ∧ ¬ (Surface tableLeft y ∨ Surface tableBelow y)) ∧ (Within tableBelow z ∧ ¬ (Surface tableLeft z ∨ Surface tableBelow z)) ∧ χ y ∧ ¬ χ z := by
  obtain ⟨i, hi⟩ := List.mem_iff_getElem?.1 hp
  have okp := Side.ok_of_proper (hc.proper p hp)
  obtain ⟨e, he, hj⟩ := hb.jump i p (centre p) hi (part_singly hc (fun t ht => ⟨t, ht, match_refl t⟩) ho hi (inner_centre p))
  have i1 := Cutting.centre_inner okp (Side.ok_of_proper (tetra_proper table_det.1.ne' baseAbove above_mem)) h1
  have i2 := Cutting.centre_inner okp (Side.ok_of_proper (tetra_proper below_det.ne' baseBelow below_mem)) h2
  generalize centre p = c at *
  have hc1 : (0 < c.x ∧ 0 < c.y) ∧ c.z = 0 := by
    obtain ⟨u, v, w, one, rfl, hu, hv, hw⟩ := i1
    simp only [Weight, if_true] at hu hv hw
    simp only [combo, baseAbove]
    refine ⟨⟨?_, ?_⟩, ?_⟩ <;> linarith
  have hc2 : c.x < 2 ∧ c.y < 2 := by
    obtain ⟨u, v, w, one, rfl, hu, hv, hw⟩ := i2
    simp only [Weight, if_true] at hu hv hw
    simp only [combo, baseBelow]
    constructor <;> linarith
  obtain ⟨⟨x0, y0⟩, z0⟩ := hc1
  have out : outward p = ⟨0, 0, -16 * k⟩ := by
    rw [hn]
    apply p3_ext <;> simp only [outward, baseAbove, sub, cross] <;> ring
  let s : ℚ := min e (min ((c.x + c.y) / (16 * k)) ((4 - (c.x + c.y)) / (32 * k)))
  have s0 : 0 < s := lt_min he (lt_min (div_pos (by linarith) (by linarith)) (div_pos (by linarith) (by linarith)))
  have s1 : s ≤ (c.x + c.y) / (16 * k) := (min_le_right _ _).trans (min_le_left _ _)
  have s2 : s ≤ (4 - (c.x + c.y)) / (32 * k) := (min_le_right _ _).trans (min_le_right _ _)
  rw [le_div_iff₀ (by linarith)] at s1 s2
  have sk : 0 < s * k := mul_pos s0 hk
  obtain ⟨j1, j2⟩ := hj s s0 (min_le_left _ _)
  refine ⟨_, _, (near_square (x := shift c (-s) (outward p)) ?_ ?_).1 ?_ ?_, (near_square (x := shift c s (outward p)) ?_ ?_).2 ?_ ?_, j1, j2⟩ <;> rw [out] <;> simp only [shift, z0] <;> first | (constructor <;> linarith) | linarith

/-! ## Results -/

/-- **Every result is wrong.** Whatever the threads do and whatever CGAL returns as long as it is right and breaks ties by the orders, the union contains a part of the square, or the intersection does. -/
theorem table_wrong (hE : E.Valid (both tableLeft tableBelow)) (hE' : E'.Valid (both tableLeft tableBelow)) {bb : Builder P3 Unit} {w : Global.Warnings}
    (h : Mix.Built E' (GivesBy axes E) (simplex ⟨0, 0, 0⟩ ⟨4, 0, 0⟩ ⟨0, 4, 0⟩ ⟨0, 0, 4⟩) (simplex ⟨2, 2, 0⟩ ⟨2, -2, 0⟩ ⟨-2, 2, 0⟩ ⟨2, 2, -8⟩) bb w) :
    ∃ op, ∀ pf r, bb.run op pf = ok r → ¬ Denotes r (fun x => x ∈ onSets op {x | Within tableLeft x} {x | Within tableBelow x}) (fun x => Surface tableLeft x ∨ Surface tableBelow x) := by
  unfold Mix.Built at h
  rw [if_neg (by decide)] at h
  obtain ⟨m0, border, hm0, hres, -⟩ := h
  have ha := simplex_is table_det.1
  have hb := simplex_is below_det
  have bounds : ∀ c, Bounds (both tableLeft tableBelow c) (both (Within tableLeft) (Within tableBelow) c) := by
    intro c; cases c
    exacts [hb.bounds, ha.bounds]
  obtain ⟨cut, ts, hcut, hl, hties⟩ := Corefine.gives_laid_by (s := both _ _) (solid_operands (orig := both tableLeft tableBelow) (χ := both (Within tableLeft) (Within tableBelow)) ha hb) hE hm0
  obtain ⟨tags, hm, htags⟩ := Cutting.tags_apart hcut (table_differ hcut hties) bounds hl hE' hres
  obtain ⟨p, hp, hpu⟩ := Cutting.crosswise_piece (b := true) hcut above_mem below_mem above_coincides below_coincides square_crosswise
  have hpt : ∀ v ∈ p.toList, In baseAbove v := fun v hv => (hcut.tri true _ above_mem).inside p hp v (Cutting.in_corner hv)
  obtain ⟨k, hk, hn⟩ := (hcut.tri true _ above_mem).oriented p hp
  have hmem : p ∈ operandTris ts m0.data true := by rw [hl.tris]; exact List.mem_flatMap.2 ⟨_, above_mem, hp⟩
  obtain ⟨i, d, hi, hd, hleft⟩ := Cutting.mem_operand.1 hmem
  have hlt : i < m0.faces.length := by rw [hl.corners.length_eq]; exact (List.getElem?_eq_some_iff.1 hi).1
  have hc : HasCorners bb.m.points bb.m.faces ts := by rw [hm]; exact hl.corners
  have hlen : bb.m.data.length = bb.m.faces.length := by rw [hm]; simp only [retag_length]; exact hl.data
  have hd' : bb.m.data[i]? = some { d with tag := tags i } := by rw [hm]; simp only [retag_get, hd]; simp
  have main : ∀ {op : Op}, (∀ pf, Spec.select op pf true (tags i) = some false) → ∀ pf r, bb.run op pf = ok r → ∀ ts' χ', IsSolid r ts' χ' → p ∈ ts' := by
    intro op hsel pf r hr ts' χ' hs
    obtain ⟨s, hex, hsc, -, -⟩ := extract_corners hc hlen op pf
    have hz : (p, { d with tag := tags i }) ∈ ts.zip bb.m.data := List.mem_of_getElem? (i := i) (by rw [List.getElem?_zip_eq_some]; exact ⟨hi, hd'⟩)
    have hout : p ∈ outTris ts bb.m.data op pf := List.mem_filterMap.2 ⟨_, hz, by simp only [hleft, hsel]; rfl⟩
    have hne : s.faces.length ≠ 0 := by
      rw [List.Forall₂.length_eq hsc]
      exact (List.length_pos_of_mem hout).ne'
    unfold Builder.run at hr
    rw [hex, ok_bind, if_pos hne] at hr
    unfold Region.ofSoup at hr
    rw [if_neg hne] at hr
    cases hr
    rw [hasCorners_unique hs.corners hsc]
    exact hout
  rcases htags i hlt with ht | ht
  · refine ⟨.union, fun pf r hr => ?_⟩
    rintro ⟨ts', χ', hs, -, heq⟩
    have hin := main (fun pf => by rw [ht]; cases pf <;> decide) pf r hr ts' χ' hs
    obtain ⟨y, z, -, ⟨z1, z2⟩, -, hz⟩ := solid_jump hs.complex hs.once hs.bounds hin hpt hpu hk hn
    exact hz ((heq z z2).2 (.inr z1))
  · refine ⟨.intersection, fun pf r hr => ?_⟩
    rintro ⟨ts', χ', hs, -, heq⟩
    have hin := main (fun pf => by rw [ht]; cases pf <;> decide) pf r hr ts' χ' hs
    obtain ⟨y, z, ⟨y1, y2⟩, -, hy, -⟩ := solid_jump hs.complex hs.once hs.bounds hin hpt hpu hk hn
    obtain ⟨-, h2⟩ := (heq y y2).1 hy
    have h1 := in_left.1 y1
    have h2 := in_right.1 h2
    linarith [h1.2.2.1, h2.2.2.1]

/-- **The condition on the orders cannot be dropped**, for faces that look into opposite directions. There are two tetrahedra for which, with the orders by two directions, every execution fails, or the union or the intersection that it gives is wrong, whatever the
threads do and whatever CGAL returns as long as it is right. -/
theorem C82_wrong : ∃ (a b : Region P3 Unit) (orig : Bool → List (Tri P3)) (χ : Bool → P3 → Prop), IsSolid a (orig true) (χ true) ∧ IsSolid b (orig false) (χ false) ∧ ManifoldWhereCoinciding orig ∧
    (∀ c, ConvexSet fun x => χ c x ∨ Surface (orig c) x) ∧ (∃ E : Env, E.Valid orig) ∧ (∃ E' : Mix.Env, E'.Valid orig) ∧ ∀ E : Env, E.Valid orig → ∀ E' : Mix.Env, E'.Valid orig → ∀ bb w, Mix.Built E' (GivesBy axes E) a b bb w →
      ∃ op, ∀ pf r, bb.run op pf = ok r → ¬ Denotes r (fun x => x ∈ onSets op {x | χ true x} {x | χ false x}) (fun x => Surface (orig true) x ∨ Surface (orig false) x) := by
  refine ⟨_, _, both tableLeft tableBelow, both (Within tableLeft) (Within tableBelow), simplex_is table_det.1, simplex_is below_det, tetra_manifold table_det.1 below_det, ?_, ⟨_, C74_consistent _⟩, ⟨_, C70_consistent ?_⟩, ?_⟩
  · intro c
    cases c
    exacts [within_convexSet (tetra_convex below_det), within_convexSet (tetra_convex table_det.1)]
  · intro c
    cases c
    exacts [tetra_proper below_det.ne', tetra_proper table_det.1.ne']
  · exact fun E hE E' hE' bb w h => table_wrong hE hE' h

/-- So the claim is false without the condition. -/
theorem C82_full_claim_false : ¬ ∀ (a b : Region P3 Unit) (orig : Bool → List (Tri P3)) (χ : Bool → P3 → Prop), IsSolid a (orig true) (χ true) → IsSolid b (orig false) (χ false) → ManifoldWhereCoinciding orig →
    (∀ c, ConvexSet fun x => χ c x ∨ Surface (orig c) x) → ∀ E : Env, E.Valid orig → ∀ E' : Mix.Env, E'.Valid orig → (∃ bb w, Mix.Built E' (GivesBy axes E) a b bb w) ∧
      ∀ bb w, Mix.Built E' (GivesBy axes E) a b bb w → ∀ op pf, ∃ r, bb.run op pf = ok r ∧ Denotes r (fun x => x ∈ onSets op {x | χ true x} {x | χ false x}) (fun x => Surface (orig true) x ∨ Surface (orig false) x) := by
  intro H
  obtain ⟨a, b, orig, χ, ha, hb, hm, hc, ⟨E, hE⟩, ⟨E', hE'⟩, h⟩ := C82_wrong
  obtain ⟨⟨bb, w, hbb⟩, hall⟩ := H a b orig χ ha hb hm hc E hE E' hE'
  obtain ⟨op, hop⟩ := h E hE E' hE' bb w hbb
  obtain ⟨r, hr, hd⟩ := hall bb w hbb op false
  exact hop false r hr hd

/-- If faces in a plane that look into opposite directions have no four corners of their common part on a circle, the results are right, and there are no warnings. -/
theorem C82_boolean_partial {D : Type} {orig : Bool → List (Tri P3)} {χ : Bool → P3 → Prop} {a b : Region P3 D} (hopp : NoFourOpposite orig) (ha : IsSolid a (orig true) (χ true)) (hb : IsSolid b (orig false) (χ false)) (hE : E.Valid orig)
    (hman : ManifoldWhereCoinciding orig) (hE' : E'.Valid orig) {bb : Builder P3 D} {w : Global.Warnings} (h : Mix.Built E' (GivesBy axes E) a b bb w) (op : Op) (pf : Bool) :
    w = .none ∧ ∃ r, bb.run op pf = ok r ∧ Denotes r (fun x => x ∈ onSets op {x | χ true x} {x | χ false x}) (fun x => Surface (orig true) x ∨ Surface (orig false) x) :=
  C81_boolean C81_axes.1 (C81_split C81_axes.1 C81_axes.2 hopp) ha hb hE hman hE' h op pf

/-- The condition holds for the two tetrahedra on the table, but not for the one on the table and the one below it. -/
example : NoFourOpposite (both tableLeft tableRight) ∧ ¬ NoFourOpposite (both tableLeft tableBelow) := by
  refine ⟨table_opposite, fun h => ?_⟩
  have := h baseAbove above_mem baseBelow below_mem (-1) (by norm_num) (by apply p3_ext <;> norm_num [outward, baseAbove, baseBelow, sub, cross]) _ _ _ _ (square_corners.2 (.inl rfl)) (square_corners.2 (.inr (.inl rfl)))
    (square_corners.2 (.inr (.inr (.inl rfl)))) (square_corners.2 (.inr (.inr (.inr rfl)))) square_crosswise.circle
  norm_num at this

end Kigumi.Props

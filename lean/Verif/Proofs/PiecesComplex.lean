import Verif.Proofs.PiecesMeet

/-! # The pieces of two operands -/
namespace Kigumi.Cutting
open Kigumi Geo Spec.Triangles Spec.Side FaceFace Space
open Kigumi.Side (Aff plane Ok eval_seg in_iff sides weightA weightB weightC eval_weightA eval_weightB eval_weightC eval_plane eval_plane' eval_neg ok_of_proper onSegment_self left_end right_end onSegment_swap in_a in_b in_c plane_in same_plane exists_eps miss_near seg_near near_refl near_mono)
variable {op : Bool → List (Tri P3)} {cut : Bool → Tri P3 → List (Tri P3)}

theorem com_match {p p' r r' : Tri P3} (h : Match p p') (h' : Match r r') {x : P3} (hx : Com p r x) : Com p' r' x :=
  hull_mono (fun v hv => ⟨(match_mem h v).1 hv.1, (match_mem h' v).1 hv.2⟩) hx

/-- Triangles that coincide with one of the other operand are not cut. -/
theorem whole (h : Cuts op cut) {b : Bool} {t p : Tri P3} (ht : t ∈ op b) (hc : Coincides op b t) (hp : p ∈ cut b t) : Match p t := by
  have ct := h.tri b t ht
  have mem : ∀ v ∈ p.toList, v ∈ t.toList := fun v hv => (mark_coincides hc).1 (ct.corner p hp v hv)
  exact match_of_mem (proper_distinct (ct.complex.proper p hp)) (mem _ (by simp [Tri.toList])) (mem _ (by simp [Tri.toList])) (mem _ (by simp [Tri.toList]))

/-- A piece of a triangle that coincides with one of the other operand coincides with a piece of that one. -/
theorem whole_partner (h : Cuts op cut) {b : Bool} {t u p : Tri P3} (ht : t ∈ op b) (hu : u ∈ op (!b)) (hm : Match t u) (hp : p ∈ cut b t) : ∃ r ∈ cut (!b) u, Match p r := by
  obtain ⟨r, hr, _⟩ := (h.tri (!b) u hu).cover u.a (in_a u)
  exact ⟨r, hr, match_trans (whole h ht ⟨u, hu, hm⟩ hp) (match_trans hm (match_symm (whole h hu (coincides_symm ht hm) hr)))⟩

theorem com_three {p p1 r : Tri P3} (hp1 : Ok p1) {x : P3} (h1 : Com p1 p x) (h2 : Com p1 r x) : Com p r x := by
  obtain ⟨u, v, w, hs, e, u0, v0, w0, mu, mv, mw⟩ := inCommon_iff.2 h1
  obtain ⟨u', v', w', hs', e', _, _, _, mu', mv', mw'⟩ := inCommon_iff.2 h2
  obtain ⟨rfl, rfl, rfl⟩ := weights_unique hp1 hs hs' (e.symm.trans e')
  rw [e]
  exact hull_combo hs u0 v0 w0 (fun h => ⟨mu h, mu' h⟩) (fun h => ⟨mv h, mv' h⟩) (fun h => ⟨mw h, mw' h⟩)

/-- **Pieces meet only in what their common corners span.** -/
theorem com_pieces (h : Cuts op cut) (hg : Agree op cut) {b b' : Bool} {t u p r : Tri P3} (ht : t ∈ op b) (hu : u ∈ op b') (hp : p ∈ cut b t) (hr : r ∈ cut b' u) {x : P3} (hx : In p x) (hx' : In r x) : Com p r x := by
  rcases Bool.eq_or_eq_not b' b with rfl | rfl
  · exact com_same h ht hu hp hr hx hx'
  have ct := h.tri b t ht
  have cu := h.tri (!b) u hu
  have ht' : t ∈ op (!!b) := by rw [Bool.not_not]; exact ht
  by_cases hct : Coincides op b t
  · obtain ⟨u', hu', hm⟩ := hct
    obtain ⟨r', hr', hm'⟩ := whole_partner h ht hu' hm hp
    exact com_match (match_symm hm') (match_refl r) (com_same h hu' hu hr' hr (in_match hm' hx) hx')
  by_cases hcu : Coincides op (!b) u
  · obtain ⟨t', ht1, hm⟩ := hcu
    obtain ⟨p', hp', hm'⟩ := whole_partner h hu ht1 hm hr
    rw [Bool.not_not] at ht1 hp'
    exact com_match (match_refl p) (match_symm hm') (com_same h ht ht1 hp hp' hx (in_match hm' hx'))
  have hm : Meet t u x := ⟨ct.inside p hp x hx, cu.inside r hr x hx'⟩
  have hull := meet_hull (ok_op h ht) (ok_op h hu) hm
  by_cases hw : Wide t u
  · obtain ⟨p1, hp1, hx1, hp1u⟩ := piece_cover h ht hu hct hcu hw hm
    obtain ⟨r1, hr1, hm1⟩ := hg b t ht u hu hct hcu hw _ hp1 hp1u
    have c1 := com_same h ht ht hp1 hp hx1 hx
    have c2 := com_same h hu hu hr1 hr (in_match hm1 hx1) hx'
    exact com_three (ok_of_proper (ct.complex.proper p1 hp1)) c1 (com_match (match_symm hm1) (match_refl r) c2)
  · obtain ⟨c, hc⟩ := hull_nonempty hull
    by_cases hd : ∃ d, Q t u d ∧ c ≠ d
    · obtain ⟨d, hd, hne⟩ := hd
      have only : ∀ e, Q t u e → e = c ∨ e = d := by
        intro e he
        by_contra hc'
        push Not at hc'
        exact hw ⟨c, d, e, hc, hd, he, hne, fun e1 => hc'.2 e1.symm, fun e1 => hc'.1 e1.symm⟩
      have hj : Joined t u c d := joined_iff.2 ⟨hc, hd, hne, Or.inr (Or.inr only)⟩
      have hs : OnSegment c d x := hull_poly' (S := OnSegment c d) (fun x y z hy hz hs => segment_btw hy hz hs) (fun e he => by
        rcases only e he with rfl | rfl
        · exact left_end _ _
        · exact right_end _ _) hull
      have s1 : CutSegment op b t c d := ⟨hct, u, hu, hcu, hj⟩
      have s2 : CutSegment op (!b) u c d := ⟨hcu, t, ht', by rw [Bool.not_not]; exact hct, joined_comm hj⟩
      rcases piece_segment h ht hp s1 hs hx with hm | ⟨c1, hc1, d1, hd1, o1, o2, hb, _⟩
      · exact .base ⟨hm, corner_common h ht hu hp hr hm hx'⟩
      rcases piece_segment h hu hr s2 hs hx' with hm | ⟨c2, hc2, d2, hd2, o3, o4, hb', _⟩
      · exact .base ⟨corner_common h hu ht hr hp hm hx, hm⟩
      refine com_segment h ht hu hp hr hc1 hd1 hc2 hd2 (btw_segment hb) (btw_segment hb') (o := c) (v := sub d c) ?_
      rintro y (rfl | rfl | rfl | rfl)
      · exact segment_shift o1
      · exact segment_shift o2
      · exact segment_shift o3
      · exact segment_shift o4
    · push Not at hd
      have e : x = c := hull_poly' (S := fun y => y = c) (fun x y z hy hz hs => by rw [hy, hz] at hs; exact onSegment_self hs) (fun e he => (hd e he).symm) hull
      have hmk := q_mark hu hct hcu hc
      have m1 : x ∈ p.toList := ct.vertex p hp x (e ▸ hmk) hx
      exact .base ⟨m1, corner_common h ht hu hp hr m1 hx'⟩

/-- Pieces of different triangles of an operand are different. -/
theorem pieces_apart (h : Cuts op cut) {b : Bool} {t u p r : Tri P3} (ht : t ∈ op b) (hu : u ∈ op b) (hp : p ∈ cut b t) (hr : r ∈ cut b u) (hm : Match p r) : t = u := by
  by_contra hne
  have hn : ¬ Match t u := fun hm => hne (once_match (h.once b) ht hu hm)
  obtain ⟨e, f, hl⟩ := meet_line (h.complex b) ht hu hn
  have ct := h.tri b t ht
  have cu := h.tri b u hu
  exact not_line (ok_of_proper (ct.complex.proper p hp)) (fun v hv => segment_shift (hl v ⟨ct.inside p hp v (in_corner hv), cu.inside r hr v (in_corner ((match_mem hm v).1 hv))⟩))

/-! ## Edges -/

/-- The third corner. -/
theorem third {k : Tri P3} (hk : Proper k) {c d : P3} (hc : c ∈ k.toList) (hd : d ∈ k.toList) (hne : c ≠ d) : ∃ w, Match ⟨c, d, w⟩ k := by
  obtain ⟨n1, n2, n3⟩ := proper_distinct hk
  obtain ⟨a, b, e⟩ := k
  simp only [Tri.toList, List.mem_cons, List.not_mem_nil, or_false] at hc hd
  rcases hc with rfl | rfl | rfl <;> rcases hd with rfl | rfl | rfl
  · exact absurd rfl hne
  · exact ⟨e, Or.inl (Or.inl rfl)⟩
  · exact ⟨b, Or.inr (Or.inl rfl)⟩
  · exact ⟨e, Or.inr (Or.inr (Or.inr rfl))⟩
  · exact absurd rfl hne
  · exact ⟨a, Or.inl (Or.inr (Or.inr rfl))⟩
  · exact ⟨b, Or.inl (Or.inr (Or.inl rfl))⟩
  · exact ⟨a, Or.inr (Or.inr (Or.inl rfl))⟩
  · exact absurd rfl hne

theorem corner_edge {t : Tri P3} {c d : P3} (hc : c ∈ t.toList) (hd : d ∈ t.toList) : SameEdge t.a t.b t.c c d := by
  simp only [Tri.toList, List.mem_cons, List.not_mem_nil, or_false] at hc hd
  rcases hc with rfl | rfl | rfl <;> rcases hd with rfl | rfl | rfl
  · exact Or.inl ⟨left_end _ _, left_end _ _⟩
  · exact Or.inl ⟨left_end _ _, right_end _ _⟩
  · exact Or.inr (Or.inr ⟨right_end _ _, left_end _ _⟩)
  · exact Or.inl ⟨right_end _ _, left_end _ _⟩
  · exact Or.inl ⟨right_end _ _, right_end _ _⟩
  · exact Or.inr (Or.inl ⟨left_end _ _, right_end _ _⟩)
  · exact Or.inr (Or.inr ⟨left_end _ _, right_end _ _⟩)
  · exact Or.inr (Or.inl ⟨right_end _ _, left_end _ _⟩)
  · exact Or.inr (Or.inr ⟨left_end _ _, left_end _ _⟩)

/-- The midpoint of points that are not on a common edge is not on an edge. -/
theorem mid_inner {t : Tri P3} (ht : Ok t) {c d : P3} (hc : In t c) (hd : In t d) (hn : ¬ SameEdge t.a t.b t.c c d) : Inner t (seg (1 / 2) (1 / 2) c d) := by
  have hb : Btw (seg (1 / 2) (1 / 2) c d) c d := ⟨1 / 2, 1 / 2, by norm_num, by norm_num, by norm_num, rfl⟩
  rcases inner_or_edge (btw_in hb hc hd) with h | ⟨e, f, he, hs⟩
  · exact h
  · exfalso
    have hF := edge_face ht he
    exact hn (sameEdge_iff.2 ⟨e, f, he, hF.2 _ c d hs hc hd hb, hF.2 _ d c hs hd hc (btw_symm hb)⟩)

/-- Triangles at an edge, on the same side of it, have inner points in common. -/
theorem overlap {c d w w' : P3} {α β γ : ℚ} (hs : α + β + γ = 1) (hw : w = combo α β γ c d w') (hγ : 0 < γ) : ∃ y, In ⟨c, d, w⟩ y ∧ Inner ⟨c, d, w'⟩ y := by
  have ha := neg_abs_le α
  have hb := neg_abs_le β
  have ha0 := abs_nonneg α
  have hb0 := abs_nonneg β
  have hpos : 0 < 2 + 2 * |α| + 2 * |β| := by linarith
  obtain ⟨s, s0, hs1⟩ : ∃ s : ℚ, 0 < s ∧ s * (2 + 2 * |α| + 2 * |β|) = 1 := ⟨1 / (2 + 2 * |α| + 2 * |β|), div_pos one_pos hpos, by field_simp⟩
  have k1 : s * |α| + s * |β| = 1 / 2 - s := by linarith
  have k2 : 0 ≤ s * |α| := mul_nonneg s0.le ha0
  have k3 : 0 ≤ s * |β| := mul_nonneg s0.le hb0
  have k4 : 0 ≤ s * (|α| + α) := mul_nonneg s0.le (by linarith)
  have k5 : 0 ≤ s * (|β| + β) := mul_nonneg s0.le (by linarith)
  refine ⟨combo ((1 - s) / 2) ((1 - s) / 2) s c d w, ⟨_, _, _, by ring, rfl, by linarith, by linarith, s0.le⟩, (1 - s) / 2 + s * α, (1 - s) / 2 + s * β, s * γ, by linear_combination s * hs, ?_, ?_, ?_, ?_⟩
  · rw [hw]; apply p3_ext <;> simp only [combo] <;> ring
  · simp only [Weight, if_true]; linarith
  · simp only [Weight, if_true]; linarith
  · simp only [Weight, if_true]; positivity

/-- At an inner edge of a triangle there are at most two pieces. -/
theorem at_most_two (h : Cuts op cut) {b : Bool} {t k k' k'' : Tri P3} (ht : t ∈ op b) (hk : k ∈ cut b t) (hk' : k' ∈ cut b t) (hk'' : k'' ∈ cut b t) {c d : P3} (hne : c ≠ d)
    (m : c ∈ k.toList ∧ d ∈ k.toList) (m' : c ∈ k'.toList ∧ d ∈ k'.toList) (m'' : c ∈ k''.toList ∧ d ∈ k''.toList) : Match k k' ∨ Match k' k'' ∨ Match k k'' := by
  have ct := h.tri b t ht
  have okt := ok_op h ht
  obtain ⟨w, hw⟩ := third (ct.complex.proper k hk) m.1 m.2 hne
  obtain ⟨w', hw'⟩ := third (ct.complex.proper k' hk') m'.1 m'.2 hne
  obtain ⟨w'', hw''⟩ := third (ct.complex.proper k'' hk'') m''.1 m''.2 hne
  have ok : ∀ {k w}, k ∈ cut b t → Match ⟨c, d, w⟩ k → Ok ⟨c, d, w⟩ ∧ (∀ x, In (⟨c, d, w⟩ : Tri P3) x → In t x) := by
    intro k w hk hm
    constructor
    · have okk := ok_of_proper (ct.complex.proper k hk)
      intro h0
      obtain ⟨a1, a2, a3⟩ := dot_self_zero h0
      by_cases hcd : c = d
      · exact hne hcd
      · obtain ⟨q, hq⟩ := cross_zero (u := sub d c) (v := sub w c) (p3_ext a1 a2 a3) (sub_ne hcd)
        refine not_line okk (o := c) (v := sub d c) (fun v hv => ?_)
        have := (match_mem hm v).2 hv
        simp only [Tri.toList, List.mem_cons, List.not_mem_nil, or_false] at this
        rcases this with rfl | rfl | rfl
        · exact ⟨0, by apply p3_ext <;> simp [shift]⟩
        · exact ⟨1, by apply p3_ext <;> simp [shift, sub]⟩
        · have e1 := congrArg Spec.P3.x hq
          have e2 := congrArg Spec.P3.y hq
          have e3 := congrArg Spec.P3.z hq
          simp only [sub] at e1 e2 e3
          exact ⟨q, by apply p3_ext <;> simp only [shift, sub] <;> linarith⟩
    · intro x hx
      exact ct.inside k hk x (in_match hm hx)
  obtain ⟨o1, i1⟩ := ok hk hw
  obtain ⟨o2, i2⟩ := ok hk' hw'
  obtain ⟨o3, i3⟩ := ok hk'' hw''
  -- third corners in terms of each other
  have weights : ∀ {w w' : P3}, Ok ⟨c, d, w'⟩ → (∀ x, In (⟨c, d, w'⟩ : Tri P3) x → In t x) → In t w → ∃ α β γ : ℚ, α + β + γ = 1 ∧ w = combo α β γ c d w' := by
    intro w w' hok hin hwt
    obtain ⟨q, hq, e⟩ := same_plane hok okt (fun z hz => plane_in (hin z hz))
    have h0 := plane_in hwt
    rw [e, mul_eq_zero] at h0
    have h0 := h0.resolve_left hq
    rw [eval_plane'] at h0
    exact plane_weights hok (by linarith)
  have nz : ∀ {w w' : P3} {α β γ : ℚ}, Ok ⟨c, d, w⟩ → α + β + γ = 1 → w = combo α β γ c d w' → γ ≠ 0 := by
    rintro w w' α β γ hok hs hw rfl
    refine not_line hok (o := c) (v := sub d c) (fun v hv => ?_)
    simp only [Tri.toList, List.mem_cons, List.not_mem_nil, or_false] at hv
    rcases hv with rfl | rfl | rfl
    · exact ⟨0, by apply p3_ext <;> simp [shift]⟩
    · exact ⟨1, by apply p3_ext <;> simp [shift, sub]⟩
    · refine ⟨β, ?_⟩
      rw [hw]
      have : α = 1 - β := by linarith
      subst this
      apply p3_ext <;> simp only [shift, sub, combo] <;> ring
  have meet : ∀ {k k' w w' : _}, k ∈ cut b t → k' ∈ cut b t → Match ⟨c, d, w⟩ k → Match ⟨c, d, w'⟩ k' → (∃ y, In (⟨c, d, w⟩ : Tri P3) y ∧ Inner (⟨c, d, w'⟩ : Tri P3) y) → Match k' k := by
    rintro k k' w w' hk hk' hm hm' ⟨y, h1, h2⟩
    exact inner_common (ct.complex.proper k' hk') (inner_match hm' h2) (ct.complex.meet k' hk' k hk y (in_match hm' (inner_in h2)) (in_match hm h1))
  obtain ⟨α, β, γ, hs, e⟩ := weights o1 i1 (i2 w' (in_c ⟨c, d, w'⟩))
  obtain ⟨α', β', γ', hs', e'⟩ := weights o1 i1 (i3 w'' (in_c ⟨c, d, w''⟩))
  have hγ := nz o2 hs e
  have hγ' := nz o3 hs' e'
  rcases lt_or_gt_of_ne hγ with h1 | h1
  · rcases lt_or_gt_of_ne hγ' with h2 | h2
    · -- both on the other side
      right; left
      have e3 : w'' = combo (α' - γ' / γ * α) (β' - γ' / γ * β) (γ' / γ) c d w' := by
        rw [e', e]
        apply p3_ext <;> simp only [combo] <;> field_simp <;> ring
      have hsum : (α' - γ' / γ * α) + (β' - γ' / γ * β) + γ' / γ = 1 := by
        have : α = 1 - β - γ := by linarith
        have : α' = 1 - β' - γ' := by linarith
        subst α α'
        field_simp; ring
      exact meet hk'' hk' hw'' hw' (overlap hsum e3 (by rw [← neg_div_neg_eq]; exact div_pos (by linarith) (by linarith)))
    · right; right
      exact meet hk'' hk hw'' hw (overlap hs' e' h2)
  · left
    exact meet hk' hk hw' hw (overlap hs e h1)

theorem corner_other (h : Cuts op cut) {b : Bool} {t t' : Tri P3} (ht : t ∈ op b) (ht' : t' ∈ op b) {x : P3} (hx : x ∈ t.toList) (hx' : In t' x) : x ∈ t'.toList := by
  have f1 : FaceOf (Meet t' t) (In t') := complex_face (h.complex b) ht' ht
  have e1 : Ext (Meet t' t) x := by rw [meet_comm]; exact ext_sub (corner_ext (ok_op h ht) hx) ⟨in_corner hx, hx'⟩ (fun y hy => hy.1)
  exact ext_corner (ext_face f1 e1)

theorem joined_border {b : Bool} {t u : Tri P3} (ht : t ∈ op b) (hu : u ∈ op (!b)) (hct : ¬ Coincides op b t) (hcu : ¬ Coincides op (!b) u) {c d : P3} (hj : Joined t u c d) : BorderEdge op c d := by
  cases b
  · exact ⟨u, hu, t, ht, hcu, hct, joined_comm hj⟩
  · exact ⟨t, ht, u, hu, hct, hcu, hj⟩

/-- Edges that pieces of both operands have and that are no border edges: every piece there coincides with one of the other operand. -/
theorem seam (h : Cuts op cut) (hg : Agree op cut) (hm : ManifoldWhereCoinciding op) {b : Bool} {t u p r : Tri P3} (ht : t ∈ op b) (hu : u ∈ op (!b)) (hp : p ∈ cut b t) (hr : r ∈ cut (!b) u) {c d : P3} (hne : c ≠ d)
    (mp : c ∈ p.toList ∧ d ∈ p.toList) (mr : c ∈ r.toList ∧ d ∈ r.toList) (hb : ¬ BorderEdge op c d) :
    (∀ b', ∀ t' ∈ op b', ∀ k ∈ cut b' t', c ∈ k.toList → d ∈ k.toList → ∃ u' ∈ op (!b'), ∃ k' ∈ cut (!b') u', Match k k') ∧
    ∀ b', ∀ t1 ∈ op b', ∀ k1 ∈ cut b' t1, ∀ t2 ∈ op b', ∀ k2 ∈ cut b' t2, ∀ t3 ∈ op b', ∀ k3 ∈ cut b' t3, (c ∈ k1.toList ∧ d ∈ k1.toList) → (c ∈ k2.toList ∧ d ∈ k2.toList) → (c ∈ k3.toList ∧ d ∈ k3.toList) →
      Match k1 k2 ∨ Match k2 k3 ∨ Match k1 k3 := by
  -- where a triangle coincides
  have B : ∀ {b : Bool} {t u1 p : Tri P3}, t ∈ op b → u1 ∈ op (!b) → Match t u1 → p ∈ cut b t → c ∈ p.toList → d ∈ p.toList →
      ∃ t2 ∈ op b, ∃ u2 ∈ op (!b), Match t2 u2 ∧ (∀ t' ∈ op b, In t' c → In t' d → t' = t ∨ t' = t2) ∧ ∀ u' ∈ op (!b), In u' c → In u' d → u' = u1 ∨ u' = u2 := by
    intro b t u1 p ht hu1 hm1 hp hc hd
    have hw := whole h ht ⟨u1, hu1, hm1⟩ hp
    have ct : c ∈ t.toList := (match_mem hw c).1 hc
    have dt : d ∈ t.toList := (match_mem hw d).1 hd
    have cu : c ∈ u1.toList := (match_mem hm1 c).1 ct
    have du : d ∈ u1.toList := (match_mem hm1 d).1 dt
    have other : ∀ {b : Bool} {t : Tri P3}, t ∈ op b → Coincides op b t → c ∈ t.toList → d ∈ t.toList → ∃ t2 ∈ op b, t2 ≠ t ∧ (c ∈ t2.toList ∧ d ∈ t2.toList) ∧ ∀ t' ∈ op b, In t' c → In t' d → t' = t ∨ t' = t2 := by
      intro b t ht hco ct dt
      obtain ⟨t1, h1, t2, h2, hn, m1, m2, hall⟩ := hm b t ht hco c ct d dt hne
      have hall' : ∀ t' ∈ op b, In t' c → In t' d → t' = t1 ∨ t' = t2 := fun t' ht' hc hd => hall t' ht' (corner_other h ht ht' ct hc) (corner_other h ht ht' dt hd)
      rcases hall t ht ct dt with rfl | rfl
      · exact ⟨t2, h2, hn.symm, m2, hall'⟩
      · exact ⟨t1, h1, hn, m1, fun t' ht' hc hd => (hall' t' ht' hc hd).symm⟩
    obtain ⟨t2, h2, n2, m2, all2⟩ := other ht ⟨u1, hu1, hm1⟩ ct dt
    obtain ⟨u2, h3, n3, m3, all3⟩ := other hu1 (coincides_symm ht hm1) cu du
    refine ⟨t2, h2, u2, h3, ?_, all2, all3⟩
    by_cases hc2 : Coincides op b t2
    · obtain ⟨u3, hu3, hm3⟩ := hc2
      rcases all3 u3 hu3 (in_match hm3 (in_corner m2.1)) (in_match hm3 (in_corner m2.2)) with rfl | rfl
      · exact absurd (once_match (h.once b) h2 ht (match_trans hm3 (match_symm hm1))) n2
      · exact hm3
    · by_cases hc3 : Coincides op (!b) u2
      · obtain ⟨t3, ht3, hm3⟩ := hc3
        rw [Bool.not_not] at ht3
        rcases all2 t3 ht3 (in_match hm3 (in_corner m3.1)) (in_match hm3 (in_corner m3.2)) with rfl | rfl
        · exact absurd (once_match (h.once _) h3 hu1 (match_trans hm3 hm1)) n3
        · exact match_symm hm3
      · exfalso
        refine hb (joined_border h2 h3 hc2 hc3 (joined_iff.2 ⟨?_, ?_, hne, Or.inl (corner_edge m2.1 m2.2)⟩))
        · exact corner_q (ok_op h h2) m2.1 (in_corner m3.1)
        · exact corner_q (ok_op h h2) m2.2 (in_corner m3.2)
  -- the conclusion from two coinciding pairs
  have conclude : ∀ {b : Bool} {t u t2 u2 : Tri P3}, t ∈ op b → u ∈ op (!b) → t2 ∈ op b → u2 ∈ op (!b) → Match t u → Match t2 u2 → (∀ t' ∈ op b, In t' c → In t' d → t' = t ∨ t' = t2) →
      (∀ u' ∈ op (!b), In u' c → In u' d → u' = u ∨ u' = u2) → (∀ b', ∀ t' ∈ op b', In t' c → In t' d → ∃ u' ∈ op (!b'), Match t' u') ∧ ∀ b', ∃ s s', ∀ t' ∈ op b', In t' c → In t' d → t' = s ∨ t' = s' := by
    intro b t u t2 u2 ht hu h2 h3 hm1 hm2 all2 all3
    constructor
    · intro b' t' ht' hc hd
      rcases Bool.eq_or_eq_not b' b with rfl | rfl
      · rcases all2 t' ht' hc hd with rfl | rfl
        · exact ⟨u, hu, hm1⟩
        · exact ⟨u2, h3, hm2⟩
      · rcases all3 t' ht' hc hd with rfl | rfl
        · exact ⟨t, by rw [Bool.not_not]; exact ht, match_symm hm1⟩
        · exact ⟨t2, by rw [Bool.not_not]; exact h2, match_symm hm2⟩
    · intro b'
      rcases Bool.eq_or_eq_not b' b with rfl | rfl
      · exact ⟨t, t2, all2⟩
      · exact ⟨u, u2, all3⟩
  have finish : ((∀ b', ∀ t' ∈ op b', In t' c → In t' d → ∃ u' ∈ op (!b'), Match t' u') ∧ ∀ b', ∃ s s', ∀ t' ∈ op b', In t' c → In t' d → t' = s ∨ t' = s') →
    (∀ b', ∀ t' ∈ op b', ∀ k ∈ cut b' t', c ∈ k.toList → d ∈ k.toList → ∃ u' ∈ op (!b'), ∃ k' ∈ cut (!b') u', Match k k') ∧
    ∀ b', ∀ t1 ∈ op b', ∀ k1 ∈ cut b' t1, ∀ t2 ∈ op b', ∀ k2 ∈ cut b' t2, ∀ t3 ∈ op b', ∀ k3 ∈ cut b' t3, (c ∈ k1.toList ∧ d ∈ k1.toList) → (c ∈ k2.toList ∧ d ∈ k2.toList) → (c ∈ k3.toList ∧ d ∈ k3.toList) →
      Match k1 k2 ∨ Match k2 k3 ∨ Match k1 k3 := by
    rintro ⟨f1, f2⟩
    have inn : ∀ b', ∀ t' ∈ op b', ∀ k ∈ cut b' t', ∀ v ∈ k.toList, In t' v := fun b' t' ht' k hk v hv => (h.tri b' t' ht').inside k hk v (in_corner hv)
    refine ⟨fun b' t' ht' k hk hc hd => ?_, fun b' t1 ht1 k1 hk1 t2 ht2 k2 hk2 t3 ht3 k3 hk3 m1 m2 m3 => ?_⟩
    · obtain ⟨u', hu', hm'⟩ := f1 b' t' ht' (inn b' t' ht' k hk c hc) (inn b' t' ht' k hk d hd)
      exact ⟨u', hu', whole_partner h ht' hu' hm' hk⟩
    · obtain ⟨s, s', hs⟩ := f2 b'
      have w : ∀ {t k}, t ∈ op b' → k ∈ cut b' t → (c ∈ k.toList ∧ d ∈ k.toList) → (t = s ∨ t = s') ∧ Match k t := fun {t k} ht hk m =>
        ⟨hs t ht (inn b' t ht k hk c m.1) (inn b' t ht k hk d m.2), whole h ht (f1 b' t ht (inn b' t ht k hk c m.1) (inn b' t ht k hk d m.2)) hk⟩
      obtain ⟨e1, w1⟩ := w ht1 hk1 m1
      obtain ⟨e2, w2⟩ := w ht2 hk2 m2
      obtain ⟨e3, w3⟩ := w ht3 hk3 m3
      have : t1 = t2 ∨ t2 = t3 ∨ t1 = t3 := by
        rcases e1 with e1 | e1 <;> rcases e2 with e2 | e2 <;> rcases e3 with e3 | e3 <;> simp [e1, e2, e3]
      rcases this with e | e | e
      · exact Or.inl (match_trans w1 (match_symm (e ▸ w2)))
      · exact Or.inr (Or.inl (match_trans w2 (match_symm (e ▸ w3))))
      · exact Or.inr (Or.inr (match_trans w1 (match_symm (e ▸ w3))))
  have ht' : t ∈ op (!!b) := by rw [Bool.not_not]; exact ht
  by_cases hct : Coincides op b t
  · obtain ⟨u1, hu1, hm1⟩ := hct
    obtain ⟨t2, h2, u2, h3, hm2, all2, all3⟩ := B ht hu1 hm1 hp mp.1 mp.2
    exact finish (conclude ht hu1 h2 h3 hm1 hm2 all2 all3)
  by_cases hcu : Coincides op (!b) u
  · obtain ⟨t1, ht1, hm1⟩ := hcu
    obtain ⟨t2, h2, u2, h3, hm2, all2, all3⟩ := B hu ht1 hm1 hr mr.1 mr.2
    exact finish (conclude hu ht1 h2 h3 hm1 hm2 all2 all3)
  -- the edge is inside of both triangles
  have ct := h.tri b t ht
  have cu := h.tri (!b) u hu
  have qc : Q t u c := mark_q h ht hu (ct.corner p hp c mp.1) (cu.inside r hr c (in_corner mr.1))
  have qd : Q t u d := mark_q h ht hu (ct.corner p hp d mp.2) (cu.inside r hr d (in_corner mr.2))
  have nj : ¬ Joined t u c d := fun hj => hb (joined_border ht hu hct hcu hj)
  rw [joined_iff] at nj
  have n1 : ¬ SameEdge t.a t.b t.c c d := fun hs => nj ⟨qc, qd, hne, Or.inl hs⟩
  have n2 : ¬ SameEdge u.a u.b u.c c d := fun hs => nj ⟨qc, qd, hne, Or.inr (Or.inl hs)⟩
  have hw : Wide t u := by
    by_contra hw
    refine nj ⟨qc, qd, hne, Or.inr (Or.inr fun x hx => ?_)⟩
    by_contra hc
    push Not at hc
    exact hw ⟨c, d, x, qc, qd, hx, hne, fun e => hc.2 e.symm, fun e => hc.1 e.symm⟩
  have it := mid_inner (ok_op h ht) qc.1.1 qd.1.1 n1
  have iu := mid_inner (ok_op h hu) qc.1.2 qd.1.2 n2
  have hmid : Btw (seg (1 / 2) (1 / 2) c d) c d := ⟨1 / 2, 1 / 2, by norm_num, by norm_num, by norm_num, rfl⟩
  have onlyt : ∀ t' ∈ op b, ∀ k ∈ cut b t', c ∈ k.toList → d ∈ k.toList → t = t' := by
    intro t' ht' k hk hc hd
    have hin := (h.tri b t' ht').inside k hk _ (btw_in hmid (in_corner hc) (in_corner hd))
    exact once_match (h.once b) ht ht' (inner_common ((h.complex b).proper t ht) it ((h.complex b).meet t ht t' ht' _ (inner_in it) hin))
  have onlyu : ∀ u' ∈ op (!b), ∀ k ∈ cut (!b) u', c ∈ k.toList → d ∈ k.toList → u = u' := by
    intro u' hu' k hk hc hd
    have hin := (h.tri (!b) u' hu').inside k hk _ (btw_in hmid (in_corner hc) (in_corner hd))
    exact once_match (h.once _) hu hu' (inner_common ((h.complex _).proper u hu) iu ((h.complex _).meet u hu u' hu' _ (inner_in iu) hin))
  refine ⟨fun b' t' ht1 k hk hc hd => ?_, fun b' t1 ht1 k1 hk1 t2 ht2 k2 hk2 t3 ht3 k3 hk3 m1 m2 m3 => ?_⟩
  · rcases Bool.eq_or_eq_not b' b with rfl | rfl
    · have := onlyt t' ht1 k hk hc hd
      subst this
      refine ⟨u, hu, hg _ t ht u hu hct hcu hw _ hk (fun v hv => ?_)⟩
      exact piece_inside h ht hu hct hcu hw hk (btw_in hmid (in_corner hc) (in_corner hd)) iu hv
    · have := onlyu t' ht1 k hk hc hd
      subst this
      have hct' : ¬ Coincides op (!!b) t := by rw [Bool.not_not]; exact hct
      refine ⟨t, ht', hg (!b) u hu t ht' hcu hct' (wide_comm hw) _ hk (fun v hv => ?_)⟩
      exact piece_inside h hu ht' hcu hct' (wide_comm hw) hk (btw_in hmid (in_corner hc) (in_corner hd)) it hv
  · rcases Bool.eq_or_eq_not b' b with rfl | rfl
    · have e1 := onlyt t1 ht1 k1 hk1 m1.1 m1.2
      have e2 := onlyt t2 ht2 k2 hk2 m2.1 m2.2
      have e3 := onlyt t3 ht3 k3 hk3 m3.1 m3.2
      subst e1 e2 e3
      exact at_most_two h ht hk1 hk2 hk3 hne m1 m2 m3
    · have e1 := onlyu t1 ht1 k1 hk1 m1.1 m1.2
      have e2 := onlyu t2 ht2 k2 hk2 m2.1 m2.2
      have e3 := onlyu t3 ht3 k3 hk3 m3.1 m3.2
      subst e1 e2 e3
      exact at_most_two h hu hk1 hk2 hk3 hne m1 m2 m3

end Kigumi.Cutting

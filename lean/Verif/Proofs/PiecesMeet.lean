import Verif.Proofs.Pieces

/-! # Pieces of two operands meet in common vertices and edges only -/
namespace Kigumi.Cutting
open Kigumi Geo Spec.Triangles Spec.Side FaceFace Space
open Kigumi.Side (Aff plane Ok eval_seg in_iff sides weightA weightB weightC eval_weightA eval_weightB eval_weightC eval_plane eval_plane' eval_neg ok_of_proper onSegment_self left_end right_end onSegment_swap in_a in_b in_c plane_in same_plane exists_eps miss_near seg_near near_refl near_mono)
variable {op : Bool → List (Tri P3)} {cut : Bool → Tri P3 → List (Tri P3)}

theorem segment_btw {c d x y : P3} (h : OnSegment c d x) (h' : OnSegment c d y) {z : P3} (hz : OnSegment x y z) : OnSegment c d z := by
  obtain ⟨s, t, hs, s0, t0, rfl⟩ := h
  obtain ⟨s', t', hs', s0', t0', rfl⟩ := h'
  obtain ⟨a, b, ha, a0, b0, rfl⟩ := hz
  exact ⟨a * s + b * s', a * t + b * t', by linear_combination a * hs + b * hs' + ha, by positivity, by positivity, by apply p3_ext <;> simp only <;> ring⟩

theorem btw_ne {x y z : P3} (h : Btw x y z) (hne : y ≠ z) : x ≠ y ∧ x ≠ z := by
  obtain ⟨a, b, ha, hb, ey, ez⟩ := btw_shift h
  have hv := sub_ne hne
  have ex : x = shift x 0 (sub z y) := by apply p3_ext <;> simp [shift]
  constructor
  · intro h0
    have := shift_inj hv (ex.symm.trans (h0.trans ey))
    linarith
  · intro h0
    have := shift_inj hv (ex.symm.trans (h0.trans ez))
    linarith

theorem btw_self {x y : P3} (h : Btw x y y) : x = y := onSegment_self (btw_segment h)

theorem joined_iff {t u : Tri P3} {c d : P3} : Joined t u c d ↔ Q t u c ∧ Q t u d ∧ c ≠ d ∧ (SameEdge t.a t.b t.c c d ∨ SameEdge u.a u.b u.c c d ∨ ∀ x, Q t u x → x = c ∨ x = d) := by
  unfold Joined; simp only [q_iff]

theorem joined_comm {t u : Tri P3} {c d : P3} (h : Joined t u c d) : Joined u t c d := by
  rw [joined_iff] at h ⊢
  obtain ⟨h1, h2, h3, h4⟩ := h
  refine ⟨q_comm.1 h1, q_comm.1 h2, h3, ?_⟩
  rcases h4 with h | h | h
  · exact Or.inr (Or.inl h)
  · exact Or.inl h
  · exact Or.inr (Or.inr fun x hx => h x (q_comm.1 hx))

/-- Pieces with a point that is on edges of both, on a common line. -/
theorem com_segment (h : Cuts op cut) {b b' : Bool} {t u p r : Tri P3} (ht : t ∈ op b) (hu : u ∈ op b') (hp : p ∈ cut b t) (hr : r ∈ cut b' u) {x c d c' d' : P3} (hc : c ∈ p.toList) (hd : d ∈ p.toList)
    (hc' : c' ∈ r.toList) (hd' : d' ∈ r.toList) (hx : OnSegment c d x) (hx' : OnSegment c' d' x) {o v : P3} (hl : ∀ y, y = c ∨ y = d ∨ y = c' ∨ y = d' → ∃ k, y = shift o k v) : Com p r x := by
  have okp := ok_of_proper ((h.tri b t ht).complex.proper p hp)
  have okr := ok_of_proper ((h.tri b' u hu).complex.proper r hr)
  have xp : In p x := in_convex p x c d (in_corner hc) (in_corner hd) hx
  have xr : In r x := in_convex r x c' d' (in_corner hc') (in_corner hd') hx'
  by_cases m : x ∈ p.toList
  · exact .base ⟨m, corner_common h ht hu hp hr m xr⟩
  by_cases m' : x ∈ r.toList
  · exact .base ⟨corner_common h hu ht hr hp m' xp, m'⟩
  have hb : Btw x c d := btw_of_segment hx (fun e => m (e ▸ hc)) (fun e => m (e ▸ hd))
  have hb' : Btw x c' d' := btw_of_segment hx' (fun e => m' (e ▸ hc')) (fun e => m' (e ▸ hd'))
  have hne : c ≠ d := by
    rintro rfl
    exact m (btw_self hb ▸ hc)
  -- the line in terms of the first segment
  obtain ⟨i, ei⟩ := hl c (by simp)
  obtain ⟨j, ej⟩ := hl d (by simp)
  have hij : j - i ≠ 0 := fun h0 => hne (by rw [ei, ej, show i = j by linarith])
  obtain ⟨s, s', hs, _, _, ex⟩ := hx
  have line : ∀ y, (∃ k, y = shift o k v) → ∃ k, y = shift x k (sub d c) := by
    rintro y ⟨k, rfl⟩
    refine ⟨(k - (s * i + s' * j)) / (j - i), ?_⟩
    have e1 : s = 1 - s' := by linarith
    rw [ex, ei, ej, e1]
    apply p3_ext <;> simp only [shift, sub] <;> field_simp <;> ring
  obtain ⟨k, hk⟩ := line c' (hl c' (by simp))
  obtain ⟨k', hk'⟩ := line d' (hl d' (by simp))
  rcases same_segment okp okr (fun v hv hi => corner_common h ht hu hp hr hv hi) (fun v hv hi => corner_common h hu ht hr hp hv hi) hc hd hc' hd' hb hb' hne hk hk' with ⟨e1, e2⟩ | ⟨e1, e2⟩
  · exact .mix (.base ⟨hc, e1 ▸ hc'⟩) (.base ⟨hd, e2 ▸ hd'⟩) (btw_segment hb)
  · exact .mix (.base ⟨hc, e1 ▸ hd'⟩) (.base ⟨hd, e2 ▸ hc'⟩) (btw_segment hb)

/-- Different triangles of an operand have at most an edge in common. -/
theorem meet_line {W : List (Tri P3)} (hW : Complex W) {t u : Tri P3} (ht : t ∈ W) (hu : u ∈ W) (hn : ¬ Match t u) : ∃ e f, ∀ x, Meet t u x → OnSegment e f x := by
  have hd := proper_distinct (hW.proper t ht)
  have : t.a ∉ u.toList ∨ t.b ∉ u.toList ∨ t.c ∉ u.toList := by
    by_contra hc
    push Not at hc
    exact hn (match_of_mem hd hc.1 hc.2.1 hc.2.2)
  rcases this with h | h | h
  · refine ⟨t.b, t.c, fun x hx => ?_⟩
    obtain ⟨w0, w1, w2, hs, rfl, p0, p1, p2, m0, m1, m2⟩ := hW.meet t ht u hu x hx.1 hx.2
    have : w0 = 0 := by by_contra hne; exact h (m0 hne)
    subst this
    exact ⟨w1, w2, by linarith, p1, p2, by apply p3_ext <;> simp only [combo] <;> ring⟩
  · refine ⟨t.a, t.c, fun x hx => ?_⟩
    obtain ⟨w0, w1, w2, hs, rfl, p0, p1, p2, m0, m1, m2⟩ := hW.meet t ht u hu x hx.1 hx.2
    have : w1 = 0 := by by_contra hne; exact h (m1 hne)
    subst this
    exact ⟨w0, w2, by linarith, p0, p2, by apply p3_ext <;> simp only [combo] <;> ring⟩
  · refine ⟨t.a, t.b, fun x hx => ?_⟩
    obtain ⟨w0, w1, w2, hs, rfl, p0, p1, p2, m0, m1, m2⟩ := hW.meet t ht u hu x hx.1 hx.2
    have : w2 = 0 := by by_contra hne; exact h (m2 hne)
    subst this
    exact ⟨w0, w1, by linarith, p0, p1, by apply p3_ext <;> simp only [combo] <;> ring⟩

theorem com_same (h : Cuts op cut) {b : Bool} {t u p r : Tri P3} (ht : t ∈ op b) (hu : u ∈ op b) (hp : p ∈ cut b t) (hr : r ∈ cut b u) {x : P3} (hx : In p x) (hx' : In r x) : Com p r x := by
  have ct := h.tri b t ht
  have cu := h.tri b u hu
  by_cases hm : Match t u
  · have := once_match (h.once b) ht hu hm
    subst this
    exact inCommon_iff.1 (ct.complex.meet p hp r hr x hx hx')
  · obtain ⟨e, f, hl⟩ := meet_line (h.complex b) ht hu hm
    have hxt := ct.inside p hp x hx
    have hxu := cu.inside r hr x hx'
    have h1 := face_hull (complex_face (h.complex b) ht hu) (ct.inside p hp) hx ⟨hxt, hxu⟩
    have h2 := face_hull (complex_face (h.complex b) hu ht) (cu.inside r hr) hx' ⟨hxu, hxt⟩
    have l1 : ∀ y, Meet t u y → ∃ k, y = shift e k (sub f e) := fun y hy => segment_shift (hl y hy)
    obtain ⟨c, d, ⟨hc, mc⟩, ⟨hd, md⟩, hs⟩ := hull_line (fun y hy => l1 y hy.2) h1
    obtain ⟨c', d', ⟨hc', mc'⟩, ⟨hd', md'⟩, hs'⟩ := hull_line (fun y hy => l1 y ⟨hy.2.2, hy.2.1⟩) h2
    refine com_segment h ht hu hp hr hc hd hc' hd' hs hs' (o := e) (v := sub f e) ?_
    rintro y (rfl | rfl | rfl | rfl)
    · exact l1 _ mc
    · exact l1 _ md
    · exact l1 _ ⟨mc'.2, mc'.1⟩
    · exact l1 _ ⟨md'.2, md'.1⟩

/-- A piece with a point of a constraint has a part of the constraint as an edge. -/
theorem piece_segment (h : Cuts op cut) {b : Bool} {t p : Tri P3} (ht : t ∈ op b) (hp : p ∈ cut b t) {c d x : P3} (hs : CutSegment op b t c d) (hcd : OnSegment c d x) (hx : In p x) :
    x ∈ p.toList ∨ ∃ c' ∈ p.toList, ∃ d' ∈ p.toList, OnSegment c d c' ∧ OnSegment c d d' ∧ Btw x c' d' ∧ c' ≠ d' := by
  have ct := h.tri b t ht
  obtain ⟨p0, hp0, c', hc', d', hd', o1, o2, o3⟩ := ct.segment c d x hs hcd
  have in0 : In p0 x := in_convex p0 x c' d' (in_corner hc') (in_corner hd') o3
  by_cases e1 : x = c'
  · exact Or.inl (corner_common h ht ht hp0 hp (e1 ▸ hc') hx)
  by_cases e2 : x = d'
  · exact Or.inl (corner_common h ht ht hp0 hp (e2 ▸ hd') hx)
  have hb := btw_of_segment o3 e1 e2
  have hne : c' ≠ d' := by rintro rfl; exact e1 (btw_self hb)
  have ok0 := ok_of_proper (ct.complex.proper p0 hp0)
  have hcom := inCommon_iff.1 (ct.complex.meet p0 hp0 p hp x in0 hx)
  have hF := com_face (u := p) ok0
  have h1 := (com_in (hF.2 x c' d' hcom (in_corner hc') (in_corner hd') hb)).2
  have h2 := (com_in (hF.2 x d' c' hcom (in_corner hd') (in_corner hc') (btw_symm hb))).2
  exact Or.inr ⟨c', corner_common h ht ht hp0 hp hc' h1, d', corner_common h ht ht hp0 hp hd' h2, o1, o2, hb, hne⟩

/-! ## Triangles in a plane -/

/-- What the triangles have in common has area. -/
def Wide (t u : Tri P3) : Prop := ∃ x y z, Q t u x ∧ Q t u y ∧ Q t u z ∧ x ≠ y ∧ y ≠ z ∧ x ≠ z

theorem wide_comm {t u : Tri P3} (h : Wide t u) : Wide u t := by
  obtain ⟨x, y, z, hx, hy, hz, h⟩ := h
  exact ⟨x, y, z, q_comm.1 hx, q_comm.1 hy, q_comm.1 hz, h⟩

theorem wide_tri {t u : Tri P3} (h : Wide t u) : ∃ p : Tri P3, Ok p ∧ ∀ v ∈ p.toList, Q t u v := by
  obtain ⟨x, y, z, hx, hy, hz, h1, h2, h3⟩ := h
  refine ⟨⟨x, y, z⟩, ext_ok hx hy hz h1 h2 h3, fun v hv => ?_⟩
  simp only [Tri.toList, List.mem_cons, List.not_mem_nil, or_false] at hv
  rcases hv with rfl | rfl | rfl <;> assumption

theorem wide_plane {t u : Tri P3} (ht : Ok t) (hu : Ok u) (h : Wide t u) {x : P3} (hx : In t x) : (plane u).eval x = 0 := by
  obtain ⟨p, hp, hq⟩ := wide_tri h
  obtain ⟨k, hk, e⟩ := same_plane hp ht (fun z hz => plane_in (hull_poly' (in_convex t) (fun v hv => (hq v hv).1.1) (in_hull hz)))
  obtain ⟨k', hk', e'⟩ := same_plane hp hu (fun z hz => plane_in (hull_poly' (in_convex u) (fun v hv => (hq v hv).1.2) (in_hull hz)))
  have := plane_in hx
  rw [e, mul_eq_zero] at this
  rw [e', this.resolve_left hk, mul_zero]

/-- A piece with a point inside of a triangle of the other operand is contained in that triangle. -/
theorem piece_inside (h : Cuts op cut) {b : Bool} {t u p : Tri P3} (ht : t ∈ op b) (hu : u ∈ op (!b)) (hct : ¬ Coincides op b t) (hcu : ¬ Coincides op (!b) u) (hw : Wide t u) (hp : p ∈ cut b t) {y : P3}
    (hy : In p y) (hyu : Inner u y) {w : P3} (hwp : w ∈ p.toList) : In u w := by
  by_contra hn
  have ct := h.tri b t ht
  have okt := ok_op h ht
  have oku := ok_op h hu
  have okp := ok_of_proper (ct.complex.proper p hp)
  obtain ⟨x, g, e, f, hb, hxu, he, hnn, hz, g1, g2, g3⟩ := leave oku hyu (wide_plane okt oku hw (ct.inside p hp w (in_corner hwp))) hn
  have hxp : In p x := btw_in hb hy (in_corner hwp)
  have hxt : In t x := ct.inside p hp x hxp
  -- the point where the triangle is left is not a corner
  have hxc : x ∉ p.toList := by
    intro hc
    have := (corner_ext okp hc).2 y w hy (in_corner hwp) hb
    rw [this, g2] at g1
    exact lt_irrefl _ g1
  have hF : FaceOf (fun z => Meet t u z ∧ g.eval z = 0) (Meet t u) := zero_face (fun z hz => hnn z hz.2)
  have hconv : ∀ x y z, Meet t u y → Meet t u z → OnSegment y z x → Meet t u x := fun x y z hy hz hs => ⟨in_convex t x y z hy.1 hz.1 hs, in_convex u x y z hy.2 hz.2 hs⟩
  have hh := hull_face hconv (fun z hz => hz.1) hF (meet_hull okt oku ⟨hxt, hxu⟩) ⟨⟨hxt, hxu⟩, g2⟩
  obtain ⟨m, n, ⟨qm, mm, gm⟩, ⟨qn, mn, gn⟩, hs⟩ := hull_line (o := e) (v := sub f e) (fun z hz' => segment_shift ((hz z hz'.2.1.2).1 hz'.2.2)) hh
  have notq : ¬ Q t u x := fun hq => hxc (ct.vertex p hp x (q_mark hu hct hcu hq) hxp)
  have hmn : m ≠ n := by
    rintro rfl
    exact notq (onSegment_self hs ▸ qm)
  have hj : CutSegment op b t m n := ⟨hct, u, hu, hcu, joined_iff.2 ⟨qm, qn, hmn, Or.inr (Or.inl (sameEdge_iff.2 ⟨e, f, he, (hz m mm.2).1 gm, (hz n mn.2).1 gn⟩))⟩⟩
  rcases piece_segment h ht hp hj hs hxp with hc | ⟨c', hc', d', hd', o1, o2, _, hne⟩
  · exact hxc hc
  · have zero : ∀ z, OnSegment m n z → g.eval z = 0 := by
      rintro z ⟨s, r, hs, _, _, ez⟩
      have ez' : z = seg s r m n := ez
      rw [ez', eval_seg g hs, gm, gn]; ring
    have z1 := zero c' o1
    have z2 := zero d' o2
    have all : ∀ v ∈ p.toList, g.eval v ≤ 0 := by
      intro v hv
      have n1 : w ≠ c' := by rintro rfl; rw [z1] at g3; exact lt_irrefl _ g3
      have n2 : w ≠ d' := by rintro rfl; rw [z2] at g3; exact lt_irrefl _ g3
      have : v = w ∨ v = c' ∨ v = d' := by
        simp only [Tri.toList, List.mem_cons, List.not_mem_nil, or_false] at hv hwp hc' hd'
        grind
      rcases this with rfl | rfl | rfl
      · exact g3.le
      · exact z1.le
      · exact z2.le
    have := hull_eval all (in_hull hy)
    linarith

/-- The points that triangles in a plane have in common are covered by pieces contained in both. -/
theorem piece_cover (h : Cuts op cut) {b : Bool} {t u : Tri P3} (ht : t ∈ op b) (hu : u ∈ op (!b)) (hct : ¬ Coincides op b t) (hcu : ¬ Coincides op (!b) u) (hw : Wide t u) {x : P3} (hx : Meet t u x) :
    ∃ p ∈ cut b t, In p x ∧ ∀ v ∈ p.toList, In u v := by
  have ct := h.tri b t ht
  have okt := ok_op h ht
  have oku := ok_op h hu
  obtain ⟨q, okq, hq⟩ := wide_tri hw
  have iu : Inner u (centre q) := centre_inner okq oku (fun v hv => (hq v hv).1.2)
  have it : In t (centre q) := hull_poly' (in_convex t) (fun v hv => (hq v hv).1.1) (in_hull (inner_in (inner_centre q)))
  -- close to the point there are only pieces that contain it
  obtain ⟨e, he, hnear⟩ := exists_eps (fun (p : Tri P3) e => ¬ In p x → ∀ y, Near e y x → ¬ In p y) (fun p e e' _ hle hp hn y hy => hp hn y (near_mono hle hy)) (cut b t) (fun p hp => by
    by_cases hn : In p x
    · exact ⟨1, by norm_num, fun hc => absurd hn hc⟩
    · obtain ⟨e, he, hm⟩ := miss_near (ok_of_proper (ct.complex.proper p hp)) (p := x) (q := x) (fun z hz => by rw [onSegment_self hz]; exact hn)
      exact ⟨e, he, fun _ y hy => hm y y hy hy y (left_end y y)⟩)
  obtain ⟨k, hk0, hk1, hk⟩ := seg_near he x (centre q)
  have hin : In t (seg (1 - k) k x (centre q)) := in_convex t _ _ _ hx.1 it ⟨1 - k, k, by ring, by linarith, hk0.le, rfl⟩
  obtain ⟨p, hp, hpin⟩ := ct.cover _ hin
  refine ⟨p, hp, ?_, fun v hv => piece_inside h ht hu hct hcu hw hp hpin (inner_seg hx.2 iu hk0 hk1) hv⟩
  by_contra hn
  exact hnear p hp hn _ hk hpin

/-- From the centre of a piece that is contained in both triangles, one sees the corners of what they have in common. -/
theorem piece_sees (h : Cuts op cut) {b : Bool} {t u p : Tri P3} (ht : t ∈ op b) (hu : u ∈ op (!b)) (hw : Wide t u) (hp : p ∈ cut b t) (hpu : ∀ v ∈ p.toList, In u v) {v : P3}
    (hv : Q t u v) : Sees (CutSegment op b t) (centre p) v := by
  have ct := h.tri b t ht
  have okt := ok_op h ht
  have oku := ok_op h hu
  have okp := ok_of_proper (ct.complex.proper p hp)
  have iu : Inner u (centre p) := centre_inner okp oku hpu
  have it : Inner t (centre p) := centre_inner okp okt (fun v hv => ct.inside p hp v (in_corner hv))
  intro x hx hne c d hs hcd
  obtain ⟨s, r, hsr, s0, r0, ex⟩ := hx
  have hs0 : 0 < s := by
    refine lt_of_le_of_ne s0 ?_
    rintro rfl
    apply hne
    have : r = 1 := by linarith
    rw [ex, this]
    apply p3_ext <;> simp
  have ex' : x = seg (1 - s) s v (centre p) := by
    rw [ex]
    have : r = 1 - s := by linarith
    rw [this]
    apply p3_ext <;> simp only [seg] <;> ring
  have xt : Inner t x := by rw [ex']; exact inner_seg hv.1.1 it hs0 (by linarith)
  have xu : Inner u x := by rw [ex']; exact inner_seg hv.1.2 iu hs0 (by linarith)
  obtain ⟨_, u', hu', _, hj⟩ := hs
  obtain ⟨qc, qd, hcne, hj⟩ := joined_iff.1 hj
  have hxu' : In u' x := in_convex u' x c d qc.1.2 qd.1.2 hcd
  have hm := inner_common ((h.complex _).proper u hu) xu ((h.complex _).meet u hu u' hu' x (inner_in xu) hxu')
  have := once_match (h.once _) hu hu' hm
  subst this
  have edge : ∀ {t : Tri P3}, Ok t → Inner t x → SameEdge t.a t.b t.c c d → False := by
    intro t okt hi hse
    obtain ⟨e, f, he, h1, h2⟩ := sameEdge_iff.1 hse
    exact inner_edge okt hi he (segment_btw h1 h2 hcd)
  rcases hj with hj | hj | hj
  · exact edge okt xt hj
  · exact edge oku xu hj
  · obtain ⟨x1, x2, x3, h1, h2, h3, n1, n2, n3⟩ := hw
    rcases hj x1 h1 with rfl | rfl <;> rcases hj x2 h2 with rfl | rfl <;> rcases hj x3 h3 with rfl | rfl <;> simp_all

/-! ## Circles -/

theorem circumcentre {p : Tri P3} (hp : Ok p) : ∃ o, dist2 o p.a = dist2 o p.b ∧ dist2 o p.b = dist2 o p.c := by
  obtain ⟨a, b, c⟩ := p
  have hN : dot (normal a b c) (normal a b c) ≠ 0 := hp
  set n := normal a b c with hn
  set u := sub b a with hu
  set v := sub c a with hv
  let w : P3 := ⟨dot u u * (cross v n).x + dot v v * (cross n u).x, dot u u * (cross v n).y + dot v v * (cross n u).y, dot u u * (cross v n).z + dot v v * (cross n u).z⟩
  have h1 : dot w u = dot u u * dot n n := by
    simp only [w, hn, normal, ← hu, ← hv]
    simp only [dot, cross]; ring
  have h2 : dot w v = dot v v * dot n n := by
    simp only [w, hn, normal, ← hu, ← hv]
    simp only [dot, cross]; ring
  have e1 : b = ⟨a.x + u.x, a.y + u.y, a.z + u.z⟩ := by apply p3_ext <;> simp [hu, sub]
  have e2 : c = ⟨a.x + v.x, a.y + v.y, a.z + v.z⟩ := by apply p3_ext <;> simp [hv, sub]
  have key : ∀ z : P3, dot w z = dot z z * dot n n → dist2 (shift a (1 / (2 * dot n n)) w) ⟨a.x + z.x, a.y + z.y, a.z + z.z⟩ = dist2 (shift a (1 / (2 * dot n n)) w) a := by
    intro z hz
    have : dist2 (shift a (1 / (2 * dot n n)) w) ⟨a.x + z.x, a.y + z.y, a.z + z.z⟩ = dist2 (shift a (1 / (2 * dot n n)) w) a - 2 * (1 / (2 * dot n n)) * dot w z + dot z z := by
      simp only [dist2, shift, dot]; ring
    rw [this, hz]
    field_simp
    ring
  refine ⟨shift a (1 / (2 * dot n n)) w, ?_, ?_⟩
  · show dist2 _ a = dist2 _ b
    rw [e1, key u h1]
  · show dist2 _ b = dist2 _ c
    rw [e1, e2, key u h1, key v h2]

/-- The difference of the powers of a point with respect to two circles. -/
def radical (o o' : P3) (k : ℚ) : Aff := ⟨⟨2 * (o'.x - o.x), 2 * (o'.y - o.y), 2 * (o'.z - o.z)⟩, dot o o - dot o' o' + k⟩

theorem radical_eval (o o' : P3) (k : ℚ) (x : P3) : (radical o o' k).eval x = dist2 o x - dist2 o' x + k := by
  simp only [radical, Aff.eval, dist2, dot]; ring

/-- A piece in the common part of two triangles in a plane and the piece of the other triangle where its centre is: their corners are on a circle, visible from the interior of each of them. -/
theorem piece_meet (h : Cuts op cut) {b : Bool} {t u p : Tri P3} (ht : t ∈ op b) (hu : u ∈ op (!b)) (hct : ¬ Coincides op b t) (hcu : ¬ Coincides op (!b) u) (hw : Wide t u) (hp : p ∈ cut b t) (hpu : ∀ v ∈ p.toList, In u v) :
    ∃ r ∈ cut (!b) u, (∃ y, Inner p y ∧ Inner r y) ∧ (∀ v ∈ r.toList, In t v) ∧ (∀ v ∈ p.toList, Q t u v) ∧ (∀ v ∈ r.toList, Q t u v) ∧ ∃ o d, (∀ v ∈ p.toList, dist2 o v = d) ∧ ∀ v ∈ r.toList, dist2 o v = d := by
  have ct := h.tri b t ht
  have cu := h.tri (!b) u hu
  have okp := ok_of_proper (ct.complex.proper p hp)
  have ht' : t ∈ op (!!b) := by rw [Bool.not_not]; exact ht
  have hct' : ¬ Coincides op (!!b) t := by rw [Bool.not_not]; exact hct
  have ci := inner_centre p
  have pin : ∀ x, In p x → In u x := fun x hx => hull_poly' (in_convex u) hpu (in_hull hx)
  obtain ⟨r, hr, hrc, hrt⟩ := piece_cover h hu ht' hcu hct' (wide_comm hw) (x := centre p) ⟨pin _ (inner_in ci), ct.inside p hp _ (inner_in ci)⟩
  have okr := ok_of_proper (cu.complex.proper r hr)
  -- corners of both pieces are corners of the common part
  have qp : ∀ v ∈ p.toList, Q t u v := fun v hv => mark_q h ht hu (ct.corner p hp v hv) (hpu v hv)
  have qr : ∀ v ∈ r.toList, Q t u v := fun v hv => q_comm.1 (mark_q h hu ht' (cu.corner r hr v hv) (hrt v hv))
  obtain ⟨o, o1, o2⟩ := circumcentre okp
  obtain ⟨o', o1', o2'⟩ := circumcentre okr
  have dp : ∀ v, Q t u v → dist2 o p.a ≤ dist2 o v := fun v hv =>
    ct.delaunay p hp v (q_mark hu hct hcu hv) (centre p) ci (piece_sees h ht hu hw hp hpu hv) o o1 o2
  have dr : ∀ v, Q t u v → dist2 o' r.a ≤ dist2 o' v := fun v hv =>
    cu.delaunay r hr v (q_mark ht' hcu hct' (q_comm.1 hv)) (centre r) (inner_centre r) (piece_sees h hu ht' (wide_comm hw) hr hrt (q_comm.1 hv)) o' o1' o2'
  have onp : ∀ v ∈ p.toList, dist2 o v = dist2 o p.a := by
    intro v hv
    simp only [Tri.toList, List.mem_cons, List.not_mem_nil, or_false] at hv
    rcases hv with rfl | rfl | rfl
    · rfl
    · exact o1.symm
    · exact (o1.trans o2).symm
  have onr : ∀ v ∈ r.toList, dist2 o' v = dist2 o' r.a := by
    intro v hv
    simp only [Tri.toList, List.mem_cons, List.not_mem_nil, or_false] at hv
    rcases hv with rfl | rfl | rfl
    · rfl
    · exact o1'.symm
    · exact (o1'.trans o2').symm
  let g := radical o o' (dist2 o' r.a - dist2 o p.a)
  have gp : ∀ v ∈ p.toList, g.eval v ≤ 0 := fun v hv => by
    simp only [g, radical_eval]
    linarith [onp v hv, dr v (qp v hv)]
  have gr : ∀ v ∈ r.toList, g.neg.eval v ≤ 0 := fun v hv => by
    rw [eval_neg]
    simp only [g, radical_eval]
    linarith [onr v hv, dp v (qr v hv)]
  have g0 : g.eval (centre p) = 0 := by
    have a1 := hull_eval gr (in_hull hrc)
    have a2 := hull_eval gp (in_hull (inner_in ci))
    rw [eval_neg] at a1
    linarith
  have ge : g.eval (centre p) = (g.eval p.a + g.eval p.b + g.eval p.c) / 3 := by simp only [Aff.eval, centre, combo, dot]; ring
  have ga := gp p.a (by simp [Tri.toList])
  have gb := gp p.b (by simp [Tri.toList])
  have gc := gp p.c (by simp [Tri.toList])
  have zero : ∀ v ∈ p.toList, g.eval v = 0 := by
    intro v hv
    simp only [Tri.toList, List.mem_cons, List.not_mem_nil, or_false] at hv
    rcases hv with rfl | rfl | rfl <;> linarith
  have circ : ∀ v ∈ p.toList, dist2 o' v = dist2 o' r.a := by
    intro v hv
    have := zero v hv
    simp only [g, radical_eval] at this
    linarith [onp v hv]
  have hin : ∃ y, Inner p y ∧ Inner r y := by
    obtain ⟨e, he, hn⟩ := exists_eps (fun (f : Aff) e => ∀ y, Near e y (centre p) → 0 < f.eval y) (fun f e e' _ hle hP y hy => hP y (near_mono hle hy)) [weightA p, weightB p, weightC p]
      (fun f hf => Kigumi.Side.eval_near f (inner_pos okp ci f hf))
    obtain ⟨k, k0, k1, hk⟩ := seg_near he (centre p) (centre r)
    have hir := inner_seg hrc (inner_centre r) k0 k1
    have hpp : ∀ x, (plane t).eval x = 0 → (plane p).eval x = 0 := by
      obtain ⟨c, hc, e⟩ := same_plane okp (ok_op h ht) (fun z hz => plane_in (ct.inside p hp z hz))
      intro x hx
      rw [e, mul_eq_zero] at hx
      exact hx.resolve_left hc
    have hz : (plane p).eval (seg (1 - k) k (centre p) (centre r)) = 0 := by
      rw [eval_seg _ (by ring), hpp _ (plane_in (ct.inside p hp _ (inner_in ci))), hpp _ (plane_in (hull_poly' (in_convex t) hrt (in_hull (inner_in (inner_centre r)))))]; ring
    have hip : In p (seg (1 - k) k (centre p) (centre r)) := by
      rw [in_iff okp]
      intro f hf
      simp only [sides, List.mem_cons, List.not_mem_nil, or_false] at hf
      rcases hf with rfl | rfl | hf
      · exact hz.ge
      · rw [eval_neg, hz]; simp
      · exact (hn f (by simpa using hf) _ hk).le
    have a1 := inner_seg (k := 1 / 2) hip ci (by norm_num) (by norm_num)
    have a2 := inner_seg (k := 1 / 2) hrc hir (by norm_num) (by norm_num)
    refine ⟨_, a1, ?_⟩
    convert a2 using 1
    apply p3_ext <;> simp only [seg] <;> ring
  exact ⟨r, hr, hin, hrt, qp, qr, o', _, circ, onr⟩

/-- Pieces in the common part of two triangles in a plane are pieces of both. -/
def Agree (op : Bool → List (Tri P3)) (cut : Bool → Tri P3 → List (Tri P3)) : Prop :=
  ∀ b, ∀ t ∈ op b, ∀ u ∈ op (!b), ¬ Coincides op b t → ¬ Coincides op (!b) u → Wide t u → ∀ p ∈ cut b t, (∀ v ∈ p.toList, In u v) → ∃ r ∈ cut (!b) u, Match p r

/-- **In the common part of two triangles in a plane, the pieces are the same** if no four of its corners are on a circle. -/
theorem agree_of (h : Cuts op cut) (hg : NoFourOnCircle op) : Agree op cut := by
  intro b t ht u hu hct hcu hw p hp hpu
  obtain ⟨r, hr, -, -, qp, qr, o, d, ep, er⟩ := piece_meet h ht hu hct hcu hw hp hpu
  refine ⟨r, hr, ?_⟩
  have hg : ∀ w x y z, Q t u w → Q t u x → Q t u y → Q t u z → dist2 o w = dist2 o x → dist2 o x = dist2 o y → dist2 o y = dist2 o z → w = x ∨ w = y ∨ w = z ∨ x = y ∨ x = z ∨ y = z := by
    intro w x y z hw hx hy hz
    cases b
    · exact hg u hu t ht o w x y z (q_iff.2 (q_comm.1 hw)) (q_iff.2 (q_comm.1 hx)) (q_iff.2 (q_comm.1 hy)) (q_iff.2 (q_comm.1 hz))
    · exact hg t ht u hu o w x y z (q_iff.2 hw) (q_iff.2 hx) (q_iff.2 hy) (q_iff.2 hz)
  obtain ⟨d1, d2, d3⟩ := proper_distinct ((h.tri b t ht).complex.proper p hp)
  have ka := ep p.a (by simp [Tri.toList])
  have kb := ep p.b (by simp [Tri.toList])
  have kc := ep p.c (by simp [Tri.toList])
  have mem : ∀ v ∈ r.toList, v ∈ p.toList := by
    intro v hv
    have hh := hg p.a p.b p.c v (qp _ (by simp [Tri.toList])) (qp _ (by simp [Tri.toList])) (qp _ (by simp [Tri.toList])) (qr v hv)
      (by linarith) (by linarith) (by linarith [er v hv])
    simp only [Tri.toList, List.mem_cons, List.not_mem_nil, or_false]
    rcases hh with e | e | e | e | e | e
    · exact absurd e d1
    · exact absurd e.symm d3
    · exact Or.inl e.symm
    · exact absurd e d2
    · exact Or.inr (Or.inl e.symm)
    · exact Or.inr (Or.inr e.symm)
  exact match_symm (match_of_mem (proper_distinct ((h.tri (!b) u hu).complex.proper r hr)) (mem _ (by simp [Tri.toList])) (mem _ (by simp [Tri.toList])) (mem _ (by simp [Tri.toList])))

end Kigumi.Cutting

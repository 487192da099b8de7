import Verif.Proofs.PiecesComplex
import Verif.Spec.Segments

/-! # Constraints in a triangle do not cross -/
namespace Kigumi.Cutting
open Kigumi Geo Spec.Triangles Spec.Side FaceFace Space
open Kigumi.Side (Ok ok_of_proper)
variable {op : Bool → List (Tri P3)}

theorem line_of {a b c d e : P3} (hc : OnSegment a b c) (hd : OnSegment a b d) (hne : c ≠ d) (he : OnSegment a b e) : OnLine c d e := by
  obtain ⟨s1, t1, h1, -, -, rfl⟩ := hc
  obtain ⟨s2, t2, h2, -, -, rfl⟩ := hd
  obtain ⟨s3, t3, h3, -, -, rfl⟩ := he
  have ht : t2 - t1 ≠ 0 := by
    intro h0
    apply hne
    obtain rfl : t2 = t1 := by linarith
    obtain rfl : s2 = s1 := by linarith
    rfl
  obtain rfl : s1 = 1 - t1 := by linarith
  obtain rfl : s2 = 1 - t2 := by linarith
  obtain rfl : s3 = 1 - t3 := by linarith
  refine ⟨1 - (t3 - t1) / (t2 - t1), (t3 - t1) / (t2 - t1), by ring, ?_⟩
  apply p3_ext <;> simp only <;> field_simp <;> ring

/-- A point of an edge that is between two points of the triangle. -/
theorem edge_between {t : Tri P3} (ht : Ok t) {x y z : P3} (hy : In t y) (hz : In t z) (hb : Btw x y z) :
    (OnSegment t.a t.b x → OnSegment t.a t.b y) ∧ (OnSegment t.b t.c x → OnSegment t.b t.c y) ∧ (OnSegment t.c t.a x → OnSegment t.c t.a y) := by
  refine ⟨?_, ?_, ?_⟩
  · rintro ⟨s1, s2, hs, n1, n2, rfl⟩
    obtain ⟨u, v, w, hs', rfl, u0, v0, w0, z1, z2, z3⟩ := btw_weights ht hy hz hb (u := s1) (v := s2) (w := 0) (by linarith) (by apply p3_ext <;> simp [combo])
    have := z3 rfl
    subst this
    exact ⟨u, v, by linarith, u0, v0, by apply p3_ext <;> simp [combo]⟩
  · rintro ⟨s1, s2, hs, n1, n2, rfl⟩
    obtain ⟨u, v, w, hs', rfl, u0, v0, w0, z1, z2, z3⟩ := btw_weights ht hy hz hb (u := 0) (v := s1) (w := s2) (by linarith) (by apply p3_ext <;> simp [combo])
    have := z1 rfl
    subst this
    exact ⟨v, w, by linarith, v0, w0, by apply p3_ext <;> simp [combo]⟩
  · rintro ⟨s1, s2, hs, n1, n2, rfl⟩
    obtain ⟨u, v, w, hs', rfl, u0, v0, w0, z1, z2, z3⟩ := btw_weights ht hy hz hb (u := s2) (v := 0) (w := s1) (by linarith) (by apply p3_ext <;> simp only [combo] <;> ring)
    have := z2 rfl
    subst this
    exact ⟨w, u, by linarith, w0, u0, by apply p3_ext <;> simp only [combo] <;> ring⟩

theorem onSegment_mid {a b c d x : P3} (hc : OnSegment a b c) (hd : OnSegment a b d) (hx : OnSegment c d x) : OnSegment a b x := by
  obtain ⟨s1, t1, h1, p1, q1, rfl⟩ := hc
  obtain ⟨s2, t2, h2, p2, q2, rfl⟩ := hd
  obtain ⟨s3, t3, h3, p3, q3, rfl⟩ := hx
  refine ⟨s3 * s1 + t3 * s2, s3 * t1 + t3 * t2, ?_, by positivity, by positivity, ?_⟩
  · have : s3 * s1 + t3 * s2 + (s3 * t1 + t3 * t2) = s3 * (s1 + t1) + t3 * (s2 + t2) := by ring
    rw [this, h1, h2]; linarith
  · apply p3_ext <;> simp only <;> ring

/-- If the ends of a segment are on one edge of a triangle, what crosses it in the triangle is on its line. -/
theorem edge_line {t : Tri P3} (ht : Ok t) {c d x y z : P3} (he : SameEdge t.a t.b t.c c d) (hne : c ≠ d) (hx : OnSegment c d x) (hy : In t y) (hz : In t z) (hb : Btw x y z) : OnLine c d y := by
  obtain ⟨f1, f2, f3⟩ := edge_between ht hy hz hb
  rcases he with ⟨h1, h2⟩ | ⟨h1, h2⟩ | ⟨h1, h2⟩
  · exact line_of h1 h2 hne (f1 (onSegment_mid h1 h2 hx))
  · exact line_of h1 h2 hne (f2 (onSegment_mid h1 h2 hx))
  · exact line_of h1 h2 hne (f3 (onSegment_mid h1 h2 hx))

theorem inside_btw {a b x : P3} (h : Inside a b x) : Btw x a b := btw_of_segment h.1 h.2.1 h.2.2

theorem onLine_left (c d : P3) : OnLine c d c := ⟨1, 0, by norm_num, by apply p3_ext <;> simp⟩
theorem onLine_right (c d : P3) : OnLine c d d := ⟨0, 1, by norm_num, by apply p3_ext <;> simp⟩

/-- Triangles whose corners are those of the other. -/
theorem in_of_corners {u u' : Tri P3} (h : ∀ v ∈ u.toList, v ∈ u'.toList) {x : P3} (hx : In u x) : In u' x :=
  hull_poly' (in_convex u') (fun v hv => in_corner (h v hv)) (in_hull hx)

/-- **Constraints of one triangle do not cross.** -/
theorem joined_apart {W : List (Tri P3)} (hW : Complex W) {t u u' : Tri P3} (ht : Ok t) (hu : u ∈ W) (hu' : u' ∈ W) {c d c' d' : P3} (h : Joined t u c d) (h' : Joined t u' c' d') : ¬ Cross c d c' d' := by
  rintro ⟨⟨x, hx, hx'⟩, hl⟩
  apply hl
  obtain ⟨qc, qd, hne, hj⟩ := h
  obtain ⟨qc', qd', hne', -⟩ := h'
  have b1 := inside_btw hx
  have b2 := inside_btw hx'
  have xt : In t x := in_convex t x c d qc.1.1 qd.1.1 hx.1
  have xu : In u x := in_convex u x c d qc.1.2 qd.1.2 hx.1
  have xu' : In u' x := in_convex u' x c' d' qc'.1.2 qd'.1.2 hx'.1
  have f1 := complex_face hW hu hu'
  have f2 := complex_face hW hu' hu
  -- all four points are in both triangles
  have mc : Meet u u' c := f1.2 x c d ⟨xu, xu'⟩ qc.1.2 qd.1.2 b1
  have md : Meet u u' d := f1.2 x d c ⟨xu, xu'⟩ qd.1.2 qc.1.2 (btw_symm b1)
  have mc' : Meet u' u c' := f2.2 x c' d' ⟨xu', xu⟩ qc'.1.2 qd'.1.2 b2
  have md' : Meet u' u d' := f2.2 x d' c' ⟨xu', xu⟩ qd'.1.2 qc'.1.2 (btw_symm b2)
  have hok : Ok u := ok_of_proper (hW.proper u hu)
  by_cases hall : ∀ v ∈ u.toList, v ∈ u'.toList
  · -- the triangle on the other side is the same
    have hm : Match u u' := match_of_mem (proper_distinct (hW.proper u hu)) (hall _ (by simp [Tri.toList])) (hall _ (by simp [Tri.toList])) (hall _ (by simp [Tri.toList]))
    have hin : ∀ y, In u' y → In u y := fun y => (in_match_iff hm y).2
    have key : ∀ y z, Extreme (Common t u') y → Extreme (Common t u') z → Btw x y z → OnLine c d y := by
      intro y z hy hz hb
      have hyu := hin y hy.1.2
      have hzu := hin z hz.1.2
      rcases hj with he | he | he
      · exact edge_line ht he hne hx.1 hy.1.1 hz.1.1 hb
      · exact edge_line hok he hne hx.1 hyu hzu hb
      · have : Extreme (Common t u) y := ⟨⟨hy.1.1, hyu⟩, fun p q hp hq => hy.2 p q ⟨hp.1, in_of_corners hall hp.2⟩ ⟨hq.1, in_of_corners hall hq.2⟩⟩
        rcases he y this with rfl | rfl
        · exact onLine_left _ _
        · exact onLine_right _ _
    exact ⟨key c' d' qc' qd' b2, key d' c' qd' qc' (btw_symm b2)⟩
  · -- they are all on one edge
    have seg : ∃ p q, ∀ y, In u y → In u' y → OnSegment p q y := by
      by_contra hno
      push Not at hno
      apply hall
      have three : ∀ v, v ∈ u.toList ↔ v = u.a ∨ v = u.b ∨ v = u.c := fun v => by simp [Tri.toList]
      intro v hv
      by_contra hv'
      rcases (three v).1 hv with rfl | rfl | rfl
      · obtain ⟨y, y1, y2, y3⟩ := hno u.b u.c
        obtain ⟨w0, w1, w2, hs, rfl, n0, n1, n2, c0, c1, c2⟩ := hW.meet u hu u' hu' y y1 y2
        have : w0 = 0 := by by_contra h0; exact hv' (c0 h0)
        subst this
        exact y3 ⟨w1, w2, by linarith, n1, n2, by apply p3_ext <;> simp [combo]⟩
      · obtain ⟨y, y1, y2, y3⟩ := hno u.c u.a
        obtain ⟨w0, w1, w2, hs, rfl, n0, n1, n2, c0, c1, c2⟩ := hW.meet u hu u' hu' y y1 y2
        have : w1 = 0 := by by_contra h0; exact hv' (c1 h0)
        subst this
        exact y3 ⟨w2, w0, by linarith, n2, n0, by apply p3_ext <;> simp only [combo] <;> ring⟩
      · obtain ⟨y, y1, y2, y3⟩ := hno u.a u.b
        obtain ⟨w0, w1, w2, hs, rfl, n0, n1, n2, c0, c1, c2⟩ := hW.meet u hu u' hu' y y1 y2
        have : w2 = 0 := by by_contra h0; exact hv' (c2 h0)
        subst this
        exact y3 ⟨w0, w1, by linarith, n0, n1, by apply p3_ext <;> simp [combo]⟩
    obtain ⟨p, q, hpq⟩ := seg
    exact ⟨line_of (hpq c mc.1 mc.2) (hpq d md.1 md.2) hne (hpq c' mc'.2 mc'.1), line_of (hpq c mc.1 mc.2) (hpq d md.1 md.2) hne (hpq d' md'.2 md'.1)⟩

/-! ## Triangulations -/

/-- A triangle is its own triangulation. -/
theorem triangulates_self {t : Tri P3} (ht : Proper t) {V : P3 → Prop} {S : P3 → P3 → Prop} (hV : ∀ x, ¬ V x) (hS : ∀ c d, S c d → c ∈ t.toList ∧ d ∈ t.toList) : Triangulates t V S [t] := by
  refine ⟨⟨?_, ?_⟩, ?_, ?_, ?_, ?_, ?_, ?_, ?_, ?_⟩
  · simp [ht]
  · intro p hp r hr x hx _
    simp only [List.mem_cons, List.not_mem_nil, or_false] at hp hr
    subst hp; subst hr
    obtain ⟨u, v, w, hs, e, n1, n2, n3⟩ := hx
    exact ⟨u, v, w, hs, e, n1, n2, n3, fun _ => by simp [Tri.toList], fun _ => by simp [Tri.toList], fun _ => by simp [Tri.toList]⟩
  · intro i j p r hi hj _
    have := (List.getElem?_eq_some_iff.1 hi).1
    have := (List.getElem?_eq_some_iff.1 hj).1
    simp at *; omega
  · simp
  · intro x hx; exact ⟨t, by simp, hx⟩
  · intro p hp
    simp only [List.mem_cons, List.not_mem_nil, or_false] at hp
    subst hp
    exact ⟨1, by norm_num, by apply p3_ext <;> simp⟩
  · intro p hp v hv
    simp only [List.mem_cons, List.not_mem_nil, or_false] at hp
    subst hp; exact .inr hv
  · intro p hp v hv _
    simp only [List.mem_cons, List.not_mem_nil, or_false] at hp
    subst hp
    exact hv.resolve_left (hV v)
  · intro c d x h hx
    exact ⟨t, by simp, c, (hS c d h).1, d, (hS c d h).2, ⟨1, 0, by norm_num, by norm_num, by norm_num, by apply p3_ext <;> simp⟩, ⟨0, 1, by norm_num, by norm_num, by norm_num, by apply p3_ext <;> simp⟩, hx⟩
  · intro p hp v hv y hy hs o e1 e2
    simp only [List.mem_cons, List.not_mem_nil, or_false] at hp
    subst hp
    have hv := hv.resolve_left (hV v)
    simp only [Tri.toList, List.mem_cons, List.not_mem_nil, or_false] at hv
    rcases hv with rfl | rfl | rfl
    · exact le_refl _
    · exact le_of_eq e1
    · exact le_of_eq (e1.trans e2)

theorem onSegment_swap' {a b x : P3} (h : OnSegment a b x) : OnSegment b a x := by
  obtain ⟨s, t, h, h1, h2, rfl⟩ := h
  exact ⟨t, s, by linarith, h2, h1, by apply p3_ext <;> simp only <;> ring⟩

/-- Only the set of all vertices and the unordered constraints matter. -/
theorem triangulates_congr {t : Tri P3} {V V' : P3 → Prop} {S S' : P3 → P3 → Prop} {ps : List (Tri P3)} (h : Triangulates t V S ps) (hV : ∀ x, V x ∨ x ∈ t.toList ↔ V' x ∨ x ∈ t.toList)
    (hS : ∀ c d, S c d → S' c d ∨ S' d c) (hS' : ∀ c d, S' c d → S c d ∨ S d c) : Triangulates t V' S' ps := by
  refine ⟨h.complex, h.once, h.inside, h.cover, h.oriented, fun p hp v hv => (hV v).1 (h.corner p hp v hv), fun p hp v hv => h.vertex p hp v ((hV v).2 hv), ?_, ?_⟩
  · intro c d x hs hx
    rcases hS' c d hs with h' | h'
    · exact h.segment c d x h' hx
    · obtain ⟨p, hp, c', hc', d', hd', h1, h2, h3⟩ := h.segment d c x h' (onSegment_swap' hx)
      exact ⟨p, hp, c', hc', d', hd', onSegment_swap' h1, onSegment_swap' h2, h3⟩
  · intro p hp v hv y hy hs o e1 e2
    refine h.delaunay p hp v ((hV v).2 hv) y hy ?_ o e1 e2
    intro x hx hxv c d hcd hon
    rcases hS c d hcd with h' | h'
    · exact hs x hx hxv c d h' hon
    · exact hs x hx hxv d c h' (onSegment_swap' hon)

end Kigumi.Cutting

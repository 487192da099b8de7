import Verif.Proofs.FaceFaceCycle
import Verif.Spec.Overlap

/-!
# How two triangles meet, by the number of corners of the intersection
-/
namespace Kigumi.Polygon
open Kigumi Geo FaceFace

variable {G : List P3}

theorem dot_neg (h X : P3) : dot ⟨-h.x, -h.y, -h.z⟩ X = - dot h X := by simp only [dot]; ring

/-- With one corner the polygon is a point. -/
theorem one_corner (hb : Bounded G) {X Z : P3} (hX : Extreme G X) (h : ∀ Y, Extreme G Y → Y = X) (hZ : Pos G Z) : Z = X := by
  by_contra hne
  obtain ⟨f, f0, fp⟩ := exposed hX
  obtain ⟨E, hE, hle⟩ := descent hb ⟨-f.x, -f.y, -f.z⟩ _ Z rfl hZ
  rw [h E hE, dot_neg, dot_neg, f0] at hle
  have := fp Z hZ hne
  linarith

/-- With two corners the polygon is a segment. -/
theorem two_corners (hb : Bounded G) {X Y Z : P3} (hX : Extreme G X) (hY : Extreme G Y) (hne : X ≠ Y) (h : ∀ W, Extreme G W → W = X ∨ W = Y) (hZ : Pos G Z) :
    ∃ t, 0 ≤ t ∧ t ≤ 1 ∧ Z = move X (sub Y X) t := by
  have eq : ∀ W, dot (cross X Y) W = o X Y W := by intro W; simp only [o, dot, cross]; ring
  have ho : o X Y Z = 0 := by
    obtain ⟨E, hE, h1⟩ := descent hb (cross X Y) _ Z rfl hZ
    obtain ⟨E', hE', h2⟩ := descent hb ⟨-(cross X Y).x, -(cross X Y).y, -(cross X Y).z⟩ _ Z rfl hZ
    have hz : ∀ E, Extreme G E → o X Y E = 0 := by
      intro E hE
      rcases h E hE with rfl | rfl
      · exact o_same'' _ _
      · exact o_same _ _
    rw [dot_neg, dot_neg, eq, eq, hz E' hE'] at h2
    rw [eq, eq, hz E hE] at h1
    linarith
  obtain ⟨t, rfl⟩ := collinear_move hX.1.1 hY.1.1 hZ.1 hne ho
  refine ⟨t, ?_, ?_, rfl⟩
  · obtain ⟨f, f0, fp⟩ := exposed hX
    have hy := fp Y hY.1 (Ne.symm hne)
    by_cases e : move X (sub Y X) t = X
    · have : t * dot f Y = 0 := by
        have := congrArg (dot f) e
        rw [dot_move, dot_sub, f0] at this; linarith
      rcases mul_eq_zero.1 this with h | h
      · rw [h]
      · rw [h] at hy; exact absurd hy (lt_irrefl _)
    · have := fp _ hZ e
      rw [dot_move, dot_sub, f0] at this
      by_contra hc
      have : t * dot f Y < 0 := mul_neg_of_neg_of_pos (not_le.1 hc) hy
      linarith
  · obtain ⟨f, f0, fp⟩ := exposed hY
    have hx := fp X hX.1 hne
    have hd : dot f (move X (sub Y X) t) = (1 - t) * dot f X := by rw [dot_move, dot_sub, f0]; ring
    by_cases e : move X (sub Y X) t = Y
    · have : (1 - t) * dot f X = 0 := by rw [← hd, e, f0]
      rcases mul_eq_zero.1 this with h | h
      · linarith
      · rw [h] at hx; exact absurd hx (lt_irrefl _)
    · have := fp _ hZ e
      rw [hd] at this
      by_contra hc
      have : (1 - t) * dot f X < 0 := mul_neg_of_neg_of_pos (by linarith [not_le.1 hc]) hx
      linarith

/-- A vertex of the simplex of all weights is extreme. -/
def Unit (X : P3) : Prop := X = ⟨1, 0, 0⟩ ∨ X = ⟨0, 1, 0⟩ ∨ X = ⟨0, 0, 1⟩

theorem unit_extreme (hb : Bounded G) {X : P3} (hu : Unit X) (hX : Pos G X) : Extreme G X := by
  refine ⟨hX, fun D hD h1 h2 => ?_⟩
  obtain ⟨b1, b2, b3⟩ := hb
  have c1 := h1.2 _ b1; have c2 := h1.2 _ b2; have c3 := h1.2 _ b3
  have d1 := h2.2 _ b1; have d2 := h2.2 _ b2; have d3 := h2.2 _ b3
  simp only [dot, move, total] at *
  rcases hu with rfl | rfl | rfl <;> refine ⟨?_, ?_, ?_⟩ <;> simp only [] at * <;> linarith

/-- Two vertices have a common zero. -/
theorem unit_zero {X Y : P3} (hX : Unit X) (hY : Unit Y) : (X.x = 0 ∧ Y.x = 0) ∨ (X.y = 0 ∧ Y.y = 0) ∨ (X.z = 0 ∧ Y.z = 0) := by
  rcases hX with rfl | rfl | rfl <;> rcases hY with rfl | rfl | rfl <;> simp

end Kigumi.Polygon

namespace Kigumi.FaceFace
open Kigumi Outcome Geo Region Spec.Triangles Polygon

variable {a b c p q r : P3}

/-- The common points are those of the polygon. -/
theorem common_iff (n1 : dot (normal a b c) (normal a b c) ≠ 0) (n2 : dot (normal p q r) (normal p q r) ≠ 0) {x : P3} :
    (InTriangle a b c x ∧ InTriangle p q r x) ↔ ∃ X, Pos (eight a b c p q r) X ∧ x = pnt p q r X := by
  constructor
  · rintro ⟨h1, u, v, w, h, rfl, hu, hv, hw⟩
    obtain ⟨d, k⟩ := (inTriangle_iff n1).1 h1
    exact ⟨⟨u, v, w⟩, pos_iff.2 ⟨h, ⟨hu, hv, hw⟩, k, d⟩, rfl⟩
  · rintro ⟨X, hX, rfl⟩
    obtain ⟨t, x, w, d⟩ := pos_iff.1 hX
    exact ⟨(inTriangle_iff n1).2 ⟨d, w⟩, X.x, X.y, X.z, t, rfl, x⟩

theorem pnt_inj (n2 : dot (normal p q r) (normal p q r) ≠ 0) {X Y : P3} (hX : total X = 1) (hY : total Y = 1) (h : pnt p q r X = pnt p q r Y) : X = Y := by
  have := wt_pnt n2 hX
  rw [h, wt_pnt n2 hY] at this
  exact this.symm

/-- Shared vertices are corners. -/
theorem shared_unit (n1 : dot (normal a b c) (normal a b c) ≠ 0) (n2 : dot (normal p q r) (normal p q r) ≠ 0) {x : P3} (h : SharedVertex a b c p q r x) :
    ∃ X, Unit X ∧ Extreme (eight a b c p q r) X ∧ x = pnt p q r X := by
  have h1 : InTriangle a b c x := by
    rcases h.1 with rfl | rfl | rfl
    · exact ⟨1, 0, 0, by norm_num, by apply p3_ext <;> simp [combo], by norm_num, by norm_num, by norm_num⟩
    · exact ⟨0, 1, 0, by norm_num, by apply p3_ext <;> simp [combo], by norm_num, by norm_num, by norm_num⟩
    · exact ⟨0, 0, 1, by norm_num, by apply p3_ext <;> simp [combo], by norm_num, by norm_num, by norm_num⟩
  have key : ∃ X, Unit X ∧ total X = 1 ∧ (0 ≤ X.x ∧ 0 ≤ X.y ∧ 0 ≤ X.z) ∧ x = pnt p q r X := by
    rcases h.2 with rfl | rfl | rfl
    · exact ⟨⟨1, 0, 0⟩, Or.inl rfl, by simp [total], by norm_num, by apply p3_ext <;> simp [pnt, combo]⟩
    · exact ⟨⟨0, 1, 0⟩, Or.inr (Or.inl rfl), by simp [total], by norm_num, by apply p3_ext <;> simp [pnt, combo]⟩
    · exact ⟨⟨0, 0, 1⟩, Or.inr (Or.inr rfl), by simp [total], by norm_num, by apply p3_ext <;> simp [pnt, combo]⟩
  obtain ⟨X, hu, ht, hx, rfl⟩ := key
  obtain ⟨d, k⟩ := (inTriangle_iff n1).1 h1
  exact ⟨X, hu, unit_extreme bounded_eight hu (pos_iff.2 ⟨ht, hx, k, d⟩), rfl⟩

/-- The weights of a point on the segment between two points. -/
theorem on_segment (n2 : dot (normal p q r) (normal p q r) ≠ 0) {U V W : P3} (hU : total U = 1) (hV : total V = 1) (hW : total W = 1) (h : OnSegment (pnt p q r U) (pnt p q r V) (pnt p q r W)) :
    ∃ t, 0 ≤ t ∧ t ≤ 1 ∧ W = move U (sub V U) t := by
  obtain ⟨s, t, hst, hs, ht, e⟩ := h
  refine ⟨t, ht, by linarith, pnt_inj n2 hW (by rw [total_move, total_sub, hU, hV]; ring) ?_⟩
  have hs' : s = 1 - t := by linarith
  subst hs'
  rw [e]
  apply p3_ext <;> simp only [pnt, combo, move, sub] <;> ring

theorem segment_on {U V : P3} {t : ℚ} (h0 : 0 ≤ t) (h1 : t ≤ 1) : OnSegment (pnt p q r U) (pnt p q r V) (pnt p q r (move U (sub V U) t)) := by
  refine ⟨1 - t, t, by ring, by linarith, h0, ?_⟩
  apply p3_ext <;> simp only [pnt, combo, move, sub] <;> ring

/-- **The number of corners and of shared vertices tell whether the triangles overlap.** -/
theorem overlap_count (n1 : dot (normal a b c) (normal a b c) ≠ 0) (n2 : dot (normal p q r) (normal p q r) ≠ 0) {sh : List P3} (hnd : sh.Nodup) (hsh : ∀ x, x ∈ sh ↔ SharedVertex a b c p q r x) :
    ((allHits a b c p q r).length = 0 → ¬ Overlap a b c p q r) ∧
    ((allHits a b c p q r).length = 1 → (Overlap a b c p q r ↔ sh.length < 1)) ∧
    ((allHits a b c p q r).length = 2 → (Overlap a b c p q r ↔ sh.length < 2)) ∧
    (3 ≤ (allHits a b c p q r).length → Overlap a b c p q r) := by
  obtain ⟨cs, hcs, hmap, hmem⟩ := corner_list n1 n2
  have hlen : (allHits a b c p q r).length = cs.length := by rw [← hmap, List.length_map]
  rw [hlen]
  refine ⟨?_, ?_, ?_, ?_⟩
  · rintro h ⟨x, h1, h2, -⟩
    have := (allHits_nonempty n1 n2).2 ⟨x, h1, h2⟩
    rw [List.length_eq_zero_iff] at h
    rw [h] at hmap; exact this hmap.symm
  · intro h
    obtain ⟨X, rfl⟩ := List.length_eq_one_iff.1 h
    have hX := (hmem X).1 (by simp)
    have only : ∀ Y, Extreme (eight a b c p q r) Y → Y = X := fun Y hY => by simpa using (hmem Y).2 hY
    constructor
    · rintro ⟨x, h1, h2, h3⟩
      by_contra hc
      obtain ⟨u, hu⟩ := List.exists_mem_of_length_pos (l := sh) (by omega)
      apply h3
      obtain ⟨Z, hZ, rfl⟩ := (common_iff n1 n2).1 ⟨h1, h2⟩
      have su := (hsh u).1 hu
      obtain ⟨U, -, eU, rfl⟩ := shared_unit n1 n2 su
      refine ⟨_, _, su, su, ?_⟩
      rw [one_corner bounded_eight hX only hZ, only U eU]
      exact ⟨1, 0, by norm_num, by norm_num, by norm_num, by apply p3_ext <;> simp⟩
    · intro h0
      obtain ⟨i1, i2⟩ := (common_iff n1 n2).2 ⟨X, hX.1, rfl⟩
      refine ⟨_, i1, i2, ?_⟩
      rintro ⟨u, _, su, -⟩
      have := List.length_pos_of_mem ((hsh u).2 su)
      omega
  · intro h
    obtain ⟨X, Y, rfl⟩ := List.length_eq_two.1 h
    have hX := (hmem X).1 (by simp)
    have hY := (hmem Y).1 (by simp)
    have hne : X ≠ Y := by simpa using hcs
    have only : ∀ W, Extreme (eight a b c p q r) W → W = X ∨ W = Y := fun W hW => by simpa using (hmem W).2 hW
    constructor
    · rintro ⟨x, h1, h2, h3⟩
      by_contra hc
      have hc : 2 ≤ sh.length := by omega
      match sh, hc, hnd, hsh with
      | u :: v :: sh, _, hnd, hsh =>
      apply h3
      obtain ⟨Z, hZ, rfl⟩ := (common_iff n1 n2).1 ⟨h1, h2⟩
      have su := (hsh u).1 (by simp)
      have sv := (hsh v).1 (by simp)
      have huv : u ≠ v := by
        rintro rfl; simp at hnd
      refine ⟨_, _, su, sv, ?_⟩
      obtain ⟨U, -, eU, rfl⟩ := shared_unit n1 n2 su
      obtain ⟨V, -, eV, rfl⟩ := shared_unit n1 n2 sv
      have hUV : U ≠ V := by rintro rfl; exact huv rfl
      have only' : ∀ W, Extreme (eight a b c p q r) W → W = U ∨ W = V := by
        intro W hW
        rcases only U eU with rfl | rfl <;> rcases only V eV with rfl | rfl <;> rcases only W hW with rfl | rfl <;>
          first | exact absurd rfl hUV | exact Or.inl rfl | exact Or.inr rfl
      obtain ⟨t, t0, t1, rfl⟩ := two_corners bounded_eight eU eV hUV only' hZ
      exact segment_on t0 t1
    · intro h2
      have pM : Pos (eight a b c p q r) (move X (sub Y X) (1 / 2)) :=
        pos_between (s := 0) (u := 1) (by rw [move_zero]; exact hX.1) (by rw [move_sub]; exact hY.1) (by norm_num) (by norm_num)
      obtain ⟨i1, i2⟩ := (common_iff n1 n2).2 ⟨_, pM, rfl⟩
      refine ⟨_, i1, i2, ?_⟩
      rintro ⟨u, v, su, sv, hs⟩
      have huv : u = v := by
        have mu := (hsh u).2 su; have mv := (hsh v).2 sv
        match sh, h2, mu, mv with
        | [w], _, mu, mv => simp at mu mv; rw [mu, mv]
      subst huv
      obtain ⟨U, -, eU, rfl⟩ := shared_unit n1 n2 su
      obtain ⟨t, t0, t1, e⟩ := on_segment n2 eU.1.1 eU.1.1 pM.1 hs
      have eM : Extreme (eight a b c p q r) (move X (sub Y X) (1 / 2)) := by
        have : move U (sub U U) t = U := by apply p3_ext <;> simp only [move, sub] <;> ring
        rw [e, this]; exact eU
      refine not_extreme (D := sub Y X) (s := -(1 / 2)) (u := 1 / 2) ?_ ?_ (by norm_num) (by norm_num) (fun hz => hne (zero_sub_iff.1 hz).symm) eM
      · have : move (move X (sub Y X) (1 / 2)) (sub Y X) (-(1 / 2)) = X := by apply p3_ext <;> simp only [move, sub] <;> ring
        rw [this]; exact hX.1
      · have : move (move X (sub Y X) (1 / 2)) (sub Y X) (1 / 2) = Y := by apply p3_ext <;> simp only [move, sub] <;> ring
        rw [this]; exact hY.1
  · intro h3
    have H := corners_struct n1 n2 hcs hmem h3
    match cs, h3, hcs, hmem, H with
    | X :: Y :: Z :: cs, _, hcs, hmem, H =>
    have hX := (hmem X).1 (by simp)
    have hY := (hmem Y).1 (by simp)
    have hZ := (hmem Z).1 (by simp)
    have hn : X ≠ Y ∧ X ≠ Z ∧ Y ≠ Z := by
      simp only [List.nodup_cons, List.mem_cons, not_or] at hcs
      exact ⟨hcs.1.1, hcs.1.2.1, hcs.2.1.1⟩
    have hw : ∀ g, dot g ⟨(X.x + Y.x + Z.x) / 3, (X.y + Y.y + Z.y) / 3, (X.z + Y.z + Z.z) / 3⟩ = (dot g X + dot g Y + dot g Z) / 3 := by
      intro g; simp only [dot]; ring
    have pW : Pos (eight a b c p q r) ⟨(X.x + Y.x + Z.x) / 3, (X.y + Y.y + Z.y) / 3, (X.z + Y.z + Z.z) / 3⟩ := by
      refine ⟨?_, fun g hg => ?_⟩
      · have t1 := hX.1.1; have t2 := hY.1.1; have t3 := hZ.1.1
        simp only [total] at t1 t2 t3 ⊢; linarith
      · rw [hw]
        have := hX.1.2 g hg; have := hY.1.2 g hg; have := hZ.1.2 g hg
        linarith
    obtain ⟨i1, i2⟩ := (common_iff n1 n2).2 ⟨_, pW, rfl⟩
    refine ⟨_, i1, i2, ?_⟩
    rintro ⟨u, v, su, sv, hs⟩
    obtain ⟨U, uU, eU, rfl⟩ := shared_unit n1 n2 su
    obtain ⟨V, uV, eV, rfl⟩ := shared_unit n1 n2 sv
    obtain ⟨t, -, -, e⟩ := on_segment n2 eU.1.1 eV.1.1 pW.1 hs
    have tight : ∀ g, g ∈ six a b c p q r → dot g U = 0 → dot g V = 0 → False := by
      intro g hg gu gv
      have : (dot g X + dot g Y + dot g Z) / 3 = 0 := by
        rw [← hw, e, dot_move, dot_sub, gu, gv]; ring
      have g8 := H.sub g hg
      have := hX.1.2 g g8; have := hY.1.2 g g8; have := hZ.1.2 g g8
      exact tight_two H hg (by simp) (by simp) (by simp) hn.1 hn.2.1 hn.2.2 (by linarith) (by linarith) (by linarith)
    rcases unit_zero uU uV with ⟨k1, k2⟩ | ⟨k1, k2⟩ | ⟨k1, k2⟩
    · exact tight ⟨1, 0, 0⟩ (by simp [six]) (by simp [dot, k1]) (by simp [dot, k2])
    · exact tight ⟨0, 1, 0⟩ (by simp [six]) (by simp [dot, k1]) (by simp [dot, k2])
    · exact tight ⟨0, 0, 1⟩ (by simp [six]) (by simp [dot, k1]) (by simp [dot, k2])

end Kigumi.FaceFace

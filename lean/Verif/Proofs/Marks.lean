import Verif.Proofs.Hull
import Verif.Spec.Triangulation

/-! # Vertices of the pieces of two operands -/
namespace Kigumi.Cutting
open Kigumi Geo Spec.Triangles Spec.Side FaceFace Space
open Kigumi.Side (Aff plane Ok eval_seg in_iff sides weightA weightB weightC eval_weightA eval_weightB eval_weightC eval_plane eval_neg ok_of_proper onSegment_self left_end right_end onSegment_swap in_a in_b in_c plane_in)

theorem extreme_iff {S : P3 → Prop} {x : P3} : Extreme S x ↔ Ext S x := by
  constructor
  · rintro ⟨hx, h⟩
    refine ⟨hx, fun y z hy hz hb => ?_⟩
    rcases h y z hy hz (btw_segment hb) with rfl | rfl
    · rfl
    · obtain ⟨s, t, h1, h2, h3, e⟩ := hb
      have ht : t = 1 - s := by linarith
      subst ht
      have ex := congrArg Spec.P3.x e
      have ey := congrArg Spec.P3.y e
      have ez := congrArg Spec.P3.z e
      simp only [seg] at ex ey ez
      apply p3_ext
      · exact mul_left_cancel₀ h2.ne' (by linarith)
      · exact mul_left_cancel₀ h2.ne' (by linarith)
      · exact mul_left_cancel₀ h2.ne' (by linarith)
  · rintro ⟨hx, h⟩
    refine ⟨hx, fun y z hy hz hs => ?_⟩
    by_cases h1 : x = y
    · exact Or.inl h1.symm
    · by_cases h2 : x = z
      · exact Or.inr h2.symm
      · exact Or.inl (h y z hy hz (btw_of_segment hs h1 h2))

theorem common_eq (t u : Tri P3) : Common t u = Meet t u := rfl

/-- The extreme points of what two triangles have in common. -/
def Q (t u : Tri P3) (x : P3) : Prop := Ext (Meet t u) x

theorem q_comm {t u : Tri P3} {x : P3} : Q t u x ↔ Q u t x := by unfold Q; rw [meet_comm]

theorem q_iff {t u : Tri P3} {x : P3} : Extreme (Common t u) x ↔ Q t u x := extreme_iff

theorem q_meet {t u : Tri P3} {x : P3} (h : Q t u x) : In t x ∧ In u x := h.1

/-- Two operands, and the pieces of their triangles. -/
structure Cuts (op : Bool → List (Tri P3)) (cut : Bool → Tri P3 → List (Tri P3)) : Prop where
  complex : ∀ b, Complex (op b)
  once : ∀ b, Once (op b)
  tri : ∀ b, ∀ t ∈ op b, Triangulates t (CutVertex op b t) (CutSegment op b t) (cut b t)

variable {op : Bool → List (Tri P3)} {cut : Bool → Tri P3 → List (Tri P3)}

/-- The vertices in a triangle. -/
def Mark (op : Bool → List (Tri P3)) (b : Bool) (t : Tri P3) (x : P3) : Prop := CutVertex op b t x ∨ x ∈ t.toList

theorem cutVertex_iff {b : Bool} {t : Tri P3} {x : P3} : CutVertex op b t x ↔ ¬ Coincides op b t ∧ ∃ u ∈ op (!b), ¬ Coincides op (!b) u ∧ Q t u x := by
  unfold CutVertex
  simp only [q_iff]

theorem ok_op (h : Cuts op cut) {b : Bool} {t : Tri P3} (ht : t ∈ op b) : Ok t := ok_of_proper ((h.complex b).proper t ht)

theorem face_and {F F' S : P3 → Prop} (h : FaceOf F S) (h' : FaceOf F' S) : FaceOf (fun x => F x ∧ F' x) S :=
  ⟨fun x hx => h.1 x hx.1, fun x y z hx hy hz hb => ⟨h.2 x y z hx.1 hy hz hb, h'.2 x y z hx.2 hy hz hb⟩⟩

theorem once_match {ts : List (Tri P3)} (ho : Once ts) {t u : Tri P3} (ht : t ∈ ts) (hu : u ∈ ts) (hm : Match t u) : t = u := by
  obtain ⟨i, hi⟩ := List.mem_iff_getElem?.1 ht
  obtain ⟨j, hj⟩ := List.mem_iff_getElem?.1 hu
  have := ho i j t u hi hj hm
  rw [this, hj] at hi
  exact (Option.some.inj hi).symm

theorem q_same (h : Cuts op cut) {b b' : Bool} {t t' u : Tri P3} (ht : t ∈ op b) (ht' : t' ∈ op b) (hu : u ∈ op b') {x : P3} (hq : Q t u x) (hx : In t' x) : Q t' u x := by
  have hf := complex_face (h.complex b) ht ht'
  have hf' := complex_face (h.complex b) ht' ht
  -- the common points of the three
  have e1 : Ext (fun y => Meet t t' y ∧ In u y) x := ext_sub hq ⟨⟨hq.1.1, hx⟩, hq.1.2⟩ (fun y hy => ⟨hy.1.1, hy.2⟩)
  have e2 : FaceOf (fun y => Meet t' t y ∧ In u y) (fun y => In t' y ∧ In u y) := face_inter' hf' (In u)
  rw [meet_comm] at e1
  exact ext_face e2 e1

theorem corner_q {t u : Tri P3} (ht : Ok t) {x : P3} (hx : x ∈ t.toList) (hu : In u x) : Q t u x :=
  ext_sub (corner_ext ht hx) ⟨in_corner hx, hu⟩ (fun _ hy => hy.1)

theorem marks_same (h : Cuts op cut) {b : Bool} {t t' : Tri P3} (ht : t ∈ op b) (ht' : t' ∈ op b) {x : P3} (hm : Mark op b t x) (hx : In t' x) : Mark op b t' x := by
  rcases hm with hm | hm
  · obtain ⟨hn, u, hu, hnu, hq⟩ := cutVertex_iff.1 hm
    by_cases hc : Coincides op b t'
    · right
      obtain ⟨u', hu', hmt⟩ := hc
      have f1 : FaceOf (Meet t' t) (In t') := complex_face (h.complex b) ht' ht
      have f2 : FaceOf (Meet u' u) (In u') := complex_face (h.complex _) hu' hu
      have e : In u' = In t' := by funext y; exact propext (in_match_iff (match_symm hmt) y)
      have f3 : FaceOf (fun y => In t' y ∧ In u y) (In t') := by
        have := f2
        unfold Meet at this
        rwa [e] at this
      have f4 := face_and f1 f3
      have e1 : Ext (fun y => Meet t' t y ∧ In t' y ∧ In u y) x := ext_sub hq ⟨⟨hx, hq.1.1⟩, hx, hq.1.2⟩ (fun y hy => ⟨hy.1.2, hy.2.2⟩)
      exact ext_corner (ext_face f4 e1)
    · left
      exact cutVertex_iff.2 ⟨hc, u, hu, hnu, q_same h ht ht' hu hq hx⟩
  · right
    have := corner_ext (ok_op h ht) hm
    have f1 : FaceOf (Meet t' t) (In t') := complex_face (h.complex b) ht' ht
    have e1 : Ext (Meet t' t) x := by rw [meet_comm]; exact ext_sub this ⟨in_corner hm, hx⟩ (fun y hy => hy.1)
    exact ext_corner (ext_face f1 e1)

/-- Where two triangles that are both cut meet, the vertices are the extreme points of what they have in common. -/
theorem mark_q (h : Cuts op cut) {b : Bool} {t u : Tri P3} (ht : t ∈ op b) (hu : u ∈ op (!b)) {x : P3} (hm : Mark op b t x) (hx : In u x) : Q t u x := by
  rcases hm with hm | hm
  · obtain ⟨hn, u', hu', hnu, hq⟩ := cutVertex_iff.1 hm
    exact q_comm.1 (q_same h hu' hu ht (q_comm.1 hq) hx)
  · exact corner_q (ok_op h ht) hm hx

theorem q_mark {b : Bool} {t u : Tri P3} (hu : u ∈ op (!b)) (hct : ¬ Coincides op b t) (hcu : ¬ Coincides op (!b) u) {x : P3} (hq : Q t u x) : Mark op b t x :=
  Or.inl (cutVertex_iff.2 ⟨hct, u, hu, hcu, hq⟩)

theorem coincides_symm {b : Bool} {t u : Tri P3} (ht : t ∈ op b) (h : Match t u) : Coincides op (!b) u := ⟨t, by rw [Bool.not_not]; exact ht, match_symm h⟩

theorem mark_coincides {b : Bool} {t : Tri P3} (hc : Coincides op b t) {x : P3} : Mark op b t x ↔ x ∈ t.toList :=
  ⟨fun h => h.elim (fun h => absurd hc h.1) id, Or.inr⟩

theorem marks_other (h : Cuts op cut) {b : Bool} {t u : Tri P3} (ht : t ∈ op b) (hu : u ∈ op (!b)) {x : P3} (hm : Mark op b t x) (hx : In u x) : Mark op (!b) u x := by
  by_cases hct : Coincides op b t
  · obtain ⟨u', hu', hmt⟩ := hct
    rw [mark_coincides ⟨u', hu', hmt⟩] at hm
    have : Mark op (!b) u' x := Or.inr ((match_mem hmt x).1 hm)
    exact marks_same h hu' hu this hx
  · by_cases hcu : Coincides op (!b) u
    · obtain ⟨t', ht', hmu⟩ := hcu
      rw [Bool.not_not] at ht'
      have hx' : In t' x := in_match hmu hx
      have := marks_same h ht ht' hm hx'
      rw [mark_coincides ⟨u, hu, match_symm hmu⟩] at this
      exact Or.inr ((match_mem hmu x).2 this)
    · exact q_mark (by rw [Bool.not_not]; exact ht) hcu (by rw [Bool.not_not]; exact hct) (q_comm.1 (mark_q h ht hu hm hx))

theorem marks (h : Cuts op cut) {b b' : Bool} {t u : Tri P3} (ht : t ∈ op b) (hu : u ∈ op b') {x : P3} (hm : Mark op b t x) (hx : In u x) : Mark op b' u x := by
  rcases Bool.eq_or_eq_not b' b with rfl | rfl
  · exact marks_same h ht hu hm hx
  · exact marks_other h ht hu hm hx

/-- Corners of pieces that are in other pieces are corners of these. -/
theorem corner_common (h : Cuts op cut) {b b' : Bool} {t u p r : Tri P3} (ht : t ∈ op b) (hu : u ∈ op b') (hp : p ∈ cut b t) (hr : r ∈ cut b' u) {x : P3} (hx : x ∈ p.toList) (hxr : In r x) : x ∈ r.toList := by
  have h1 : Mark op b t x := (h.tri b t ht).corner p hp x hx
  exact (h.tri b' u hu).vertex r hr x (marks h ht hu h1 ((h.tri b' u hu).inside r hr x hxr)) hxr

/-! ## Segments -/

theorem btw_shift {x y z : P3} (h : Btw x y z) : ∃ a b : ℚ, 0 < a ∧ 0 < b ∧ y = shift x (-a) (sub z y) ∧ z = shift x b (sub z y) := by
  obtain ⟨s, t, h1, h2, h3, e⟩ := h
  obtain ⟨e1, e2⟩ := seg_shift h1 e
  refine ⟨t, s, h3, h2, ?_, e2⟩
  rw [e]
  have hs : s = 1 - t := by linarith
  subst hs
  apply p3_ext <;> simp only [shift, seg, sub] <;> ring

theorem shift_btw {x v : P3} {i j k : ℚ} (h1 : i < j) (h2 : j < k) : Btw (shift x j v) (shift x i v) (shift x k v) := by
  have hne : k - i ≠ 0 := by linarith
  refine ⟨(k - j) / (k - i), (j - i) / (k - i), by field_simp; ring, div_pos (by linarith) (by linarith), div_pos (by linarith) (by linarith), ?_⟩
  apply p3_ext <;> simp only [shift, seg] <;> field_simp <;> ring

theorem shift_inj {x v : P3} (hv : v ≠ ⟨0, 0, 0⟩) {i j : ℚ} (h : shift x i v = shift x j v) : i = j := by
  by_contra hne
  apply hv
  simp only [shift, Spec.P3.mk.injEq] at h
  obtain ⟨h1, h2, h3⟩ := h
  have hne' : i - j ≠ 0 := sub_ne_zero.2 hne
  apply p3_ext
  · exact (mul_eq_zero.1 (show (i - j) * v.x = 0 by linarith)).resolve_left hne'
  · exact (mul_eq_zero.1 (show (i - j) * v.y = 0 by linarith)).resolve_left hne'
  · exact (mul_eq_zero.1 (show (i - j) * v.z = 0 by linarith)).resolve_left hne'

theorem sub_ne {y z : P3} (h : y ≠ z) : sub z y ≠ ⟨0, 0, 0⟩ := by
  intro h0
  apply h
  simp only [sub, Spec.P3.mk.injEq] at h0
  exact p3_ext (by linarith [h0.1]) (by linarith [h0.2.1]) (by linarith [h0.2.2])

theorem btw_in {t : Tri P3} {x y z : P3} (h : Btw x y z) (hy : In t y) (hz : In t z) : In t x := in_convex t x y z hy hz (btw_segment h)

/-- Two edges on a line that overlap, none of whose ends is inside of the other one, are the same. -/
theorem same_segment {p r : Tri P3} (hp : Ok p) (hr : Ok r) (h1 : ∀ v ∈ p.toList, In r v → v ∈ r.toList) (h2 : ∀ v ∈ r.toList, In p v → v ∈ p.toList) {x c d c' d' : P3}
    (hc : c ∈ p.toList) (hd : d ∈ p.toList) (hc' : c' ∈ r.toList) (hd' : d' ∈ r.toList) (hb : Btw x c d) (hb' : Btw x c' d') (hne : c ≠ d) {k k' : ℚ} (hk : c' = shift x k (sub d c)) (hk' : d' = shift x k' (sub d c)) :
    (c = c' ∧ d = d') ∨ (c = d' ∧ d = c') := by
  obtain ⟨a, b, ha, hb0, ec, ed⟩ := btw_shift hb
  set v := sub d c with hv
  have hv0 : v ≠ ⟨0, 0, 0⟩ := sub_ne hne
  have ex : x = shift x 0 v := by apply p3_ext <;> simp [shift]
  -- the two ends are on different sides
  have key : ∀ {c' d' : P3} {k k' : ℚ}, c' ∈ r.toList → d' ∈ r.toList → c' = shift x k v → d' = shift x k' v → k < 0 → 0 < k' → c = c' ∧ d = d' := by
    intro c' d' k k' hc' hd' hk hk' hneg hpos
    constructor
    · rcases lt_trichotomy (-a) k with h | h | h
      · have bt : Btw c' c d := by rw [hk, ec, ed]; exact shift_btw h (by linarith)
        exact ((corner_ext hp (h2 c' hc' (btw_in bt (in_corner hc) (in_corner hd)))).2 c d (in_corner hc) (in_corner hd) bt)
      · rw [hk, ec, h]
      · have bt : Btw c c' d' := by rw [hk, ec, hk']; exact shift_btw h (by linarith)
        exact ((corner_ext hr (h1 c hc (btw_in bt (in_corner hc') (in_corner hd')))).2 c' d' (in_corner hc') (in_corner hd') bt).symm
    · rcases lt_trichotomy b k' with h | h | h
      · have bt : Btw d d' c' := btw_symm (by rw [hk, ed, hk']; exact shift_btw (by linarith) h)
        exact ((corner_ext hr (h1 d hd (btw_in bt (in_corner hd') (in_corner hc')))).2 d' c' (in_corner hd') (in_corner hc') bt).symm
      · rw [hk', ed, h]
      · have bt : Btw d' d c := btw_symm (by rw [hk', ec, ed]; exact shift_btw (by linarith) h)
        exact ((corner_ext hp (h2 d' hd' (btw_in bt (in_corner hd) (in_corner hc)))).2 d c (in_corner hd) (in_corner hc) bt)
  obtain ⟨s, t, hst, hs, ht, e⟩ := hb'
  have e0 : s * k + t * k' = 0 := by
    have : shift x (s * k + t * k') v = shift x 0 v := by
      rw [← ex]
      conv_rhs => rw [e, hk, hk']
      have : t = 1 - s := by linarith
      subst this
      apply p3_ext <;> simp only [shift, seg] <;> ring
    exact shift_inj hv0 this
  rcases lt_trichotomy k 0 with h | h | h
  · left
    exact key hc' hd' hk hk' h (by nlinarith)
  · -- then `x` would be an end of the second one
    exfalso
    have hk0 : k' = 0 := by rw [h] at e0; simpa [ht.ne'] using e0
    have e1 : c' = x := by rw [hk, h]; exact ex.symm
    have hxp : In p c' := by rw [e1]; exact btw_in hb (in_corner hc) (in_corner hd)
    have := (corner_ext hp (h2 c' hc' hxp)).2 c d (in_corner hc) (in_corner hd) (e1 ▸ hb)
    apply hne
    have h3 := (corner_ext hp (h2 c' hc' hxp)).2 d c (in_corner hd) (in_corner hc) (e1 ▸ btw_symm hb)
    rw [this, h3]
  · right
    have := key hd' hc' hk' hk (by nlinarith) h
    exact ⟨this.1, this.2⟩

end Kigumi.Cutting

import Verif.Proofs.Cells
import Verif.Proofs.Builder2
import Verif.Props.Boolean
import Verif.Spec.Solid

/-! # The result of a Boolean operation as a set of points -/
namespace Kigumi.Space
open Kigumi Geo Spec.Triangles Spec.Side FaceFace Outcome
open Kigumi.Spec (SameTri Arrangement HasCorners operandTris truth onSets TagTrue)
open Kigumi.Side (Aff plane Ok eval_seg eval_near eval_near_ne near_refl near_mono near_trans miss_near exists_eps shift_near seg_near in_seg all_near_ne plane_in ne_on_segment
  left_end right_end onSegment_self ok_of_proper in_iff eval_plane' eval_neg onSegment_swap onSegment_part eval_plane)
variable {D : Type}

theorem part_operand (ts : List (Tri P3)) (data : List (MixedData D)) (b : Bool) : Part ts (operandTris ts data b) := by
  intro t ht
  simp only [operandTris, List.mem_map, List.mem_filter] at ht
  obtain ⟨x, ⟨hx, -⟩, rfl⟩ := ht
  exact ⟨x.1, (List.of_mem_zip hx).1, match_refl _⟩

theorem sameTri_symm {t u : Tri P3} (h : SameTri t u) : SameTri u t := by
  rcases h with rfl | rfl | rfl
  · exact Or.inl rfl
  · exact Or.inr (Or.inr rfl)
  · exact Or.inr (Or.inl rfl)

theorem sameTri_trans {t u v : Tri P3} (h1 : SameTri t u) (h2 : SameTri u v) : SameTri t v := by
  rcases h1 with rfl | rfl | rfl <;> rcases h2 with rfl | rfl | rfl <;> simp [SameTri, Tri.rot]

theorem sameTri_flip {t u : Tri P3} (h : SameTri t u) : SameTri t.flip u.flip := by
  rcases h with rfl | rfl | rfl <;> simp [SameTri, Tri.rot, Tri.flip]

/-- A face of one operand coincides with at most one face of the other, in one of two orientations. -/
theorem tag_exclusive {ts : List (Tri P3)} (ho : Once ts) {t u v : Tri P3} (hd : t.a ≠ t.b ∧ t.b ≠ t.c ∧ t.c ≠ t.a) (hu : u ∈ ts) (hv : v ∈ ts) (h1 : SameTri t u) (h2 : SameTri t.flip v) : False := by
  obtain ⟨i, hi⟩ := List.mem_iff_getElem?.1 hu
  obtain ⟨j, hj⟩ := List.mem_iff_getElem?.1 hv
  have hij := ho i j u v hi hj (match_trans (match_symm (Or.inl h1)) (Or.inr h2))
  rw [hij, hj] at hi
  rw [Option.some.inj hi] at h2
  exact not_both hd h1 h2

/-- A right tag, as a statement about cells. -/
theorem tagTrue_of_right {K : P3 → Prop} {W : List (Tri P3)} (hW : Split K W) {t : Tri P3} (ht : t ∈ W) {others : List (Tri P3)} {χ : P3 → Prop} (hp : Part W others) (ho : Once others) (hb : BoundsIn K others χ) {tag : Tag}
    (h : RightTag t others χ tag) : TagTrue (arr W hW) t others (lower hp hb) tag := by
  have hd := proper_distinct (hW.complex.proper t ht)
  have unmatched : (∀ u ∈ others, ¬ Match t u) → (¬ ∃ u ∈ others, SameTri t u) ∧ ¬ ∃ u ∈ others, SameTri t.flip u :=
    fun h => ⟨fun ⟨u, hu, hm⟩ => h u hu (Or.inl hm), fun ⟨u, hu, hm⟩ => h u hu (Or.inr hm)⟩
  have cells : (∀ u ∈ others, ¬ Match t u) → ∀ w, Match ((arr W hW).tri w) t →
      (lower hp hb ((arr W hW).behind w) = true ↔ χ (centre t)) ∧ (lower hp hb ((arr W hW).front w) = true ↔ χ (centre t)) := by
    intro hno w hw
    obtain ⟨e, he, k⟩ := lower_same hW hp hb ht hno (inner_centre t)
    have hx := inner_match (match_symm hw) (inner_centre t)
    have ok := ok_of_proper (hW.complex.proper _ (arr_mem hW w))
    obtain ⟨e1, he1, k1⟩ := arr_behind hW w _ hx
    obtain ⟨e2, he2, k2⟩ := arr_front hW w _ hx
    obtain ⟨d1, hd1, g1⟩ := step ok (inner_in hx) (-1) (Or.inr rfl) (lt_min he he1)
    obtain ⟨d2, hd2, g2⟩ := step ok (inner_in hx) 1 (Or.inl rfl) (lt_min he he2)
    obtain ⟨a1, b1⟩ := g1 d1 hd1 (le_refl _)
    obtain ⟨a2, b2⟩ := g2 d2 hd2 (le_refl _)
    obtain ⟨o1, c1⟩ := k1 _ (near_mono (min_le_right _ _) a1) b1
    obtain ⟨o2, c2⟩ := k2 _ (near_mono (min_le_right _ _) a2) b2
    have v1 := k _ (near_mono (min_le_left _ _) a1) o1
    have v2 := k _ (near_mono (min_le_left _ _) a2) o2
    rw [c1] at v1
    rw [c2] at v2
    exact ⟨v1, v2⟩
  cases tag with
  | unknown => exact h.elim
  | coplanar =>
    obtain ⟨u, hu, hm⟩ := h
    refine ⟨by simp only [true_iff]; exact ⟨u, hu, hm⟩, ?_, by simp, fun w _ => ⟨by simp, by simp⟩⟩
    simp only [reduceCtorEq, false_iff]
    rintro ⟨v, hv, hm'⟩
    exact tag_exclusive ho hd hu hv hm hm'
  | opposite =>
    obtain ⟨u, hu, hm⟩ := h
    refine ⟨?_, by simp only [true_iff]; exact ⟨u, hu, hm⟩, by simp, fun w _ => ⟨by simp, by simp⟩⟩
    simp only [reduceCtorEq, false_iff]
    rintro ⟨v, hv, hm'⟩
    exact tag_exclusive ho hd hv hu hm' hm
  | interior =>
    obtain ⟨hno, hin⟩ := h
    obtain ⟨n1, n2⟩ := unmatched hno
    refine ⟨by simpa using n1, by simpa using n2, by simp, fun w hw => ⟨fun _ => ?_, by simp⟩⟩
    obtain ⟨v1, v2⟩ := cells hno w hw
    exact ⟨v1.2 (hin _ (inner_centre t)), v2.2 (hin _ (inner_centre t))⟩
  | exterior =>
    obtain ⟨hno, hin⟩ := h
    obtain ⟨n1, n2⟩ := unmatched hno
    refine ⟨by simpa using n1, by simpa using n2, by simp, fun w hw => ⟨by simp, fun _ => ?_⟩⟩
    obtain ⟨v1, v2⟩ := cells hno w hw
    have hc := hin _ (inner_centre t)
    rw [← Bool.not_eq_true, ← Bool.not_eq_true, v1, v2]
    exact ⟨hc, hc⟩

theorem common_match₂ {t t' u u' : Tri P3} (h1 : Match t t') (h2 : Match u u') {x : P3} (h : InCommon t u x) : InCommon t' u' x := by
  obtain ⟨w0, w1, w2, hs, rfl, p0, p1, p2, m0, m1, m2⟩ := h
  have e : ∀ y, y ∈ u.toList → y ∈ u'.toList := fun y hy => (match_mem h2 y).1 hy
  have m0 := fun h => e _ (m0 h)
  have m1 := fun h => e _ (m1 h)
  have m2 := fun h => e _ (m2 h)
  rcases h1 with (rfl | rfl | rfl) | (rfl | rfl | rfl)
  · exact ⟨w0, w1, w2, hs, rfl, p0, p1, p2, m0, m1, m2⟩
  · exact ⟨w1, w2, w0, by linarith, by apply p3_ext <;> simp only [Tri.rot, combo] <;> ring, p1, p2, p0, m1, m2, m0⟩
  · exact ⟨w2, w0, w1, by linarith, by apply p3_ext <;> simp only [Tri.rot, combo] <;> ring, p2, p0, p1, m2, m0, m1⟩
  · exact ⟨w0, w2, w1, by linarith, by apply p3_ext <;> simp only [Tri.flip, combo] <;> ring, p0, p2, p1, m0, m2, m1⟩
  · exact ⟨w2, w1, w0, by linarith, by apply p3_ext <;> simp only [Tri.flip, Tri.rot, combo] <;> ring, p2, p1, p0, m2, m1, m0⟩
  · exact ⟨w1, w0, w2, by linarith, by apply p3_ext <;> simp only [Tri.flip, Tri.rot, combo] <;> ring, p1, p0, p2, m1, m0, m2⟩

theorem part_complex {W ts : List (Tri P3)} (hW : Complex W) (hp : Part W ts) : Complex ts where
  proper := part_proper hW hp
  meet t ht u hu x hx hy := by
    obtain ⟨t', ht', hm⟩ := hp t ht
    obtain ⟨u', hu', hm'⟩ := hp u hu
    exact common_match₂ hm hm' (hW.meet t' ht' u' hu' x (in_match (match_symm hm) hx) (in_match (match_symm hm') hy))

theorem thin_of_complex {ts : List (Tri P3)} (hc : Complex ts) (ho : Once ts) : Thin ts := by
  intro i r x e hr hin he
  obtain ⟨y, hy, hn⟩ := inner_near hin he
  exact ⟨y, hn, part_singly hc (fun t ht => ⟨t, ht, match_refl t⟩) ho hr hy⟩

theorem part_within {K : P3 → Prop} {W ts : List (Tri P3)} (hw : StaysIn K W) (hp : Part W ts) : StaysIn K ts := by
  intro t ht x hx
  obtain ⟨u, hu, hm⟩ := hp t ht
  exact hw u hu x (inner_match (match_symm hm) hx)

/-- A region of the data structure that represents a set of cells denotes the points of these cells. -/
theorem denotes_of_represents {K : P3 → Prop} {W : List (Tri P3)} (hW : Split K W) {r : Region P3 D} (hinv : Spec.RegionInv r) (hwf : r.boundary.WF) {χc : Cell K W → Bool} (h : Spec.Represents (arr W hW) r χc) {χ : P3 → Prop}
    (hχ : ∀ x, (h : Off K W x) → (χc (cellOf K W x h) = true ↔ χ x)) : DenotesIn K r χ (Surface W) := by
  unfold Spec.Represents at h
  have hinv' := hinv
  unfold Spec.RegionInv at hinv'
  have hempty : ∀ v, BoundsIn K [] (fun _ => v) := fun v => ⟨fun _ _ _ _ _ => Iff.rfl, fun _ _ _ h => by simp at h⟩
  have hsurf : ∀ x, ¬ Surface [] x := fun x ⟨t, ht, _⟩ => by simp at ht
  have hcx : Complex [] := ⟨fun t ht => by simp at ht, fun t ht => by simp at ht⟩
  have hwi : StaysIn K [] := fun t ht => by simp at ht
  have honce : Once [] := fun _ _ _ _ h => by simp at h
  cases hk : r.kind <;> rw [hk] at h hinv' <;> simp only at h hinv'
  · refine ⟨[], fun _ => False, ⟨hinv, hwf, ?_, hcx, honce, hwi, hempty _, by rw [hk]; exact fun _ _ h => h⟩, fun x hx => absurd hx (hsurf x), fun x hxK hx => ⟨False.elim, fun hc => ?_⟩⟩
    · rw [hinv']; exact .nil
    · have := (hχ x ⟨hxK, hx⟩).2 hc
      rw [h] at this; exact absurd this (by simp)
  · refine ⟨[], fun _ => True, ⟨hinv, hwf, ?_, hcx, honce, hwi, hempty _, by rw [hk]; exact fun _ _ => trivial⟩, fun x hx => absurd hx (hsurf x), fun x hxK hx => ⟨fun _ => (hχ x ⟨hxK, hx⟩).1 (h _), fun _ => trivial⟩⟩
    rw [hinv']; exact .nil
  · obtain ⟨hne, R, hcor, hb⟩ := h
    have hs := select_of_bounds hW hb
    refine ⟨R, _, ⟨hinv, hwf, hcor, part_complex hW.complex hs.from_, hs.once, part_within hW.within hs.from_, hs.bounds, ?_⟩, fun x hx => hs.sub hx, fun x hxK hx => ?_⟩
    · rw [hk]
      intro hR
      rw [hR] at hcor
      exact hne (List.forall₂_nil_right_iff.1 hcor)
    · rw [hs.fill_off ⟨hxK, hx⟩, inCell_off ⟨hxK, hx⟩]
      exact hχ x ⟨hxK, hx⟩

theorem run_in {K : P3 → Prop} {bb : Builder P3 D} {ts : List (Tri P3)} {χ : Bool → P3 → Prop} (hc : Cut K bb.m ts χ) (ht : Tagged bb.m ts χ)
    (hkA : KindIn K bb.firstKind (χ true) (operandTris ts bb.m.data true)) (hkB : KindIn K bb.secondKind (χ false) (operandTris ts bb.m.data false)) (op : Op) (pf : Bool) :
    ∃ r, bb.run op pf = ok r ∧ DenotesIn K r (fun x => x ∈ onSets op {x | χ true x} {x | χ false x}) (Surface ts) := by
  have hW : Split K ts := ⟨hc.zone, hc.complex, hc.within⟩
  have hp := fun b => part_operand ts bb.m.data b
  have hkind : ∀ (k : Kind) (b : Bool), KindIn K k (χ b) (operandTris ts bb.m.data b) → KindOk k (lower (hp b) (hc.bounds b)) (operandTris ts bb.m.data b) := by
    intro k b h
    cases k with
    | empty =>
      intro c
      obtain ⟨x, hx, rfl⟩ := cellOf_surj c
      rw [← Bool.not_eq_true, lower_cell]; exact h x hx.1
    | full =>
      intro c
      obtain ⟨x, hx, rfl⟩ := cellOf_surj c
      rw [lower_cell]; exact h x hx.1
    | boundaryDefined => exact h
  obtain ⟨r, hr, hrep, hwf⟩ := run_correct (arr_connected hW) hc.data hc.corners (bounds_of_region hW (hp true) (hc.once true) (hc.bounds true))
    (bounds_of_region hW (hp false) (hc.once false) (hc.bounds false)) (by
      intro x hx
      have h1 : ∀ b, b = (!x.2.fromLeft) → TagTrue (arr ts hW) x.1 (operandTris ts bb.m.data b) (lower (hp b) (hc.bounds b)) x.2.tag := by
        rintro b rfl
        exact tagTrue_of_right hW (List.of_mem_zip hx).1 (hp (!x.2.fromLeft)) (hc.once _) (hc.bounds _) (ht x hx)
      cases hb : x.2.fromLeft
      · rw [if_neg (by simp)]
        exact h1 true (by rw [hb]; rfl)
      · rw [if_pos rfl]
        exact h1 false (by rw [hb]; rfl))
    (hkind _ true hkA) (hkind _ false hkB) op pf
  refine ⟨r, hr, denotes_of_represents hW (run_inv hr) hwf hrep ?_⟩
  intro x hx
  exact Props.C01_truth_is_set_operation op _ _ x _ _ (lower_cell (hp true) (hc.bounds true) x hx) (lower_cell (hp false) (hc.bounds false) x hx)

theorem run_denotes {bb : Builder P3 D} {ts : List (Tri P3)} {χ : Bool → P3 → Prop} (hc : Cut Whole bb.m ts χ) (ht : Tagged bb.m ts χ)
    (hkA : KindSays bb.firstKind (χ true) (operandTris ts bb.m.data true)) (hkB : KindSays bb.secondKind (χ false) (operandTris ts bb.m.data false)) (op : Op) (pf : Bool) :
    ∃ r, bb.run op pf = ok r ∧ Denotes r (fun x => x ∈ onSets op {x | χ true x} {x | χ false x}) (Surface ts) := by
  obtain ⟨r, hr, hd⟩ := run_in hc ht (kindIn_whole.2 hkA) (kindIn_whole.2 hkB) op pf
  exact ⟨r, hr, denotesIn_whole.1 hd⟩

end Kigumi.Space

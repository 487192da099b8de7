import Verif.Proofs.Constructed
import Verif.Proofs.Mixed

/-!
# Surfaces that bound a region inside of a convex set: the corefinement, and single triangles
-/
namespace Kigumi.Space
open Kigumi Side Spec.Triangles Spec.Side FaceFace Cutting
open Kigumi.Spec (HasCorners operandTris Apex HasEdge)
open Kigumi.Geo (P3)
variable {D : Type} {op : Bool → List (Tri P3)} {cut : Bool → Tri P3 → List (Tri P3)} {K : P3 → Prop}

theorem mid_eq (x y : P3) : mid x y = ⟨(x.x + y.x) / 2, (x.y + y.y) / 2, (x.z + y.z) / 2⟩ := by
  apply p3_ext <;> simp only [mid, seg] <;> ring

/-- The edges that matter for the classification are in the convex set if the common points of the operands are, apart from single ones. -/
theorem clear_of_laid (h : Cuts op cut) {m : Soup P3 (MixedData D)} {ts : List (Tri P3)} {border : List (Nat × Nat)} (hl : Laid op cut m ts border) (hK : MeetIn K op) :
    Clear K m.faces (Mix.pts m.points) (Mix.owner m.data) border := by
  intro p q _ hpq
  rw [mid_eq]
  rcases hpq with hb | ⟨k, k', h1, h2, hne⟩
  · obtain ⟨x, y, hx, hy, t, ht, u, hu, -, -, hc, hd, hn, -⟩ := hl.joined _ hb
    rw [pts_some hx, pts_some hy]
    exact hK t ht u hu x y hn hc.1.1 hd.1.1 hc.1.2 hd.1.2
  · have key : ∀ k, HasEdge m.faces p q k → Mix.pts m.points p ≠ Mix.pts m.points q ∧ ∃ t ∈ op (Mix.owner m.data k), In t (Mix.pts m.points p) ∧ In t (Mix.pts m.points q) := by
      rintro k ⟨f, r, hf, ha⟩
      have hm := (operand_mem hl.data hl.corners (b := Mix.owner m.data k)).2 ⟨k, f, hf, rfl, rfl⟩
      rw [hl.tris] at hm
      obtain ⟨t, ht, hp⟩ := List.mem_flatMap.1 hm
      have hpr := (h.tri _ t ht).complex.proper _ hp
      have hma := apex_match (pts := Mix.pts m.points) ha
      refine ⟨(proper_distinct (match_proper (match_symm hma) hpr)).1, t, ht, (h.tri _ t ht).inside _ hp _ (in_match hma (Side.in_a _)), (h.tri _ t ht).inside _ hp _ (in_match hma (Side.in_b _))⟩
    obtain ⟨n, t, ht, a1, a2⟩ := key k h1
    obtain ⟨-, u, hu, b1, b2⟩ := key k' h2
    cases ho : Mix.owner m.data k <;> cases ho' : Mix.owner m.data k' <;> rw [ho] at ht <;> rw [ho'] at hu
    · rw [ho, ho'] at hne; exact absurd rfl hne
    · exact hK u hu t ht _ _ n b1 b2 a1 a2
    · exact hK t ht u hu _ _ n a1 a2 b1 b2
    · rw [ho, ho'] at hne; exact absurd rfl hne

/-- A triangle that contains all points of its plane in the convex set bounds one side of it. -/
theorem sheet_bounds (hK : Zone K) {t : Tri P3} (ht : Proper t) (h : ∀ x, K x → (plane t).eval x = 0 → In t x) : BoundsIn K [t] (fun x => (plane t).eval x < 0) where
  const := by
    intro x y hx hy hseg
    by_contra hne
    have off : ∀ z, OnSegment x y z → (plane t).eval z ≠ 0 := fun z hz h0 => hseg z hz ⟨t, List.mem_singleton.2 rfl, h z (hK.convex x y z hx hy hz) h0⟩
    have ox := off x (left_end x y)
    have oy := off y (right_end x y)
    generalize hA : plane t = A at *
    have key : ∀ a b : P3, OnSegment x y (seg (A.eval b / (A.eval b - A.eval a)) (-A.eval a / (A.eval b - A.eval a)) a b) → A.eval a < 0 → 0 < A.eval b → False := by
      intro a b hs ha hb
      refine off _ hs ?_
      have hd : A.eval b - A.eval a ≠ 0 := by linarith
      simp only [Aff.eval, Geo.dot, seg] at ha hb hd ⊢
      field_simp
      ring
    rcases lt_or_gt_of_ne ox with h1 | h1 <;> rcases lt_or_gt_of_ne oy with h2 | h2
    · exact hne ⟨fun _ => h2, fun _ => h1⟩
    · have hd : 0 < A.eval y - A.eval x := by linarith
      exact key x y ⟨_, _, by field_simp; ring, by positivity, div_nonneg (by linarith) hd.le, rfl⟩ h1 h2
    · have hd : 0 < A.eval x - A.eval y := by linarith
      refine key y x ⟨-A.eval y / (A.eval x - A.eval y), A.eval x / (A.eval x - A.eval y), by field_simp; ring, div_nonneg (by linarith) hd.le, by positivity, ?_⟩ h2 h1
      apply p3_ext <;> simp only [seg] <;> ring
    · exact hne ⟨fun h => absurd h (by linarith), fun h => absurd h (by linarith)⟩
  jump := by
    intro i u x hi hx _
    have hu : u = t := by
      rcases i with _ | i
      · exact (Option.some.inj hi).symm
      · simp at hi
    subst hu
    obtain ⟨t', ht', hin, -⟩ := hx
    rw [hi] at ht'
    cases ht'
    obtain ⟨e1, he1, h1⟩ := step (ok_of_proper ht) hin 1 (.inl rfl) (e := 1) one_pos
    obtain ⟨e2, he2, h2⟩ := step (ok_of_proper ht) hin (-1) (.inr rfl) (e := 1) one_pos
    refine ⟨min e1 e2, lt_min he1 he2, fun s hs hle => ?_⟩
    have a := (h1 s hs (hle.trans (min_le_left _ _))).2
    have b := (h2 s hs (hle.trans (min_le_right _ _))).2
    rw [one_mul, one_mul] at a
    rw [neg_one_mul, neg_one_mul] at b
    exact ⟨by linarith, by linarith⟩

end Kigumi.Space

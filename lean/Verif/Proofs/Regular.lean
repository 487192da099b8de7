import Verif.Proofs.Expressions
import Verif.Spec.Regular
import Verif.Tactics

/-!
# Solids are regularized sets
-/
namespace Kigumi.Regular
open Kigumi Spec.Triangles Spec.Side Spec.Regular
open Kigumi.Spec (P3)
open Kigumi.Space
open Kigumi.Side (near_mono near_trans near_refl Ok plane ok_of_proper)

/-- Close to every point that is not in a solid, or on its surface, there are points outside of the solid that are not on given triangles (compare `Crossing.dense`). -/
theorem dense_out {ts W : List (Tri P3)} {χ : P3 → Prop} (hc : Complex ts) (ho : Once ts) (hb : Bounds ts χ) (hok : ∀ t ∈ W, Ok t) {y : P3} (hy : ¬ χ y ∨ Surface ts y) {e : ℚ} (he : 0 < e) : ∃ y', Near e y' y ∧ ¬ χ y' ∧ ¬ Surface W y' := by
  have okt : ∀ t ∈ ts, Ok t := fun t ht => ok_of_proper (hc.proper t ht)
  have off : ∀ n, ¬ χ n → ¬ Surface ts n → ∀ e : ℚ, 0 < e → ∃ y', Near e y' n ∧ ¬ χ y' ∧ ¬ Surface W y' := by
    intro n hn hs e he
    obtain ⟨e0, h0, hfree⟩ := ball okt hs
    obtain ⟨y', h1, -, h2⟩ := off_near hok n (lt_min he h0)
    exact ⟨y', near_mono (min_le_left _ _) h1, fun k => hn ((hb.const n y' (hfree n y' (near_refl h0.le n) (near_mono (min_le_right _ _) h1))).2 k), h2⟩
  by_cases hs : Surface ts y
  · obtain ⟨t, ht, hin⟩ := hs
    obtain ⟨i, hi⟩ := List.mem_iff_getElem?.1 ht
    obtain ⟨m, hm, nm⟩ := inner_near hin (half_pos he)
    obtain ⟨e1, he1, hj⟩ := hb.jump i t m hi (part_singly hc (fun t ht => ⟨t, ht, match_refl t⟩) ho hi hm)
    obtain ⟨e2, he2, hst⟩ := strip hc ht hm hm
    obtain ⟨d, hd, hstep⟩ := step (okt t ht) (inner_in hm) 1 (.inl rfl) (lt_min he2 (half_pos (half_pos he)))
    obtain ⟨h1, h2⟩ := hstep (min d e1) (lt_min hd he1) (min_le_left _ _)
    have e' : (1 : ℚ) * min d e1 = min d e1 := by ring
    rw [e'] at h1 h2
    have hn := (hj (min d e1) (lt_min hd he1) (min_le_right _ _)).2
    generalize shift m (min d e1) (outward t) = n at *
    obtain ⟨y', k1, k2, k3⟩ := off n hn (fun hs => hst n n (near_mono (min_le_left _ _) h1) (near_mono (min_le_left _ _) h1) ⟨1, h2, h2⟩ n (Side.left_end n n) hs) _ (half_pos (half_pos he))
    refine ⟨y', near_mono ?_ (near_trans (near_trans k1 (near_mono (min_le_right _ _) h1)) nm), k2, k3⟩
    linarith
  · exact off y (hy.resolve_right hs) hs e he

section
variable {ts W : List (Tri P3)} {χ A : P3 → Prop} (hc : Complex ts) (ho : Once ts) (hb : Bounds ts χ) (hok : ∀ t ∈ W, Ok t) (hsub : ∀ x, Surface ts x → Surface W x) (hag : ∀ x, ¬ Surface W x → (χ x ↔ A x))
include hc ho hb hok hsub hag

/-- **The regularized set consists of the solid and its surface.** -/
theorem regular_iff (x : P3) : Regular A x ↔ χ x ∨ Surface ts x := by
  have okt : ∀ t ∈ ts, Ok t := fun t ht => ok_of_proper (hc.proper t ht)
  constructor
  · intro h
    by_cases hs : Surface ts x
    · exact .inr hs
    left
    obtain ⟨e0, h0, hfree⟩ := ball okt hs
    obtain ⟨y, ny, e1, h1, hall⟩ := h _ (half_pos h0)
    obtain ⟨z, nz, -, hz⟩ := off_near hok y (lt_min h1 (half_pos h0))
    have cz : χ z := (hag z hz).2 (hall z (near_mono (min_le_left _ _) nz))
    have n : Near e0 z x := near_mono (by linarith) (near_trans (near_mono (min_le_right _ _) nz) ny)
    exact (hb.const x z (hfree x z (near_refl h0.le _) n)).2 cz
  · intro h e he
    obtain ⟨y, ny, cy, sy⟩ := Crossing.dense hc ho hb hok h he
    obtain ⟨e1, h1, hfree⟩ := ball hok sy
    refine ⟨y, ny, e1, h1, fun z nz => ?_⟩
    have hf := hfree y z (near_refl h1.le _) nz
    exact (hag z (hf z (Side.right_end _ _))).1 ((hb.const y z fun w hw hsw => hf w hw (hsub w hsw)).1 cy)

/-- **The interior of the regularized set consists of the points of the solid off the surface.** -/
theorem inside_iff (x : P3) : Inside (Regular A) x ↔ χ x ∧ ¬ Surface ts x := by
  have okt : ∀ t ∈ ts, Ok t := fun t ht => ok_of_proper (hc.proper t ht)
  constructor
  · rintro ⟨e, he, h⟩
    have hs : ¬ Surface ts x := by
      intro hs
      obtain ⟨y, ny, cy, sy⟩ := dense_out hc ho hb hok (.inr hs) he
      rcases (regular_iff hc ho hb hok hsub hag y).1 (h y ny) with k | k
      exacts [cy k, sy (hsub y k)]
    exact ⟨((regular_iff hc ho hb hok hsub hag x).1 (h x (near_refl he.le _))).resolve_right hs, hs⟩
  · rintro ⟨cx, hs⟩
    obtain ⟨e0, h0, hfree⟩ := ball okt hs
    exact ⟨e0, h0, fun y ny => (regular_iff hc ho hb hok hsub hag y).2 (.inl ((hb.const x y (hfree x y (near_refl h0.le _) ny)).1 cx))⟩

/-- **The border of the regularized set is the surface.** -/
theorem border_iff (x : P3) : Border (Regular A) x ↔ Surface ts x := by
  have hl : Limit (Regular A) x ↔ Regular A x := by
    constructor
    · intro h e he
      obtain ⟨y, ny, hy⟩ := h _ (half_pos he)
      obtain ⟨z, nz, hz⟩ := hy _ (half_pos he)
      exact ⟨z, near_mono (by linarith) (near_trans nz ny), hz⟩
    · intro h e he
      exact ⟨x, near_refl he.le _, h⟩
  unfold Border
  rw [hl, regular_iff hc ho hb hok hsub hag, inside_iff hc ho hb hok hsub hag]
  tauto
end

end Kigumi.Regular

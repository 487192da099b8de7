import Verif.Proofs.Valuation
import Verif.Proofs.Expressions
import Verif.Props.SideReturns
import Verif.Props.Crossing

/-!
# Volumes of bounded sets are positive
-/
namespace Kigumi.Props
open Kigumi Outcome Geo Spec.Triangles Spec.Side FaceFace Space
open Kigumi.Spec (SameTri HasCorners operandTris truth onSets RegionInv)
open Kigumi.Corefine (both)
open Kigumi.Side (Aff plane weightB weightC eval_weightB Ok ok_of_proper near_mono near_refl eval_near)
variable {D : Type}

/-! ## Half-spaces -/

/-- A point of a cube around the origin. -/
def InBox (M : ℚ) (x : P3) : Prop := Near M x ⟨0, 0, 0⟩

theorem eval_bound (f : Aff) (M : ℚ) : ∃ C, 0 ≤ C ∧ ∀ x, InBox M x → |f.eval x| ≤ C := by
  refine ⟨|f.n.x| * |M| + |f.n.y| * |M| + |f.n.z| * |M| + |f.k|, by positivity, ?_⟩
  rintro x ⟨h1, h2, h3, h4, h5, h6⟩
  simp only [sub_zero] at *
  have a1 : |x.x| ≤ |M| := (abs_le.2 ⟨h1, h2⟩).trans (le_abs_self M)
  have a2 : |x.y| ≤ |M| := (abs_le.2 ⟨h3, h4⟩).trans (le_abs_self M)
  have a3 : |x.z| ≤ |M| := (abs_le.2 ⟨h5, h6⟩).trans (le_abs_self M)
  unfold Aff.eval dot
  refine (abs_add_le _ _).trans (add_le_add_left ((abs_add_three _ _ _).trans ?_) _)
  simp only [abs_mul]
  gcongr

/-- The planes of a tetrahedron at a point with given weights. -/
theorem weights {p q r s x : P3} {w0 w1 w2 w3 : ℚ} (one : w0 + w1 + w2 + w3 = 1) (hx : x.x = w0 * p.x + w1 * q.x + w2 * r.x + w3 * s.x) (hy : x.y = w0 * p.y + w1 * q.y + w2 * r.y + w3 * s.y) (hz : x.z = w0 * p.z + w1 * q.z + w2 * r.z + w3 * s.z) :
    (plane ⟨q, r, s⟩).eval x = -(w0 * det4 p q r s) ∧ (plane ⟨p, s, r⟩).eval x = -(w1 * det4 p q r s) ∧ (plane ⟨p, q, s⟩).eval x = -(w2 * det4 p q r s) ∧ (plane ⟨p, r, q⟩).eval x = -(w3 * det4 p q r s) := by
  have e : ∀ f : Aff, f.eval x = w0 * f.eval p + w1 * f.eval q + w2 * f.eval r + w3 * f.eval s := by
    intro f
    simp only [Aff.eval, dot, hx, hy, hz]
    linear_combination -f.k * one
  obtain ⟨⟨p1, p2, p3, p4⟩, ⟨q1, q2, q3, q4⟩, ⟨r1, r2, r3, r4⟩, s1, s2, s3, s4⟩ := tetra_planes p q r s
  refine ⟨?_, ?_, ?_, ?_⟩ <;> rw [e]
  · rw [p1, p2, p3, p4]; ring
  · rw [q1, q2, q3, q4]; ring
  · rw [r1, r2, r3, r4]; ring
  · rw [s1, s2, s3, s4]; ring

/-- In a cube, the points in front of a plane are the points inside of a tetrahedron. -/
theorem halfspace {t : Tri P3} (ht : Proper t) (M : ℚ) : ∃ p q r s, 0 < det4 p q r s ∧ ∀ x, InBox M x → (0 < (plane t).eval x ↔ Within (Space.tetra p q r s) x) ∧ ((plane t).eval x = 0 → Surface (Space.tetra p q r s) x) := by
  have hN := dot_self_pos (ok_of_proper ht)
  obtain ⟨a, b, c⟩ := t
  obtain ⟨C1, h1, b1⟩ := eval_bound (weightB ⟨a, b, c⟩) M
  obtain ⟨C2, h2, b2⟩ := eval_bound (weightC ⟨a, b, c⟩) M
  obtain ⟨C3, h3, b3⟩ := eval_bound (plane ⟨a, b, c⟩) M
  have key : ∀ x : P3, dot (FaceFace.normal a b c) (FaceFace.normal a b c) * (x.x - a.x) = (weightB ⟨a, b, c⟩).eval x * (b.x - a.x) + (weightC ⟨a, b, c⟩).eval x * (c.x - a.x) + (plane ⟨a, b, c⟩).eval x * (FaceFace.normal a b c).x ∧
      dot (FaceFace.normal a b c) (FaceFace.normal a b c) * (x.y - a.y) = (weightB ⟨a, b, c⟩).eval x * (b.y - a.y) + (weightC ⟨a, b, c⟩).eval x * (c.y - a.y) + (plane ⟨a, b, c⟩).eval x * (FaceFace.normal a b c).y ∧
      dot (FaceFace.normal a b c) (FaceFace.normal a b c) * (x.z - a.z) = (weightB ⟨a, b, c⟩).eval x * (b.z - a.z) + (weightC ⟨a, b, c⟩).eval x * (c.z - a.z) + (plane ⟨a, b, c⟩).eval x * (FaceFace.normal a b c).z := by
    intro x
    simp only [weightB, weightC, plane, Aff.eval, FaceFace.normal, dot, cross, sub]
    refine ⟨by ring, by ring, by ring⟩
  have hV : dot (cross (sub b a) (sub c a)) (FaceFace.normal a b c) = dot (FaceFace.normal a b c) (FaceFace.normal a b c) := rfl
  generalize dot (FaceFace.normal a b c) (FaceFace.normal a b c) = N at *
  generalize FaceFace.normal a b c = n at *
  generalize weightB ⟨a, b, c⟩ = f at *
  generalize weightC ⟨a, b, c⟩ = g at *
  generalize plane ⟨a, b, c⟩ = h at *
  obtain ⟨L, hL⟩ : ∃ L : ℚ, L = (C1 + C2 + C3) / N + 1 := ⟨_, rfl⟩
  have L0 : 0 < L := by rw [hL]; positivity
  have bd : ∀ {C y : ℚ}, C ≤ C1 + C2 + C3 → |y| ≤ C → -L < y / N ∧ y / N < L := by
    intro C y hC hy
    obtain ⟨k1, k2⟩ := abs_le.1 hy
    have e : L * N = C1 + C2 + C3 + N := by rw [hL]; field_simp
    constructor
    · rw [lt_div_iff₀ hN]; linarith
    · rw [div_lt_iff₀ hN]; linarith
  let P : P3 := ⟨a.x - L * (b.x - a.x) - L * (c.x - a.x), a.y - L * (b.y - a.y) - L * (c.y - a.y), a.z - L * (b.z - a.z) - L * (c.z - a.z)⟩
  let Q : P3 := ⟨P.x + 6 * L * (b.x - a.x), P.y + 6 * L * (b.y - a.y), P.z + 6 * L * (b.z - a.z)⟩
  let R : P3 := ⟨P.x + 6 * L * (c.x - a.x), P.y + 6 * L * (c.y - a.y), P.z + 6 * L * (c.z - a.z)⟩
  let S : P3 := ⟨P.x + 6 * L * n.x, P.y + 6 * L * n.y, P.z + 6 * L * n.z⟩
  have V : det4 P Q R S = (6 * L) ^ 3 * N := by
    rw [← hV]
    simp only [det4, dot, cross, sub, P, Q, R, S]; ring
  have V0 : 0 < det4 P Q R S := by rw [V]; positivity
  refine ⟨P, Q, R, S, V0, fun x hx => ?_⟩
  obtain ⟨kx, ky, kz⟩ := key x
  obtain ⟨f1, f2⟩ := bd (by linarith) (b1 x hx)
  obtain ⟨g1, g2⟩ := bd (by linarith) (b2 x hx)
  obtain ⟨h1', h2'⟩ := bd (by linarith) (b3 x hx)
  have hs : 0 < h.eval x ↔ 0 < h.eval x / N := by
    constructor
    · exact fun k => div_pos k hN
    · intro k; have := mul_pos k hN; rwa [div_mul_cancel₀ _ hN.ne'] at this
  have cx : x.x - a.x = f.eval x / N * (b.x - a.x) + g.eval x / N * (c.x - a.x) + h.eval x / N * n.x := by field_simp; linarith
  have cy : x.y - a.y = f.eval x / N * (b.y - a.y) + g.eval x / N * (c.y - a.y) + h.eval x / N * n.y := by field_simp; linarith
  have cz : x.z - a.z = f.eval x / N * (b.z - a.z) + g.eval x / N * (c.z - a.z) + h.eval x / N * n.z := by field_simp; linarith
  have h0 : h.eval x = 0 → h.eval x / N = 0 := fun k => by rw [k, zero_div]
  generalize f.eval x / N = α at *
  generalize g.eval x / N = β at *
  generalize h.eval x / N = γ at *
  have k1 : (α + L) / (6 * L) * (6 * L) = α + L := div_mul_cancel₀ _ (by positivity)
  have k2 : (β + L) / (6 * L) * (6 * L) = β + L := div_mul_cancel₀ _ (by positivity)
  have k3 : γ / (6 * L) * (6 * L) = γ := div_mul_cancel₀ _ (by positivity)
  obtain ⟨e0, e1, e2, e3⟩ := weights (p := P) (q := Q) (r := R) (s := S) (x := x) (w0 := 1 - (α + L) / (6 * L) - (β + L) / (6 * L) - γ / (6 * L)) (w1 := (α + L) / (6 * L)) (w2 := (β + L) / (6 * L)) (w3 := γ / (6 * L)) (by ring)
    (by simp only [P, Q, R, S]; linear_combination cx - (b.x - a.x) * k1 - (c.x - a.x) * k2 - n.x * k3) (by simp only [P, Q, R, S]; linear_combination cy - (b.y - a.y) * k1 - (c.y - a.y) * k2 - n.y * k3) (by simp only [P, Q, R, S]; linear_combination cz - (b.z - a.z) * k1 - (c.z - a.z) * k2 - n.z * k3)
  have w1 : 0 < (α + L) / (6 * L) * det4 P Q R S := by have : 0 < α + L := by linarith
                                                       positivity
  have w2 : 0 < (β + L) / (6 * L) * det4 P Q R S := by have : 0 < β + L := by linarith
                                                       positivity
  have w0 : 0 < (1 - (α + L) / (6 * L) - (β + L) / (6 * L) - γ / (6 * L)) * det4 P Q R S := by
    refine mul_pos ?_ V0
    have : 1 - (α + L) / (6 * L) - (β + L) / (6 * L) - γ / (6 * L) = (4 * L - α - β - γ) / (6 * L) := by field_simp; ring
    rw [this]
    exact div_pos (by linarith) (by linarith)
  refine ⟨?_, fun k => ?_⟩
  · simp only [Within, Space.tetra, List.forall_mem_cons, List.not_mem_nil, IsEmpty.forall_iff, implies_true, and_true, e0, e1, e2, e3]
    rw [hs]
    constructor
    · intro k
      have : 0 < γ / (6 * L) * det4 P Q R S := by positivity
      exact ⟨by linarith, by linarith, by linarith, by linarith⟩
    · rintro ⟨-, -, -, k⟩
      by_contra k'
      have : γ / (6 * L) * det4 P Q R S ≤ 0 := mul_nonpos_of_nonpos_of_nonneg (div_nonpos_of_nonpos_of_nonneg (by linarith) (by linarith)) V0.le
      linarith
  · refine ⟨⟨P, R, Q⟩, by simp [Space.tetra], ((tetra_in V0 x).2.2.2).2 ⟨?_, ?_⟩⟩
    · rw [e3, h0 k]; ring
    · simp only [Space.tetra, List.forall_mem_cons, List.not_mem_nil, IsEmpty.forall_iff, implies_true, and_true, e0, e1, e2, e3]
      rw [h0 k] at w0 ⊢
      refine ⟨by linarith, by linarith, by linarith, by simp⟩

/-! ## Convex cells -/

/-- A bounded open convex set that is a region, apart from points of a surface. -/
structure IsCell (M : ℚ) (B : Set P3) : Prop where
  poly : Polyhedral Unit B
  convex : ConvexSet fun x => x ∈ B
  isOpen : ∀ x ∈ B, ∃ e > 0, ∀ y, Near e y x → y ∈ B
  box : ∀ x ∈ B, InBox M x

theorem within_polyhedral {p q r s : P3} (h : 0 < det4 p q r s) : Polyhedral Unit {x | Within (Space.tetra p q r s) x} :=
  ⟨simplex p q r s, Space.tetra p q r s, tetra_proper h.ne', _, _, simplex_is h, fun _ h => h, fun _ _ => Iff.rfl⟩

theorem eval_seg (f : Aff) {x y z : P3} (h : OnSegment x y z) : ∃ u v : ℚ, u + v = 1 ∧ 0 ≤ u ∧ 0 ≤ v ∧ f.eval z = u * f.eval x + v * f.eval y := by
  obtain ⟨u, v, one, u0, v0, rfl⟩ := h
  refine ⟨u, v, one, u0, v0, ?_⟩
  simp only [Aff.eval, dot]
  linear_combination -f.k * one

theorem eval_pos_seg (f : Aff) {x y z : P3} (hx : 0 < f.eval x) (hy : 0 < f.eval y) (h : OnSegment x y z) : 0 < f.eval z := by
  obtain ⟨u, v, one, u0, v0, e⟩ := eval_seg f h
  rw [e]
  rcases eq_or_lt_of_le u0 with rfl | u0
  · obtain rfl : v = 1 := by linarith
    linarith
  · have := mul_pos u0 hx; have := mul_nonneg v0 hy.le
    linarith

/-- The part of a cell in front of a plane is a cell. -/
theorem IsCell.front {M : ℚ} {B : Set P3} (h : IsCell M B) {t : Tri P3} (ht : Proper t) : IsCell M {x | x ∈ B ∧ 0 < (plane t).eval x} := by
  obtain ⟨p, q, r, s, hd, hw⟩ := halfspace ht M
  refine ⟨?_, ?_, ?_, fun x hx => h.box x hx.1⟩
  · have e : {x | x ∈ B ∧ 0 < (plane t).eval x} = B ∩ {x | Within (Space.tetra p q r s) x} := by
      ext x
      constructor
      · exact fun ⟨h1, h2⟩ => ⟨h1, ((hw x (h.box x h1)).1).1 h2⟩
      · exact fun ⟨h1, h2⟩ => ⟨h1, ((hw x (h.box x h1)).1).2 h2⟩
    rw [e]
    exact polyhedral_inter h.poly (within_polyhedral hd)
  · exact fun x y z hx hy hz => ⟨h.convex x y z hx.1 hy.1 hz, eval_pos_seg _ hx.2 hy.2 hz⟩
  · rintro x ⟨h1, h2⟩
    obtain ⟨e, he, k⟩ := h.isOpen x h1
    obtain ⟨e', he', k'⟩ := eval_near _ h2
    exact ⟨min e e', lt_min he he', fun y hy => ⟨k y (near_mono (min_le_left _ _) hy), k' y (near_mono (min_le_right _ _) hy)⟩⟩

/-- The triangle seen from behind. -/
def behind (t : Tri P3) : Tri P3 := ⟨t.a, t.c, t.b⟩

theorem eval_behind (t : Tri P3) (x : P3) : (plane (behind t)).eval x = -(plane t).eval x := by
  simp only [plane, behind, Aff.eval, FaceFace.normal, dot, cross, sub]; ring

theorem proper_behind {t : Tri P3} (h : Proper t) : Proper (behind t) := by
  intro k
  apply h
  have k1 := congrArg (fun q : P3 => q.x) k; have k2 := congrArg (fun q : P3 => q.y) k; have k3 := congrArg (fun q : P3 => q.z) k
  simp only [outward, behind] at k1 k2 k3
  apply p3_ext <;> simp only [outward] <;> linarith

/-- Cells are not empty sets of volume zero. -/
theorem IsCell.positive {M : ℚ} {B : Set P3} (h : IsCell M B) {x : P3} (hx : x ∈ B) (o : P3) : 0 < setVolume Unit o B := by
  obtain ⟨r, X, hX, hd⟩ := h.poly
  rw [setVolume_eq hX hd]
  obtain ⟨ts, χ, hs, hsub, hag⟩ := hd
  have okX : ∀ t ∈ X, Ok t := fun t ht => ok_of_proper (hX t ht)
  obtain ⟨e, he, hB⟩ := h.isOpen x hx
  obtain ⟨y, hy, -, hyX⟩ := off_near okX x he
  have hyB := hB y hy
  have hχ : χ y := (hag y hyX).2 hyB
  have hv := Crossing.convex_of hs.complex hs.once hs.bounds okX hsub h.convex hag
  refine C108_positive hs ?_ (x := y) (fun t ht => convex_strict hs.complex hs.once hs.bounds hv ht hχ fun k => hyX (hsub y k)) o
  rintro rfl
  obtain ⟨z, hz, -, hzX⟩ := off_near okX ⟨M + 2, 0, 0⟩ one_pos
  have hzB := (hag z hzX).1 ((hs.bounds.const y z fun w _ ⟨t, ht, _⟩ => by simp at ht).1 hχ)
  obtain ⟨-, k, -⟩ := h.box z hzB
  obtain ⟨k', -⟩ := hz
  simp only [sub_zero] at k k'
  linarith

/-- Parts of a solid in cells. -/
theorem cell_part {ts : List (Tri P3)} {χ : P3 → Prop} {r : Region P3 Unit} (hs : IsSolid r ts χ) (o : P3) {M : ℚ} (l : List (Tri P3)) (hl : ∀ t ∈ l, t ∈ ts) : ∀ B, IsCell M B → (∀ t ∈ ts, t ∈ l ∨ ∀ x ∈ B, (plane t).eval x ≠ 0) →
    0 ≤ setVolume Unit o ({x | χ x} ∩ B) ∧ ∀ x, χ x → x ∈ B → (∀ t ∈ l, (plane t).eval x ≠ 0) → 0 < setVolume Unit o ({x | χ x} ∩ B) := by
  have hA : Polyhedral Unit {x | χ x} := ⟨r, ts, hs.complex.proper, ts, χ, hs, fun _ h => h, fun _ _ => Iff.rfl⟩
  induction l with
  | nil =>
    intro B hB hn
    by_cases hne : ∃ x, χ x ∧ x ∈ B
    · obtain ⟨x, hx, hxB⟩ := hne
      have e : {x | χ x} ∩ B = B := by
        refine Set.inter_eq_right.2 fun y hy => (hs.bounds.const x y fun z hz ⟨t, ht, hin⟩ => ?_).1 hx
        refine ((hn t ht).resolve_left (by simp)) z (hB.convex x y z hxB hy hz) ?_
        exact Side.plane_in hin
      rw [e]
      have := hB.positive hxB o
      exact ⟨this.le, fun _ _ _ _ => this⟩
    · have e : {x | χ x} ∩ B = ∅ := Set.eq_empty_iff_forall_notMem.2 fun x hx => hne ⟨x, hx.1, hx.2⟩
      rw [e, polyhedral_empty.2]
      exact ⟨le_rfl, fun x h1 h2 => absurd ⟨x, h1, h2⟩ hne⟩
  | cons t l ih =>
    intro B hB hn
    have ht := hs.complex.proper t (hl t (List.mem_cons_self ..))
    have hf := hB.front ht
    have hb := hB.front (proper_behind ht)
    simp only [eval_behind, neg_pos] at hb
    have part : ∀ B' : Set P3, (∀ x ∈ B', x ∈ B ∧ (plane t).eval x ≠ 0) → ∀ u ∈ ts, u ∈ l ∨ ∀ x ∈ B', (plane u).eval x ≠ 0 := by
      intro B' h' u hu
      rcases hn u hu with h | h
      · rcases List.mem_cons.1 h with rfl | h
        · exact .inr fun x hx => (h' x hx).2
        · exact .inl h
      · exact .inr fun x hx => h x (h' x hx).1
    obtain ⟨f1, f2⟩ := ih (fun u hu => hl u (List.mem_cons_of_mem _ hu)) _ hf (part _ fun x hx => ⟨hx.1, hx.2.ne'⟩)
    obtain ⟨b1, b2⟩ := ih (fun u hu => hl u (List.mem_cons_of_mem _ hu)) _ hb (part _ fun x hx => ⟨hx.1, hx.2.ne⟩)
    have e : setVolume Unit o ({x | χ x} ∩ B) = setVolume Unit o ({x | χ x} ∩ {x | x ∈ B ∧ 0 < (plane t).eval x}) + setVolume Unit o ({x | χ x} ∩ {x | x ∈ B ∧ (plane t).eval x < 0}) := by
      obtain ⟨p, q, r', s, hd, hw⟩ := halfspace ht M
      rw [setVolume_split (polyhedral_inter hA hB.poly) (within_polyhedral hd)]
      congr 1
      · congr 1
        ext x
        constructor
        · exact fun ⟨⟨h1, h2⟩, h3⟩ => ⟨h1, h2, ((hw x (hB.box x h2)).1).2 h3⟩
        · exact fun ⟨h1, h2, h3⟩ => ⟨⟨h1, h2⟩, ((hw x (hB.box x h2)).1).1 h3⟩
      · refine setVolume_congr (polyhedral_diff (polyhedral_inter hA hB.poly) (within_polyhedral hd)) (polyhedral_inter hA hb.poly) (tetra_proper hd.ne') (fun x hx => ?_) o
        constructor
        · rintro ⟨⟨h1, h2⟩, h3⟩
          refine ⟨h1, h2, ?_⟩
          obtain ⟨k1, k2⟩ := hw x (hB.box x h2)
          rcases lt_trichotomy ((plane t).eval x) 0 with h | h | h
          · exact h
          · exact absurd (k2 h) hx
          · exact absurd (k1.1 h) h3
        · rintro ⟨h1, h2, h3⟩
          exact ⟨⟨h1, h2⟩, fun k => absurd (((hw x (hB.box x h2)).1).2 k) (not_lt.2 h3.le)⟩
    rw [e]
    refine ⟨add_nonneg f1 b1, fun x h1 h2 h3 => ?_⟩
    have h4 := fun u hu => h3 u (List.mem_cons_of_mem _ hu)
    rcases lt_or_gt_of_ne (h3 t (List.mem_cons_self ..)) with h | h
    · have := b2 x h1 ⟨h2, h⟩ h4; linarith
    · have := f2 x h1 ⟨h2, h⟩ h4; linarith

/-- Tetrahedra are bounded. -/
theorem tetra_box {p q r s : P3} (hd : 0 < det4 p q r s) : ∃ M, ∀ x, Within (Space.tetra p q r s) x → InBox M x := by
  have bd : ∀ a b c d : ℚ, |a| < |a| + |b| + |c| + |d| + 1 ∧ |b| < |a| + |b| + |c| + |d| + 1 ∧ |c| < |a| + |b| + |c| + |d| + 1 ∧ |d| < |a| + |b| + |c| + |d| + 1 := by
    intro a b c d
    have := abs_nonneg a; have := abs_nonneg b; have := abs_nonneg c; have := abs_nonneg d
    refine ⟨by linarith, by linarith, by linarith, by linarith⟩
  have each : ∀ n : P3, ∃ C, ∀ x, Within (Space.tetra p q r s) x → -C < dot n x ∧ dot n x < C := by
    intro n
    refine ⟨|dot n p| + |dot n q| + |dot n r| + |dot n s| + 1, fun x hx => ?_⟩
    obtain ⟨k1, k2, k3, k4⟩ := bd (dot n p) (dot n q) (dot n r) (dot n s)
    rw [abs_lt] at k1 k2 k3 k4
    generalize |dot n p| + |dot n q| + |dot n r| + |dot n s| + 1 = C at *
    have h1 := tetra_positive hd (f := ⟨n, C⟩) (by simp only [Aff.eval]; linarith) (by simp only [Aff.eval]; linarith) (by simp only [Aff.eval]; linarith) (by simp only [Aff.eval]; linarith) fun u hu => (hx u hu).le
    have e : ∀ y, (Aff.neg ⟨n, -C⟩).eval y = C - dot n y := fun y => by rw [Side.eval_neg]; simp only [Aff.eval]; ring
    have h2 := tetra_positive hd (f := Aff.neg ⟨n, -C⟩) (by rw [e]; linarith) (by rw [e]; linarith) (by rw [e]; linarith) (by rw [e]; linarith) fun u hu => (hx u hu).le
    rw [e] at h2
    simp only [Aff.eval] at h1
    exact ⟨by linarith, by linarith⟩
  obtain ⟨C1, k1⟩ := each ⟨1, 0, 0⟩
  obtain ⟨C2, k2⟩ := each ⟨0, 1, 0⟩
  obtain ⟨C3, k3⟩ := each ⟨0, 0, 1⟩
  simp only [dot, one_mul, zero_mul, add_zero, zero_add] at k1 k2 k3
  refine ⟨max C1 (max C2 C3), fun x hx => ?_⟩
  have m1 := le_max_left C1 (max C2 C3)
  have m2 := (le_max_left C2 C3).trans (le_max_right C1 (max C2 C3))
  have m3 := (le_max_right C2 C3).trans (le_max_right C1 (max C2 C3))
  obtain ⟨a1, a2⟩ := k1 x hx; obtain ⟨a3, a4⟩ := k2 x hx; obtain ⟨a5, a6⟩ := k3 x hx
  simp only [InBox, Near, sub_zero]
  refine ⟨by linarith, by linarith, by linarith, by linarith, by linarith, by linarith⟩

/-- A cell that contains a cube. -/
theorem cell_exists (M : ℚ) : ∃ M' B, IsCell M' B ∧ ∀ x, InBox M x → x ∈ B := by
  have ht : Proper ⟨⟨0, 0, -(|M| + 1)⟩, ⟨1, 0, -(|M| + 1)⟩, ⟨0, 1, -(|M| + 1)⟩⟩ := by
    intro h
    have := congrArg (fun q : P3 => q.z) h
    simp [outward] at this
  obtain ⟨p, q, r, s, hd, hw⟩ := halfspace ht M
  obtain ⟨M', hM'⟩ := tetra_box hd
  refine ⟨M', {x | Within (Space.tetra p q r s) x}, ⟨within_polyhedral hd, ?_, ?_, ?_⟩, ?_⟩
  · intro x y z hx hy hz t ht
    have := eval_pos_seg (plane t).neg (by rw [Side.eval_neg]; have := hx t ht; linarith) (by rw [Side.eval_neg]; have := hy t ht; linarith) hz
    rw [Side.eval_neg] at this
    linarith
  · intro x hx
    obtain ⟨e, he, k⟩ := ball (fun t ht => ok_of_proper (tetra_proper hd.ne' t ht)) (p := x) (fun ⟨t, ht, hin⟩ => (hx t ht).ne (Side.plane_in hin))
    exact ⟨e, he, fun y hy => ((tetra_bound hd).const x y (k x y (near_refl he.le x) hy)).1 hx⟩
  · exact hM'
  · intro x hx
    refine ((hw x hx).1).1 ?_
    obtain ⟨-, -, -, -, h5, -⟩ := hx
    have := neg_le_neg (le_abs_self M)
    simp only [plane, Aff.eval, FaceFace.normal, dot, cross, sub, sub_zero] at *
    linarith

theorem volume_unit {r : Region P3 D} {ts : List (Tri P3)} {χ : P3 → Prop} (h : IsSolid r ts χ) : ∃ r' : Region P3 Unit, IsSolid r' ts χ ∧ ∀ o, volume o r' = volume o r := by
  refine ⟨⟨r.kind, ⟨r.boundary.points, r.boundary.faces, List.replicate r.boundary.faces.length ()⟩⟩, ⟨?_, ⟨?_, h.wf.2⟩, h.corners, h.complex, h.once, h.bounds, h.kind⟩, fun o => rfl⟩
  · have := h.inv
    unfold RegionInv at *
    cases hk : r.kind <;> rw [hk] at this
    · simp [this, Soup.empty]
    · simp [this, Soup.empty]
    · exact this
  · simp

/-- **Volumes of bounded sets are not negative, and are positive unless the set is empty.** -/
theorem solid_positive {r : Region P3 D} {ts : List (Tri P3)} {χ : P3 → Prop} (h : IsSolid r ts χ) {M : ℚ} (hM : ∀ x, χ x → InBox M x) (o : P3) : 0 ≤ volume o r ∧ ∀ x, χ x → 0 < volume o r := by
  obtain ⟨r', h', hv⟩ := volume_unit h
  obtain ⟨M', B, hB, hin⟩ := cell_exists M
  have hA : Denotes r' (fun x => x ∈ {x | χ x}) (Surface ts) := ⟨ts, χ, h', fun _ h => h, fun _ _ => Iff.rfl⟩
  have e : {x | χ x} ∩ B = {x | χ x} := Set.inter_eq_left.2 fun x hx => hin x (hM x hx)
  obtain ⟨h1, h2⟩ := cell_part h' o ts (fun t ht => ht) B hB fun t ht => .inl ht
  rw [e, setVolume_eq h.complex.proper hA, hv] at h1 h2
  refine ⟨h1, fun x hx => ?_⟩
  have okt : ∀ t ∈ ts, Ok t := fun t ht => ok_of_proper (h.complex.proper t ht)
  obtain ⟨y, -, hy, hyt⟩ := Crossing.dense h.complex h.once h.bounds okt (.inl hx) one_pos
  obtain ⟨e', he', k⟩ := ball okt hyt
  obtain ⟨z, hz, hzn, -⟩ := off_near okt y he'
  have hχ := (h.bounds.const y z (k y z (near_refl he'.le y) hz)).1 hy
  exact h2 z hχ (hin z (hM z hχ)) hzn

end Kigumi.Props

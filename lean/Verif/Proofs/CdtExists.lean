import Verif.Proofs.PlaneMesh
import Verif.Proofs.Surface
import Verif.Proofs.Around
import Verif.Proofs.Ties
import Verif.Spec.Segments
import Verif.Model.Corefinement

/-!
# Constrained Delaunay triangulations of a triangle in space exist
-/
namespace Kigumi.Cdt3
open Kigumi Spec.Triangles Spec.Side Plane
open Kigumi.Spec (P3 HasCorners)
open Kigumi.Space (in_match inner_match match_symm match_refl match_mem)
open Kigumi.Side (Ok ok_of_proper)
open Kigumi.FaceFace (p3_ext)
open Kigumi.Cutting (opposed_swap')

/-- The point with given coordinates in the plane of a triangle. -/
def phi (t : Tri P3) (u : P2) : P3 := combo (1 - u.x - u.y) u.x u.y t.a t.b t.c

def A0 : P2 := ⟨0, 0⟩
def B0 : P2 := ⟨1, 0⟩
def C0 : P2 := ⟨0, 1⟩

variable {t : Tri P3}

theorem phi_A : phi t A0 = t.a := by apply p3_ext <;> simp [phi, combo, A0]
theorem phi_B : phi t B0 = t.b := by apply p3_ext <;> simp [phi, combo, B0]
theorem phi_C : phi t C0 = t.c := by apply p3_ext <;> simp [phi, combo, C0]

theorem phi_inj (ht : Proper t) {u v : P2} (h : phi t u = phi t v) : u = v := by
  obtain ⟨-, h2, h3⟩ := Space.weights_unique (a := t.a) (b := t.b) (c := t.c) (ok_of_proper ht) (by ring) (by ring) h
  exact P2.ext h2 h3

theorem phi_at (a b : P2) (s : ℚ) : phi t (at' a b s) = ⟨(1 - s) * (phi t a).x + s * (phi t b).x, (1 - s) * (phi t a).y + s * (phi t b).y, (1 - s) * (phi t a).z + s * (phi t b).z⟩ := by
  apply p3_ext <;> simp only [phi, combo, at'] <;> ring

theorem onSegment_iff {a b : P2} {x : P3} : OnSegment (phi t a) (phi t b) x ↔ ∃ u, x = phi t u ∧ Seg a b u := by
  constructor
  · rintro ⟨r, s, h, r0, s0, rfl⟩
    have : r = 1 - s := by linarith
    subst this
    exact ⟨at' a b s, (phi_at a b s).symm, s, s0, by linarith, rfl⟩
  · rintro ⟨u, rfl, s, s0, s1, rfl⟩
    exact ⟨1 - s, s, by ring, by linarith, s0, phi_at a b s⟩

theorem seg_iff (ht : Proper t) {a b u : P2} : OnSegment (phi t a) (phi t b) (phi t u) ↔ Seg a b u := by
  rw [onSegment_iff]
  exact ⟨fun ⟨v, e, h⟩ => phi_inj ht e ▸ h, fun h => ⟨u, rfl, h⟩⟩

/-- The triangle between points with given coordinates. -/
def T (t : Tri P3) (a b c : P2) : Tri P3 := ⟨phi t a, phi t b, phi t c⟩

theorem phi_combo (a b c : P2) {r s q : ℚ} (h : r + s + q = 1) : combo r s q (phi t a) (phi t b) (phi t c) = phi t ⟨r * a.x + s * b.x + q * c.x, r * a.y + s * b.y + q * c.y⟩ := by
  have : r = 1 - s - q := by linarith
  subst this
  apply p3_ext <;> simp only [phi, combo] <;> ring

theorem D_combo (a b c : P2) {r s q : ℚ} (h : r + s + q = 1) : D a b ⟨r * a.x + s * b.x + q * c.x, r * a.y + s * b.y + q * c.y⟩ = q * D a b c ∧
    D b c ⟨r * a.x + s * b.x + q * c.x, r * a.y + s * b.y + q * c.y⟩ = r * D a b c ∧ D c a ⟨r * a.x + s * b.x + q * c.x, r * a.y + s * b.y + q * c.y⟩ = s * D a b c := by
  have : r = 1 - s - q := by linarith
  subst this
  refine ⟨?_, ?_, ?_⟩ <;> simp only [D] <;> ring

theorem phi_bary {a b c : P2} (h : 0 < D a b c) (u : P2) : D b c u / D a b c + D c a u / D a b c + D a b u / D a b c = 1 ∧
    phi t u = combo (D b c u / D a b c) (D c a u / D a b c) (D a b u / D a b c) (phi t a) (phi t b) (phi t c) := by
  have hn := h.ne'
  have one : D b c u / D a b c + D c a u / D a b c + D a b u / D a b c = 1 := by field_simp; simp only [D]; ring
  refine ⟨one, ?_⟩
  rw [phi_combo a b c one]
  congr 1
  ext
  · field_simp; simp only [D]; ring
  · field_simp; simp only [D]; ring

theorem in_iff {a b c : P2} (h : 0 < D a b c) {x : P3} : In (T t a b c) x ↔ ∃ u, x = phi t u ∧ Cl a b c u := by
  constructor
  · rintro ⟨r, s, q, one, rfl, r0, s0, q0⟩
    obtain ⟨h1, h2, h3⟩ := D_combo a b c one
    exact ⟨_, phi_combo a b c one, by rw [h1]; positivity, by rw [h2]; positivity, by rw [h3]; positivity⟩
  · rintro ⟨u, rfl, hu⟩
    obtain ⟨one, e⟩ := phi_bary (t := t) h u
    exact ⟨_, _, _, one, e, div_nonneg hu.bc h.le, div_nonneg hu.ca h.le, div_nonneg hu.ab h.le⟩

theorem inner_iff {a b c : P2} (h : 0 < D a b c) {x : P3} (hx : Inner (T t a b c) x) : ∃ u, x = phi t u ∧ Inn a b c u := by
  obtain ⟨r, s, q, one, rfl, r0, s0, q0⟩ := hx
  simp only [Weight, if_true] at r0 s0 q0
  obtain ⟨h1, h2, h3⟩ := D_combo a b c one
  exact ⟨_, phi_combo a b c one, by rw [h1]; positivity, by rw [h2]; positivity, by rw [h3]; positivity⟩

theorem cl0 {u : P2} : Cl A0 B0 C0 u ↔ 0 ≤ u.x ∧ 0 ≤ u.y ∧ u.x + u.y ≤ 1 := by
  have e1 : D A0 B0 u = u.y := by simp [D, A0, B0]
  have e2 : D B0 C0 u = 1 - u.x - u.y := by simp only [D, B0, C0]; ring
  have e3 : D C0 A0 u = u.x := by simp only [D, A0, C0]; ring
  constructor
  · intro h
    have h1 := h.ab; have h2 := h.bc; have h3 := h.ca
    rw [e1] at h1; rw [e2] at h2; rw [e3] at h3
    exact ⟨h3, h1, by linarith⟩
  · rintro ⟨h1, h2, h3⟩
    exact ⟨by rw [e1]; exact h2, by rw [e2]; linarith, by rw [e3]; exact h1⟩

theorem D0 : D A0 B0 C0 = 1 := by simp [D, A0, B0, C0]

theorem in0 {x : P3} : In t x ↔ ∃ u, x = phi t u ∧ Cl A0 B0 C0 u := by
  have := in_iff (t := t) (a := A0) (b := B0) (c := C0) (by rw [D0]; exact one_pos) (x := x)
  rwa [show T t A0 B0 C0 = t by simp only [T, phi_A, phi_B, phi_C]] at this

theorem outward_T (a b c : P2) : outward (T t a b c) = ⟨D a b c * (outward t).x, D a b c * (outward t).y, D a b c * (outward t).z⟩ := by
  apply p3_ext <;> simp only [outward, T, phi, combo, D] <;> ring

/-- The square of the distance to the origin, in coordinates. -/
def form (t : Tri P3) : Form where
  p := (t.b.x - t.a.x) ^ 2 + (t.b.y - t.a.y) ^ 2 + (t.b.z - t.a.z) ^ 2
  q := (t.b.x - t.a.x) * (t.c.x - t.a.x) + (t.b.y - t.a.y) * (t.c.y - t.a.y) + (t.b.z - t.a.z) * (t.c.z - t.a.z)
  r := (t.c.x - t.a.x) ^ 2 + (t.c.y - t.a.y) ^ 2 + (t.c.z - t.a.z) ^ 2
  l := 2 * (t.a.x * (t.b.x - t.a.x) + t.a.y * (t.b.y - t.a.y) + t.a.z * (t.b.z - t.a.z))
  m := 2 * (t.a.x * (t.c.x - t.a.x) + t.a.y * (t.c.y - t.a.y) + t.a.z * (t.c.z - t.a.z))
  n := t.a.x ^ 2 + t.a.y ^ 2 + t.a.z ^ 2

theorem form_pos (ht : Proper t) : (form t).Pos := by
  have lag : (form t).p * (form t).r - (form t).q ^ 2 = (outward t).x ^ 2 + (outward t).y ^ 2 + (outward t).z ^ 2 := by simp only [form, outward]; ring
  have hpos : 0 < (outward t).x ^ 2 + (outward t).y ^ 2 + (outward t).z ^ 2 := by
    have h1 := sq_nonneg (outward t).x; have h2 := sq_nonneg (outward t).y; have h3 := sq_nonneg (outward t).z
    refine lt_of_le_of_ne (by positivity) fun h => ht ?_
    have k1 := pow_eq_zero_iff two_ne_zero |>.1 (le_antisymm (by linarith) h1)
    have k2 := pow_eq_zero_iff two_ne_zero |>.1 (le_antisymm (by linarith) h2)
    have k3 := pow_eq_zero_iff two_ne_zero |>.1 (le_antisymm (by linarith) h3)
    exact p3_ext k1 k2 k3
  have p0 : 0 ≤ (form t).p := by simp only [form]; positivity
  refine ⟨lt_of_le_of_ne p0 fun h => ?_, by linarith⟩
  rw [← h, zero_mul] at lag
  have := sq_nonneg (form t).q
  linarith

/-- Distances to any point give the same heights. -/
theorem E_dist (o : P3) (a b c d : P2) : E (fun u => dist2 o (phi t u)) a b c d = E (form t).ev a b c d := by
  simp only [E, D, Form.ev, form, dist2, phi, combo]; ring

/-! ## Representatives -/

theorem representatives {α : Type} (R : α → α → Prop) (hr : ∀ x, R x x) (l : List α) : ∃ l' : List α, (∀ x ∈ l', x ∈ l) ∧ l'.Pairwise (fun x y => ¬ R x y) ∧ ∀ x ∈ l, ∃ y ∈ l', R x y := by
  classical
  induction l with
  | nil => exact ⟨[], by simp⟩
  | cons x xs ih =>
    obtain ⟨l', h1, h2, h3⟩ := ih
    by_cases h : ∃ y ∈ l', R x y
    · refine ⟨l', fun y hy => List.mem_cons_of_mem _ (h1 y hy), h2, fun y hy => ?_⟩
      rcases List.mem_cons.1 hy with rfl | hy
      exacts [h, h3 y hy]
    · refine ⟨x :: l', fun y hy => ?_, List.pairwise_cons.2 ⟨fun y hy k => h ⟨y, hy, k⟩, h2⟩, fun y hy => ?_⟩
      · rcases List.mem_cons.1 hy with rfl | hy
        exacts [List.mem_cons_self, List.mem_cons_of_mem _ (h1 y hy)]
      · rcases List.mem_cons.1 hy with rfl | hy
        · exact ⟨y, List.mem_cons_self, hr y⟩
        · obtain ⟨z, hz, hz'⟩ := h3 y hy
          exact ⟨z, List.mem_cons_of_mem _ hz, hz'⟩

theorem once_of_pairwise {l : List (Tri P3)} (h : l.Pairwise fun x y => ¬ Match x y) : Once l := by
  intro i j t u hi hj hm
  rcases lt_trichotomy i j with k | k | k
  · obtain ⟨hi', rfl⟩ := List.getElem?_eq_some_iff.1 hi
    obtain ⟨hj', rfl⟩ := List.getElem?_eq_some_iff.1 hj
    exact absurd hm (List.pairwise_iff_getElem.1 h i j hi' hj' k)
  · exact k
  · obtain ⟨hi', rfl⟩ := List.getElem?_eq_some_iff.1 hi
    obtain ⟨hj', rfl⟩ := List.getElem?_eq_some_iff.1 hj
    exact absurd (match_symm hm) (List.pairwise_iff_getElem.1 h j i hj' hi' k)

/-! ## Existence -/

/-- Where the greatest of four points on a circle is separated from another by the rest, segments meet. -/
theorem opposed_of (ht : Proper t) {a b c w : P2} (h : 0 < D a b c) (hw : D w b c ≤ 0) (hE : E (form t).ev a b c w = 0) : Opposed (phi t a) (phi t w) (phi t b) (phi t c) := by
  have hbc : b ≠ c := by rintro rfl; exact h.ne' (D_same2 _ _)
  have hn : 0 < D a b c - D w b c := by linarith
  have s0 : 0 ≤ D a b c / (D a b c - D w b c) := div_nonneg h.le hn.le
  have s1 : D a b c / (D a b c - D w b c) ≤ 1 := (div_le_one hn).2 (by linarith)
  generalize hs : D a b c / (D a b c - D w b c) = s at s0 s1
  have hx : D b c (at' a w s) = 0 := by
    rw [← D_cyc, D_at1, ← hs]; field_simp; ring
  obtain ⟨r, hr⟩ := line_at hbc hx
  have low : E (form t).ev a b c (at' a w s) ≤ 0 := by
    have := E_conv (form_pos ht) (y := a) (z := w) (p := a) (t := 0) h.le (sub_nonneg.2 s1) s0 le_rfl (by ring)
    rw [E_a, hE] at this
    rw [show at' a w s = ⟨(1 - s) * a.x + s * w.x + 0 * a.x, (1 - s) * a.y + s * w.y + 0 * a.y⟩ by ext <;> simp only [at'] <;> ring]
    linarith
  rw [hr, show E (form t).ev a b c (at' b c r) = -(D a b c * (form t).sq b c) * (r * (1 - r)) by simp only [E, D, Form.ev, Form.sq, at']; ring] at low
  have hq := mul_pos h (sq_pos' (form_pos ht) hbc)
  have hrr : 0 ≤ r * (1 - r) := by
    by_contra hneg
    nlinarith [mul_pos hq (neg_pos.2 (not_le.1 hneg))]
  have r0 : 0 ≤ r := by by_contra hneg; nlinarith
  have r1 : r ≤ 1 := by by_contra hneg; nlinarith
  exact ⟨phi t (at' a w s), (seg_iff ht).2 ⟨s, s0, s1, rfl⟩, (seg_iff ht).2 ⟨r, r0, r1, hr⟩⟩

theorem cdt_exists_by (ht : Proper t) {lt : P3 → P3 → Prop} (O : Order fun u v => lt (phi t u) (phi t v)) {V : P3 → Prop} {S : P3 → P3 → Prop} (L : List P3) (hL : ∀ x, V x ↔ x ∈ L) (hin : ∀ x, V x → In t x)
    (hS : ∀ c d, S c d → (V c ∨ c ∈ t.toList) ∧ (V d ∨ d ∈ t.toList) ∧ c ≠ d) (hap : ∀ c d c' d', S c d → S c' d' → ¬ Cross c d c' d') : ∃ ps, Triangulates t V S ps ∧ TiesBy lt t V S ps := by
  classical
  -- vertices and constraints in coordinates
  have hall : ∀ x, V x ∨ x ∈ t.toList → ∃ u, x = phi t u ∧ Cl A0 B0 C0 u := by
    rintro x (h | h)
    · exact in0.1 (hin x h)
    · simp only [Tri.toList, List.mem_cons, List.not_mem_nil, or_false] at h
      rcases h with rfl | rfl | rfl
      · exact ⟨A0, phi_A.symm, cl0.2 (by simp [A0])⟩
      · exact ⟨B0, phi_B.symm, cl0.2 (by simp [B0])⟩
      · exact ⟨C0, phi_C.symm, cl0.2 (by simp [C0])⟩
  let psi : P3 → P2 := fun x => if h : ∃ u, x = phi t u ∧ Cl A0 B0 C0 u then h.choose else A0
  have psi_spec : ∀ x, V x ∨ x ∈ t.toList → x = phi t (psi x) ∧ Cl A0 B0 C0 (psi x) := by
    intro x hx
    simp only [psi, dif_pos (hall x hx)]
    exact (hall x hx).choose_spec
  obtain ⟨W, hW⟩ : ∃ W : Finset P2, ∀ u, u ∈ W ↔ V (phi t u) ∨ phi t u ∈ t.toList := by
    refine ⟨((t.toList ++ L).map psi).toFinset, fun u => ?_⟩
    rw [List.mem_toFinset, List.mem_map]
    constructor
    · rintro ⟨x, hx, rfl⟩
      have hx' : V x ∨ x ∈ t.toList := by
        rcases List.mem_append.1 hx with h | h
        exacts [.inr h, .inl ((hL x).2 h)]
      rw [← (psi_spec x hx').1]
      exact hx'
    · intro h
      refine ⟨phi t u, ?_, phi_inj ht (psi_spec _ h).1.symm⟩
      rcases h with h | h
      exacts [List.mem_append_right _ ((hL _).1 h), List.mem_append_left _ h]
  have hcl : ∀ u ∈ W, Cl A0 B0 C0 u := by
    intro u hu
    obtain ⟨v, e, hv⟩ := hall _ ((hW u).1 hu)
    rwa [phi_inj ht e]
  have hR : Raw W (fun c d => S (phi t c) (phi t d)) := by
    constructor
    · intro c d h
      obtain ⟨h1, h2, h3⟩ := hS _ _ h
      exact ⟨(hW c).2 h1, (hW d).2 h2, fun e => h3 (by rw [e])⟩
    · intro c d c' d' x h h' hx hx' hV
      have ne : ∀ v ∈ W, phi t x ≠ phi t v := fun v hv e => hV (phi_inj ht e ▸ hv)
      have mem : ∀ {c d}, S (phi t c) (phi t d) → c ∈ W ∧ d ∈ W := fun {c d} h => ⟨(hW c).2 (hS _ _ h).1, (hW d).2 (hS _ _ h).2.1⟩
      have key := hap _ _ _ _ h h'
      rw [Cross, not_and, not_not] at key
      obtain ⟨⟨s, q, e1, k1⟩, ⟨s', q', e2, k2⟩⟩ := key ⟨phi t x, ⟨(seg_iff ht).2 hx, ne _ (mem h).1, ne _ (mem h).2⟩, ⟨(seg_iff ht).2 hx', ne _ (mem h').1, ne _ (mem h').2⟩⟩
      have lin : ∀ {v : P2} {s q : ℚ}, s + q = 1 → phi t v = ⟨s * (phi t c).x + q * (phi t d).x, s * (phi t c).y + q * (phi t d).y, s * (phi t c).z + q * (phi t d).z⟩ → D c d v = 0 := by
        intro v s q e k
        have : s = 1 - q := by linarith
        subst this
        rw [← phi_at] at k
        rw [phi_inj ht k, D_at, D_same3, D_same2]; ring
      exact ⟨lin e1 k1, lin e2 k2⟩
  have hA : A0 ∈ W := (hW _).2 (.inr (by rw [phi_A]; simp [Tri.toList]))
  have hB : B0 ∈ W := (hW _).2 (.inr (by rw [phi_B]; simp [Tri.toList]))
  have hC : C0 ∈ W := (hW _).2 (.inr (by rw [phi_C]; simp [Tri.toList]))
  obtain ⟨G, M⟩ := mesh_exists O hR (form_pos ht) hA hB hC (by rw [D0]; exact one_pos) hcl
  -- one triangle of each kind
  obtain ⟨all, hall'⟩ : ∃ all : List (Tri P3), ∀ p, p ∈ all ↔ ∃ a b c, G a b c ∧ p = T t a b c := by
    refine ⟨(((W ×ˢ (W ×ˢ W)).filter fun e => G e.1 e.2.1 e.2.2).toList).map fun e => T t e.1 e.2.1 e.2.2, fun p => ?_⟩
    simp only [List.mem_map, Finset.mem_toList, Finset.mem_filter, Finset.mem_product, Prod.exists]
    constructor
    · rintro ⟨a, b, c, ⟨-, h⟩, rfl⟩
      exact ⟨a, b, c, h, rfl⟩
    · rintro ⟨a, b, c, h, rfl⟩
      exact ⟨a, b, c, ⟨M.mem h, h⟩, rfl⟩
  obtain ⟨ps, sub, pair, repr⟩ := representatives Match match_refl all
  have of : ∀ p ∈ ps, ∃ a b c, G a b c ∧ p = T t a b c := fun p hp => (hall' p).1 (sub p hp)
  have toPs : ∀ {a b c}, G a b c → ∃ p ∈ ps, Match (T t a b c) p := fun h => repr _ ((hall' _).2 ⟨_, _, _, h, rfl⟩)
  have memT : ∀ {a b c : P2} {v : P3}, v ∈ (T t a b c).toList ↔ v = phi t a ∨ v = phi t b ∨ v = phi t c := by
    intro a b c v; simp [T, Tri.toList]
  refine ⟨ps, ⟨⟨?_, ?_⟩, once_of_pairwise pair, ?_, ?_, ?_, ?_, ?_, ?_, ?_⟩, ?_⟩
  · intro p hp h0
    obtain ⟨a, b, c, h, rfl⟩ := of p hp
    rw [outward_T] at h0
    have hD := (M.pos h).ne'
    have k1 := (mul_eq_zero.1 (congrArg Spec.P3.x h0)).resolve_left hD
    have k2 := (mul_eq_zero.1 (congrArg Spec.P3.y h0)).resolve_left hD
    have k3 := (mul_eq_zero.1 (congrArg Spec.P3.z h0)).resolve_left hD
    exact ht (p3_ext k1 k2 k3)
  · intro p hp p' hp' x hx hx'
    obtain ⟨a, b, c, h, rfl⟩ := of p hp
    obtain ⟨d, e, f, h', rfl⟩ := of p' hp'
    obtain ⟨u, rfl, hu⟩ := (in_iff (M.pos h)).1 hx
    obtain ⟨u', eu, hu'⟩ := (in_iff (M.pos h')).1 hx'
    rw [← phi_inj ht eu] at hu'
    obtain ⟨one, ec⟩ := phi_bary (t := t) (M.pos h) u
    have hD := M.pos h
    have pos : ∀ {w : ℚ}, 0 ≤ w → w / D a b c ≠ 0 → 0 < w := fun h0 h1 => lt_of_le_of_ne h0 (by rintro rfl; exact h1 (zero_div _))
    have ph : ∀ {v : P2}, v = d ∨ v = e ∨ v = f → phi t v ∈ (T t d e f).toList := by
      rintro v (rfl | rfl | rfl) <;> simp [T, Tri.toList]
    exact ⟨_, _, _, one, ec, div_nonneg hu.bc hD.le, div_nonneg hu.ca hD.le, div_nonneg hu.ab hD.le, fun k => ph (M.meet h h' hu hu' (pos hu.bc k)),
      fun k => ph (M.meet (M.cyc h) h' hu.cyc hu' (pos hu.ca k)), fun k => ph (M.meet (M.cyc (M.cyc h)) h' hu.cyc.cyc hu' (pos hu.ab k))⟩
  · intro p hp x hx
    obtain ⟨a, b, c, h, rfl⟩ := of p hp
    obtain ⟨ha, hb, hc⟩ := M.mem h
    obtain ⟨r, s, q, one, rfl, r0, s0, q0⟩ := hx
    refine in0.2 ⟨_, phi_combo a b c one, ?_⟩
    obtain ⟨a1, a2, a3⟩ := cl0.1 (hcl a ha)
    obtain ⟨b1, b2, b3⟩ := cl0.1 (hcl b hb)
    obtain ⟨c1, c2, c3⟩ := cl0.1 (hcl c hc)
    refine cl0.2 ⟨by positivity, by positivity, ?_⟩
    have k1 := mul_le_mul_of_nonneg_left a3 r0
    have k2 := mul_le_mul_of_nonneg_left b3 s0
    have k3 := mul_le_mul_of_nonneg_left c3 q0
    dsimp only
    linarith
  · intro x hx
    obtain ⟨u, rfl, hu⟩ := in0.1 hx
    obtain ⟨a, b, c, h, hc⟩ := M.cover hu
    obtain ⟨p, hp, hm⟩ := toPs h
    exact ⟨p, hp, in_match hm ((in_iff (M.pos h)).2 ⟨u, rfl, hc⟩)⟩
  · intro p hp
    obtain ⟨a, b, c, h, rfl⟩ := of p hp
    exact ⟨_, M.pos h, outward_T a b c⟩
  · intro p hp v hv
    obtain ⟨a, b, c, h, rfl⟩ := of p hp
    obtain ⟨ha, hb, hc⟩ := M.mem h
    rcases memT.1 hv with rfl | rfl | rfl
    exacts [(hW _).1 ha, (hW _).1 hb, (hW _).1 hc]
  · intro p hp v hv hx
    obtain ⟨a, b, c, h, rfl⟩ := of p hp
    obtain ⟨u, rfl, hu⟩ := (in_iff (M.pos h)).1 hx
    rcases M.vertex h ((hW u).2 hv) hu with rfl | rfl | rfl <;> simp [T, Tri.toList]
  · intro c d x hs hx
    obtain ⟨hc, hd, -⟩ := hS c d hs
    obtain ⟨c, rfl, -⟩ := hall c hc
    obtain ⟨d, rfl, -⟩ := hall d hd
    obtain ⟨u, rfl, hu⟩ := onSegment_iff.1 hx
    obtain ⟨a', b', c', h, v, w, hv, hw, k1, k2, k3⟩ := M.segment hs hu
    obtain ⟨p, hp, hm⟩ := toPs h
    have ph : ∀ {v : P2}, v = a' ∨ v = b' ∨ v = c' → phi t v ∈ p.toList := by
      intro v hv
      refine (match_mem hm _).1 (memT.2 ?_)
      rcases hv with rfl | rfl | rfl
      exacts [.inl rfl, .inr (.inl rfl), .inr (.inr rfl)]
    exact ⟨p, hp, _, ph hv, _, ph hw, (seg_iff ht).2 k1, (seg_iff ht).2 k2, (seg_iff ht).2 k3⟩
  · intro p hp v hv y hy hsee o e1 e2
    obtain ⟨a, b, c, h, rfl⟩ := of p hp
    obtain ⟨u, rfl, hu⟩ := inner_iff (M.pos h) hy
    obtain ⟨w, rfl, -⟩ := hall v hv
    have hv' : Vis (fun c d => S (phi t c) (phi t d)) u w := fun x hx hne c d hcd hs => hsee _ ((seg_iff ht).2 hx) (fun e => hne (phi_inj ht e)) _ _ hcd ((seg_iff ht).2 hs)
    have low := M.delaunay h hu ((hW w).2 hv) hv'
    rw [← E_dist o] at low
    simp only [T] at e1 e2 ⊢
    have hs := D_sum a b c w
    simp only [E] at low
    rw [← e2, ← e1] at low
    have : 0 ≤ D a b c * (dist2 o (phi t w) - dist2 o (phi t a)) := by
      have : D a b c * (dist2 o (phi t w) - dist2 o (phi t a)) = D a b c * dist2 o (phi t w) - (D w b c * dist2 o (phi t a) + D w c a * dist2 o (phi t a) + D w a b * dist2 o (phi t a)) := by
        rw [hs]; ring
      rw [this]; exact low
    have := nonneg_of_mul_nonneg_right this (M.pos h)
    linarith
  · intro p hp v hv _ y hy hsee ⟨o, e1, e2, e3⟩
    obtain ⟨a, b, c, h, rfl⟩ := of p hp
    obtain ⟨u, rfl, hu⟩ := inner_iff (M.pos h) hy
    obtain ⟨w, rfl, -⟩ := hall v hv
    have hv' : Vis (fun c d => S (phi t c) (phi t d)) u w := fun x hx hne c d hcd hs => hsee _ ((seg_iff ht).2 hx) (fun e => hne (phi_inj ht e)) _ _ hcd ((seg_iff ht).2 hs)
    simp only [T] at e1 e2 e3
    have h0 : E (form t).ev a b c w = 0 := by
      rw [← E_dist o]
      simp only [E]
      rw [e1, e2, e3]
      have := D_sum a b c w
      linear_combination (dist2 o (phi t w)) * this
    have key : ∀ {a b c}, G a b c → Inn a b c u → E (form t).ev a b c w = 0 → lt (phi t b) (phi t a) → lt (phi t c) (phi t a) → lt (phi t w) (phi t a) → Opposed (phi t a) (phi t w) (phi t b) (phi t c) :=
      fun h hu h0 l1 l2 l3 => opposed_of ht (M.pos h) (M.ties h hu ((hW w).2 hv) hv' h0 l1 l2 l3) h0
    have h1 : E (form t).ev b c a w = 0 := by rw [E_cyc, h0]
    have h2 : E (form t).ev c a b w = 0 := by rw [E_cyc, h1]
    intro a' b' c' hm l1 l2 l3
    rcases hm with hm | hm <;> simp only [Spec.SameTri, Tri.flip, Tri.rot, T, Tri.mk.injEq] at hm <;> rcases hm with ⟨rfl, rfl, rfl⟩ | ⟨rfl, rfl, rfl⟩ | ⟨rfl, rfl, rfl⟩
    all_goals first
      | exact key h hu h0 l1 l2 l3
      | exact key (M.cyc h) hu.cyc h1 l1 l2 l3
      | exact key (M.cyc (M.cyc h)) hu.cyc.cyc h2 l1 l2 l3
      | exact opposed_swap' (key h hu h0 l2 l1 l3)
      | exact opposed_swap' (key (M.cyc h) hu.cyc h1 l2 l1 l3)
      | exact opposed_swap' (key (M.cyc (M.cyc h)) hu.cyc.cyc h2 l2 l1 l3)

/-- The lexicographic order. -/
def lex (u v : P2) : Prop := u.x < v.x ∨ u.x = v.x ∧ u.y < v.y

theorem lex_order : Order lex where
  irrefl x h := by rcases h with h | h; exacts [lt_irrefl _ h, lt_irrefl _ h.2]
  trans x y z h h' := by
    rcases h with h | ⟨h, k⟩ <;> rcases h' with h' | ⟨h', k'⟩
    · exact .inl (h.trans h')
    · exact .inl (h' ▸ h)
    · exact .inl (h ▸ h')
    · exact .inr ⟨h.trans h', k.trans k'⟩
  total x y := by
    rcases lt_trichotomy x.x y.x with h | h | h
    · exact .inr (.inl (.inl h))
    · rcases lt_trichotomy x.y y.y with k | k | k
      · exact .inr (.inl (.inr ⟨h, k⟩))
      · exact .inl (P2.ext h k)
      · exact .inr (.inr (.inr ⟨h.symm, k⟩))
    · exact .inr (.inr (.inl h))

theorem cdt_exists (ht : Proper t) {V : P3 → Prop} {S : P3 → P3 → Prop} (L : List P3) (hL : ∀ x, V x ↔ x ∈ L) (hin : ∀ x, V x → In t x)
    (hS : ∀ c d, S c d → (V c ∨ c ∈ t.toList) ∧ (V d ∨ d ∈ t.toList) ∧ c ≠ d) (hap : ∀ c d c' d', S c d → S c' d' → ¬ Cross c d c' d') : ∃ ps, Triangulates t V S ps := by
  have back : ∀ u v, (∃ u' v', phi t u = phi t u' ∧ phi t v = phi t v' ∧ lex u' v') ↔ lex u v :=
    fun u v => ⟨fun ⟨u', v', e, e', h⟩ => by rwa [phi_inj ht e, phi_inj ht e'], fun h => ⟨u, v, rfl, rfl, h⟩⟩
  obtain ⟨ps, h, -⟩ := cdt_exists_by ht (lt := fun x y => ∃ u' v', x = phi t u' ∧ y = phi t v' ∧ lex u' v')
    (by
      have : (fun u v => ∃ u' v', phi t u = phi t u' ∧ phi t v = phi t v' ∧ lex u' v') = lex := by funext u v; exact propext (back u v)
      rw [this]; exact lex_order) L hL hin hS hap
  exact ⟨ps, h⟩

/-- The orders of points of a plane are orders of coordinates. -/
theorem orders_order (ht : Proper t) {ord : Tri P3 → P3 → P3 → Prop} (ho : Orders ord) : Order fun u v => ord t (phi t u) (phi t v) where
  irrefl x := ho.irrefl t _
  trans x y z := ho.trans t _ _ _
  total x y := by
    have lies : ∀ u, LiesIn t (phi t u) := fun u => by simp only [LiesIn, outward, phi, combo]; ring
    rcases ho.total t ht _ _ (lies x) (lies y) with h | h
    exacts [.inl (phi_inj ht h), .inr h]

end Kigumi.Cdt3

namespace Kigumi.Corefine
open Spec.Triangles Spec.Side
open Kigumi.Spec (P3 HasCorners)

/-- If triangulations exist, so do faces. -/
theorem faces_exist {pts : List P3} {c : Cdt} {t : Tri P3} {P : List (Tri P3) → Prop} (h : c.Expected pts t)
    (hex : ∀ (L : List P3), (∀ x, (∃ id ∈ c.known, pts[id]? = some x) ↔ x ∈ L) → (∀ x, (∃ id ∈ c.known, pts[id]? = some x) → In t x) →
      (∀ x y, c.Constraint pts x y → ((∃ id ∈ c.known, pts[id]? = some x) ∨ x ∈ t.toList) ∧ ((∃ id ∈ c.known, pts[id]? = some y) ∨ y ∈ t.toList) ∧ x ≠ y) →
      (∀ x y x' y', c.Constraint pts x y → c.Constraint pts x' y' → ¬ Cross x y x' y') → ∃ ps, Triangulates t (fun x => ∃ id ∈ c.known, pts[id]? = some x) (c.Constraint pts) ps ∧ P ps) :
    ∃ gs, (∀ g ∈ gs, ∀ v ∈ g.toList, v ∈ c.vertexIds) ∧ ∃ ps, HasCorners pts gs ps ∧ Triangulates t (fun x => ∃ id ∈ c.known, pts[id]? = some x) (c.Constraint pts) ps ∧ P ps := by
  obtain ⟨a1, a2, a3⟩ := h.corners
  have idOf : ∀ x, (∃ id ∈ c.known, pts[id]? = some x) ∨ x ∈ t.toList → ∃ id ∈ c.vertexIds, pts[id]? = some x := by
    rintro x (⟨id, hid, e⟩ | hx)
    · exact ⟨id, by simp [Cdt.vertexIds, hid], e⟩
    · simp only [Tri.toList, List.mem_cons, List.not_mem_nil, or_false] at hx
      rcases hx with rfl | rfl | rfl
      · exact ⟨c.a, by simp [Cdt.vertexIds], a1⟩
      · exact ⟨c.b, by simp [Cdt.vertexIds], a2⟩
      · exact ⟨c.c, by simp [Cdt.vertexIds], a3⟩
  have ofId : ∀ id ∈ c.vertexIds, ∀ x, pts[id]? = some x → (∃ id ∈ c.known, pts[id]? = some x) ∨ x ∈ t.toList := by
    intro id hid x e
    simp only [Cdt.vertexIds, List.mem_cons] at hid
    rcases hid with rfl | rfl | rfl | hid
    · rw [a1] at e; cases e; simp [Tri.toList]
    · rw [a2] at e; cases e; simp [Tri.toList]
    · rw [a3] at e; cases e; simp [Tri.toList]
    · exact .inl ⟨id, hid, e⟩
  obtain ⟨ps, hps, hP⟩ := hex (c.known.filterMap (pts[·]?))
    (fun x => by simp [List.mem_filterMap])
    (fun x ⟨id, hid, e⟩ => by
      obtain ⟨y, e', hy⟩ := h.inside id hid
      rw [e'] at e; cases e; exact hy)
    (by
      rintro x y ⟨e, he, h1, h2⟩
      obtain ⟨k1, k2, k3⟩ := h.ends e he
      refine ⟨ofId _ k1 _ h1, ofId _ k2 _ h2, ?_⟩
      rintro rfl
      obtain ⟨i, hi, ei⟩ := List.getElem_of_mem k1
      obtain ⟨j, hj, ej⟩ := List.getElem_of_mem k2
      have hnd := List.nodup_iff_injective_getElem.1 h.distinct
      have := @hnd ⟨i, by simpa using hi⟩ ⟨j, by simpa using hj⟩ (by simp only [List.getElem_map, ei, ej, h1, h2])
      simp only [Fin.mk.injEq] at this
      subst this
      exact k3 (by rw [← ei, ← ej]))
    h.apart
  have key : ∀ l : List (Tri P3), (∀ p ∈ l, ∀ v ∈ p.toList, (∃ id ∈ c.known, pts[id]? = some v) ∨ v ∈ t.toList) → ∃ gs : List (Tri Nat), (∀ g ∈ gs, ∀ v ∈ g.toList, v ∈ c.vertexIds) ∧ HasCorners pts gs l := by
    intro l
    induction l with
    | nil => exact fun _ => ⟨[], by simp, .nil⟩
    | cons p l ih =>
      intro hl
      obtain ⟨gs, h1, h2⟩ := ih fun q hq => hl q (List.mem_cons_of_mem _ hq)
      have hp := hl p List.mem_cons_self
      obtain ⟨ia, ha, ea⟩ := idOf p.a (hp _ (by simp [Tri.toList]))
      obtain ⟨ib, hb, eb⟩ := idOf p.b (hp _ (by simp [Tri.toList]))
      obtain ⟨ic, hc, ec⟩ := idOf p.c (hp _ (by simp [Tri.toList]))
      refine ⟨⟨ia, ib, ic⟩ :: gs, ?_, .cons ⟨ea, eb, ec⟩ h2⟩
      intro g hg v hv
      rcases List.mem_cons.1 hg with rfl | hg
      · simp only [Tri.toList, List.mem_cons, List.not_mem_nil, or_false] at hv
        rcases hv with rfl | rfl | rfl <;> assumption
      · exact h1 g hg v hv
  obtain ⟨gs, g1, g2⟩ := key ps hps.corner
  exact ⟨gs, g1, ps, g2, hps, hP⟩

/-- What is required of the triangulations can be had. -/
theorem correct_exists {pts : List P3} {c : Cdt} {t : Tri P3} (h : c.Expected pts t) : ∃ gs, c.Correct pts t gs := by
  obtain ⟨gs, h1, ps, h2, h3, -⟩ := faces_exist h (P := fun _ => True) fun L hL hin hS hap => (Cdt3.cdt_exists h.proper L hL hin hS hap).imp fun _ k => ⟨k, trivial⟩
  exact ⟨gs, h1, ps, h2, h3⟩

/-- The same, where ties are broken by orders. -/
theorem correct_exists_by {ord : Tri P3 → P3 → P3 → Prop} (ho : Orders ord) {pts : List P3} {c : Cdt} {t : Tri P3} (h : c.Expected pts t) : ∃ gs, c.CorrectBy ord pts t gs :=
  faces_exist h fun L hL hin hS hap => Cdt3.cdt_exists_by h.proper (Cdt3.orders_order h.proper ho) L hL hin hS hap

end Kigumi.Corefine

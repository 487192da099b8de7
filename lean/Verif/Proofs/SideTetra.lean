import Verif.Proofs.SideGeometry

/-! # A surface that bounds a region: a tetrahedron -/
namespace Kigumi.Side
open Kigumi Geo Spec.Triangles Spec.Side FaceFace

/-- The faces of the tetrahedron, seen counterclockwise from outside. -/
def tetraFaces : List (Tri P3) :=
  [⟨⟨0, 0, 0⟩, ⟨0, 0, 1⟩, ⟨0, 1, 0⟩⟩, ⟨⟨0, 0, 0⟩, ⟨1, 0, 0⟩, ⟨0, 0, 1⟩⟩, ⟨⟨0, 0, 0⟩, ⟨0, 1, 0⟩, ⟨1, 0, 0⟩⟩, ⟨⟨1, 0, 0⟩, ⟨0, 1, 0⟩, ⟨0, 0, 1⟩⟩]

/-- The points strictly inside. -/
def tetraInside (x : P3) : Prop := 0 < x.x ∧ 0 < x.y ∧ 0 < x.z ∧ x.x + x.y + x.z < 1

/-- The points inside or on the surface. -/
def tetraClosed (x : P3) : Prop := 0 ≤ x.x ∧ 0 ≤ x.y ∧ 0 ≤ x.z ∧ x.x + x.y + x.z ≤ 1

theorem tetra0 (x : P3) : In ⟨⟨0, 0, 0⟩, ⟨0, 0, 1⟩, ⟨0, 1, 0⟩⟩ x ↔ x.x = 0 ∧ tetraClosed x := by
  constructor
  · rintro ⟨u, v, w, h, rfl, hu, hv, hw⟩
    simp only [combo, tetraClosed]
    refine ⟨by ring, by linarith, by linarith, by linarith, by linarith⟩
  · rintro ⟨h0, h1, h2, h3, h4⟩
    exact ⟨1 - x.y - x.z, x.z, x.y, by ring, p3_ext (by simp [combo, h0]) (by simp [combo]) (by simp [combo]), by linarith, h3, h2⟩
theorem tetra1 (x : P3) : In ⟨⟨0, 0, 0⟩, ⟨1, 0, 0⟩, ⟨0, 0, 1⟩⟩ x ↔ x.y = 0 ∧ tetraClosed x := by
  constructor
  · rintro ⟨u, v, w, h, rfl, hu, hv, hw⟩
    simp only [combo, tetraClosed]
    refine ⟨by ring, by linarith, by linarith, by linarith, by linarith⟩
  · rintro ⟨h0, h1, h2, h3, h4⟩
    exact ⟨1 - x.x - x.z, x.x, x.z, by ring, p3_ext (by simp [combo]) (by simp [combo, h0]) (by simp [combo]), by linarith, h1, h3⟩
theorem tetra2 (x : P3) : In ⟨⟨0, 0, 0⟩, ⟨0, 1, 0⟩, ⟨1, 0, 0⟩⟩ x ↔ x.z = 0 ∧ tetraClosed x := by
  constructor
  · rintro ⟨u, v, w, h, rfl, hu, hv, hw⟩
    simp only [combo, tetraClosed]
    refine ⟨by ring, by linarith, by linarith, by linarith, by linarith⟩
  · rintro ⟨h0, h1, h2, h3, h4⟩
    exact ⟨1 - x.x - x.y, x.y, x.x, by ring, p3_ext (by simp [combo]) (by simp [combo]) (by simp [combo, h0]), by linarith, h2, h1⟩
theorem tetra3 (x : P3) : In ⟨⟨1, 0, 0⟩, ⟨0, 1, 0⟩, ⟨0, 0, 1⟩⟩ x ↔ x.x + x.y + x.z = 1 ∧ tetraClosed x := by
  constructor
  · rintro ⟨u, v, w, h, rfl, hu, hv, hw⟩
    simp only [combo, tetraClosed]
    refine ⟨by linarith, by linarith, by linarith, by linarith, by linarith⟩
  · rintro ⟨h0, h1, h2, h3, h4⟩
    exact ⟨x.x, x.y, x.z, h0, p3_ext (by simp [combo]) (by simp [combo]) (by simp [combo]), h1, h2, h3⟩

theorem tetra_surface (x : P3) : Surface tetraFaces x ↔ tetraClosed x ∧ (x.x = 0 ∨ x.y = 0 ∨ x.z = 0 ∨ x.x + x.y + x.z = 1) := by
  unfold Surface tetraFaces
  simp only [List.mem_cons, List.not_mem_nil, or_false, exists_eq_or_imp, exists_eq_left, tetra0, tetra1, tetra2, tetra3]
  tauto

theorem tetra_ok : ∀ t ∈ tetraFaces, Proper t := by
  unfold Proper
  decide +kernel

/-- The four functions that are positive inside. -/
def tetraFns : List Aff := [⟨⟨1, 0, 0⟩, 0⟩, ⟨⟨0, 1, 0⟩, 0⟩, ⟨⟨0, 0, 1⟩, 0⟩, ⟨⟨-1, -1, -1⟩, 1⟩]

theorem tetra_inside_iff (x : P3) : tetraInside x ↔ ∀ f ∈ tetraFns, 0 < f.eval x := by
  simp only [tetraFns, List.forall_mem_cons, Aff.eval, dot, tetraInside, List.not_mem_nil, IsEmpty.forall_iff, implies_true, and_true]
  constructor
  · rintro ⟨h1, h2, h3, h4⟩; exact ⟨by linarith, by linarith, by linarith, by linarith⟩
  · rintro ⟨h1, h2, h3, h4⟩; exact ⟨by linarith, by linarith, by linarith, by linarith⟩

theorem tetra_surface_iff (x : P3) : Surface tetraFaces x ↔ (∀ f ∈ tetraFns, 0 ≤ f.eval x) ∧ ∃ f ∈ tetraFns, f.eval x = 0 := by
  rw [tetra_surface]
  simp only [tetraFns, List.mem_cons, forall_eq_or_imp, forall_eq, exists_eq_or_imp, Aff.eval, dot, tetraClosed, List.not_mem_nil, or_false, exists_eq_left]
  constructor
  · rintro ⟨⟨h1, h2, h3, h4⟩, h⟩
    refine ⟨⟨by linarith, by linarith, by linarith, by linarith⟩, ?_⟩
    rcases h with h | h | h | h
    · left; linarith
    · right; left; linarith
    · right; right; left; linarith
    · right; right; right; linarith
  · rintro ⟨⟨h1, h2, h3, h4⟩, h⟩
    refine ⟨⟨by linarith, by linarith, by linarith, by linarith⟩, ?_⟩
    rcases h with h | h | h | h
    · left; linarith
    · right; left; linarith
    · right; right; left; linarith
    · right; right; right; linarith

/-- On the way from a point where all functions are positive to one where one is not, there is a first point where one is zero. -/
theorem first_zero (l : List Aff) {x y : P3} (hx : ∀ f ∈ l, 0 < f.eval x) (hy : ∃ f ∈ l, f.eval y ≤ 0) : ∃ z, OnSegment x y z ∧ (∀ f ∈ l, 0 ≤ f.eval z) ∧ ∃ f ∈ l, f.eval z = 0 := by
  induction l generalizing y with
  | nil => obtain ⟨f, hf, _⟩ := hy; simp at hf
  | cons g l ih =>
    by_cases hl : ∃ f ∈ l, f.eval y ≤ 0
    · obtain ⟨z, hz, hall, f, hf, hfz⟩ := ih (fun f hf => hx f (List.mem_cons_of_mem _ hf)) hl
      by_cases hg : 0 ≤ g.eval z
      · exact ⟨z, hz, fun h hh => by rcases List.mem_cons.1 hh with rfl | hh; exacts [hg, hall h hh], f, List.mem_cons_of_mem _ hf, hfz⟩
      · -- `g` is zero before
        push Not at hg
        have gx := hx g List.mem_cons_self
        generalize hA : g.eval x = A at gx
        generalize hB : g.eval z = B at hg
        have hAB : 0 < A - B := by linarith
        have hst : (-B / (A - B)) + A / (A - B) = 1 := by rw [← add_div, div_eq_one_iff_eq hAB.ne']; ring
        have s0 : 0 ≤ -B / (A - B) := div_nonneg (by linarith) hAB.le
        have t0 : 0 ≤ A / (A - B) := div_nonneg gx.le hAB.le
        have hseg : OnSegment x z (seg (-B / (A - B)) (A / (A - B)) x z) := ⟨_, _, hst, s0, t0, rfl⟩
        have hroot : g.eval (seg (-B / (A - B)) (A / (A - B)) x z) = 0 := by rw [eval_seg g hst, hA, hB]; field_simp; ring
        refine ⟨_, onSegment_part hz hseg, fun h hh => ?_, g, List.mem_cons_self, hroot⟩
        rcases List.mem_cons.1 hh with rfl | hh
        · exact hroot.ge
        · rw [eval_seg h hst]
          have := mul_nonneg s0 (hx h (List.mem_cons_of_mem _ hh)).le
          have := mul_nonneg t0 (hall h hh)
          linarith
    · push Not at hl
      have hg : g.eval y ≤ 0 := by
        obtain ⟨f, hf, h⟩ := hy
        rcases List.mem_cons.1 hf with rfl | hf
        · exact h
        · exact absurd h (not_le.2 (hl f hf))
      have gx := hx g List.mem_cons_self
      generalize hA : g.eval x = A at gx
      generalize hB : g.eval y = B at hg
      have hAB : 0 < A - B := by linarith
      have hst : (-B / (A - B)) + A / (A - B) = 1 := by rw [← add_div, div_eq_one_iff_eq hAB.ne']; ring
      have s0 : 0 ≤ -B / (A - B) := div_nonneg (by linarith) hAB.le
      have t0 : 0 ≤ A / (A - B) := div_nonneg gx.le hAB.le
      have hseg : OnSegment x y (seg (-B / (A - B)) (A / (A - B)) x y) := ⟨_, _, hst, s0, t0, rfl⟩
      have hroot : g.eval (seg (-B / (A - B)) (A / (A - B)) x y) = 0 := by rw [eval_seg g hst, hA, hB]; field_simp; ring
      refine ⟨_, hseg, fun h hh => ?_, g, List.mem_cons_self, hroot⟩
      rcases List.mem_cons.1 hh with rfl | hh
      · exact hroot.ge
      · rw [eval_seg h hst]
        have := mul_nonneg s0 (hx h (List.mem_cons_of_mem _ hh)).le
        have := mul_nonneg t0 (hl h hh).le
        linarith

theorem tetra_const {x y : P3} (h : ∀ z, OnSegment x y z → ¬ Surface tetraFaces z) (hx : tetraInside x) : tetraInside y := by
  by_contra hy
  rw [tetra_inside_iff] at hx hy
  push Not at hy
  obtain ⟨z, hz, h1, h2⟩ := first_zero tetraFns hx hy
  exact h z hz ((tetra_surface_iff z).2 ⟨h1, h2⟩)

theorem tetra_single {i : Nat} {x : P3} (h : Singly tetraFaces i x) : tetraClosed x ∧
    ((i = 0 ∧ x.x = 0 ∧ 0 < x.y ∧ 0 < x.z ∧ x.x + x.y + x.z < 1) ∨ (i = 1 ∧ x.y = 0 ∧ 0 < x.x ∧ 0 < x.z ∧ x.x + x.y + x.z < 1) ∨
    (i = 2 ∧ x.z = 0 ∧ 0 < x.x ∧ 0 < x.y ∧ x.x + x.y + x.z < 1) ∨ (i = 3 ∧ x.x + x.y + x.z = 1 ∧ 0 < x.x ∧ 0 < x.y ∧ 0 < x.z)) := by
  obtain ⟨t, ht, hin, hall⟩ := h
  have hs : tetraClosed x := by
    have := (tetra_surface x).1 ⟨t, List.mem_of_getElem? ht, hin⟩
    exact this.1
  have h0 := hall 0 _ rfl; have h1 := hall 1 _ rfl; have h2 := hall 2 _ rfl; have h3 := hall 3 _ rfl
  rw [tetra0] at h0; rw [tetra1] at h1; rw [tetra2] at h2; rw [tetra3] at h3
  have pos : ∀ {u : ℚ}, 0 ≤ u → ¬ u = 0 → 0 < u := fun h h' => lt_of_le_of_ne h (Ne.symm h')
  obtain ⟨c1, c2, c3, c4⟩ := hs
  refine ⟨⟨c1, c2, c3, c4⟩, ?_⟩
  have k : ∀ j, i = j → (j ≠ 0 → 0 < x.x) ∧ (j ≠ 1 → 0 < x.y) ∧ (j ≠ 2 → 0 < x.z) ∧ (j ≠ 3 → x.x + x.y + x.z < 1) := by
    rintro j rfl
    refine ⟨fun h => pos c1 fun e => h (h0 ⟨e, c1, c2, c3, c4⟩).symm, fun h => pos c2 fun e => h (h1 ⟨e, c1, c2, c3, c4⟩).symm,
      fun h => pos c3 fun e => h (h2 ⟨e, c1, c2, c3, c4⟩).symm, fun h => lt_of_le_of_ne c4 fun e => h (h3 ⟨e, c1, c2, c3, c4⟩).symm⟩
  match i, ht with
  | 0, ht =>
    obtain ⟨_, k2, k3, k4⟩ := k 0 rfl
    cases ht
    exact Or.inl ⟨rfl, ((tetra0 x).1 hin).1, k2 (by decide), k3 (by decide), k4 (by decide)⟩
  | 1, ht =>
    obtain ⟨k1, _, k3, k4⟩ := k 1 rfl
    cases ht
    exact Or.inr (Or.inl ⟨rfl, ((tetra1 x).1 hin).1, k1 (by decide), k3 (by decide), k4 (by decide)⟩)
  | 2, ht =>
    obtain ⟨k1, k2, _, k4⟩ := k 2 rfl
    cases ht
    exact Or.inr (Or.inr (Or.inl ⟨rfl, ((tetra2 x).1 hin).1, k1 (by decide), k2 (by decide), k4 (by decide)⟩))
  | 3, ht =>
    obtain ⟨k1, k2, k3, _⟩ := k 3 rfl
    cases ht
    exact Or.inr (Or.inr (Or.inr ⟨rfl, ((tetra3 x).1 hin).1, k1 (by decide), k2 (by decide), k3 (by decide)⟩))
  | n + 4, ht => simp [tetraFaces] at ht

/-- **The tetrahedron bounds its inside.** -/
theorem tetra_bounds : Bounds tetraFaces tetraInside where
  const x y h := ⟨tetra_const h, tetra_const (fun z hz => h z (onSegment_swap hz))⟩
  jump i t x ht hx := by
    obtain ⟨_, h⟩ := tetra_single hx
    rcases h with ⟨rfl, e, h1, h2, h3⟩ | ⟨rfl, e, h1, h2, h3⟩ | ⟨rfl, e, h1, h2, h3⟩ | ⟨rfl, e, h1, h2, h3⟩
    · cases ht
      refine ⟨(1 - (x.x + x.y + x.z)) / 2, by linarith, fun s hs hle => ?_⟩
      simp only [tetraInside, shift, outward]
      constructor
      · refine ⟨by linarith, by linarith, by linarith, by linarith⟩
      · rintro ⟨g, _⟩; linarith
    · cases ht
      refine ⟨(1 - (x.x + x.y + x.z)) / 2, by linarith, fun s hs hle => ?_⟩
      simp only [tetraInside, shift, outward]
      constructor
      · refine ⟨by linarith, by linarith, by linarith, by linarith⟩
      · rintro ⟨_, g, _⟩; linarith
    · cases ht
      refine ⟨(1 - (x.x + x.y + x.z)) / 2, by linarith, fun s hs hle => ?_⟩
      simp only [tetraInside, shift, outward]
      constructor
      · refine ⟨by linarith, by linarith, by linarith, by linarith⟩
      · rintro ⟨_, _, g, _⟩; linarith
    · cases ht
      have m1 := min_le_left x.x (min x.y x.z)
      have m2 := (min_le_right x.x (min x.y x.z)).trans (min_le_left _ _)
      have m3 := (min_le_right x.x (min x.y x.z)).trans (min_le_right _ _)
      have m0 : 0 < min x.x (min x.y x.z) := lt_min h1 (lt_min h2 h3)
      refine ⟨min x.x (min x.y x.z) / 2, by linarith, fun s hs hle => ?_⟩
      simp only [tetraInside, shift, outward]
      constructor
      · refine ⟨by linarith, by linarith, by linarith, by linarith⟩
      · rintro ⟨_, _, _, g⟩; linarith

/-- **Its faces do not overlap in areas.** -/
theorem tetra_thin : Thin tetraFaces := by
  intro i t x e ht hx he
  have okt : Ok t := ok_of_proper (tetra_ok t (List.mem_of_getElem? ht))
  -- towards the middle of the face
  have fin : ∀ m : P3, In t m → (∀ k, 0 < k → k ≤ 1 → ∀ j u, tetraFaces[j]? = some u → In u (seg (1 - k) k x m) → j = i) → ∃ y, Near e y x ∧ Singly tetraFaces i y := by
    intro m hm h
    obtain ⟨k, hk, hk1, hn⟩ := seg_near he x m
    exact ⟨_, hn, t, ht, in_seg okt hx hm hk.le hk1, h k hk hk1⟩
  have cs : tetraClosed x := ((tetra_surface x).1 ⟨t, List.mem_of_getElem? ht, hx⟩).1
  obtain ⟨c1, c2, c3, c4⟩ := cs
  have others : ∀ (y : P3), (i ≠ 0 → 0 < y.x) → (i ≠ 1 → 0 < y.y) → (i ≠ 2 → 0 < y.z) → (i ≠ 3 → y.x + y.y + y.z < 1) → ∀ j u, tetraFaces[j]? = some u → In u y → j = i := by
    intro y g1 g2 g3 g4 j u hu hin
    by_contra hji
    match j, hu with
    | 0, hu => cases hu; have := ((tetra0 y).1 hin).1; have := g1 (fun h => hji h.symm); linarith
    | 1, hu => cases hu; have := ((tetra1 y).1 hin).1; have := g2 (fun h => hji h.symm); linarith
    | 2, hu => cases hu; have := ((tetra2 y).1 hin).1; have := g3 (fun h => hji h.symm); linarith
    | 3, hu => cases hu; have := ((tetra3 y).1 hin).1; have := g4 (fun h => hji h.symm); linarith
    | n + 4, hu => simp [tetraFaces] at hu
  match i, ht, others with
  | 0, ht, others =>
    cases ht
    refine fin ⟨0, 1 / 3, 1 / 3⟩ ((tetra0 _).2 ⟨rfl, by simp only [tetraClosed]; norm_num⟩) (fun k hk hk1 => others _ ?_ ?_ ?_ ?_) <;> simp only [seg] <;> intro hh
    · exact absurd rfl hh
    · have := mul_nonneg (by linarith : 0 ≤ 1 - k) c2; linarith
    · have := mul_nonneg (by linarith : 0 ≤ 1 - k) c3; linarith
    · have := mul_nonneg (by linarith : 0 ≤ 1 - k) (by linarith : 0 ≤ 1 - (x.x + x.y + x.z)); linarith
  | 1, ht, others =>
    cases ht
    refine fin ⟨1 / 3, 0, 1 / 3⟩ ((tetra1 _).2 ⟨rfl, by simp only [tetraClosed]; norm_num⟩) (fun k hk hk1 => others _ ?_ ?_ ?_ ?_) <;> simp only [seg] <;> intro hh
    · have := mul_nonneg (by linarith : 0 ≤ 1 - k) c1; linarith
    · exact absurd rfl hh
    · have := mul_nonneg (by linarith : 0 ≤ 1 - k) c3; linarith
    · have := mul_nonneg (by linarith : 0 ≤ 1 - k) (by linarith : 0 ≤ 1 - (x.x + x.y + x.z)); linarith
  | 2, ht, others =>
    cases ht
    refine fin ⟨1 / 3, 1 / 3, 0⟩ ((tetra2 _).2 ⟨rfl, by simp only [tetraClosed]; norm_num⟩) (fun k hk hk1 => others _ ?_ ?_ ?_ ?_) <;> simp only [seg] <;> intro hh
    · have := mul_nonneg (by linarith : 0 ≤ 1 - k) c1; linarith
    · have := mul_nonneg (by linarith : 0 ≤ 1 - k) c2; linarith
    · exact absurd rfl hh
    · have := mul_nonneg (by linarith : 0 ≤ 1 - k) (by linarith : 0 ≤ 1 - (x.x + x.y + x.z)); linarith
  | 3, ht, others =>
    cases ht
    refine fin ⟨1 / 3, 1 / 3, 1 / 3⟩ ((tetra3 _).2 ⟨by norm_num, by simp only [tetraClosed]; norm_num⟩) (fun k hk hk1 => others _ ?_ ?_ ?_ ?_) <;> simp only [seg] <;> intro hh
    · have := mul_nonneg (by linarith : 0 ≤ 1 - k) c1; linarith
    · have := mul_nonneg (by linarith : 0 ≤ 1 - k) c2; linarith
    · have := mul_nonneg (by linarith : 0 ≤ 1 - k) c3; linarith
    · exact absurd rfl hh
  | n + 4, ht, _ => simp [tetraFaces] at ht

end Kigumi.Side

import Verif.Proofs.SideOracle
import Verif.Proofs.SideTetra

/-! # C11, C12, C68: the side of a point -/
namespace Kigumi.Props
open Kigumi Outcome Geo Spec.Triangles Spec.Side Side
variable {D : Type}

/-- A region with a boundary. -/
def WithBoundary (r : Region P3 D) (ts : List (Tri P3)) : Prop := r.kind = .boundaryDefined ∧ r.boundary.faces ≠ [] ∧ Spec.HasCorners r.boundary.points r.boundary.faces ts

theorem boundedSide_eq {E : Env} {r : Region P3 D} (hk : r.kind = .boundaryDefined) (p : P3) :
    boundedSide E r p = (sideOf E r.boundary p).bind (fun s => match s with | .negative => ok .bounded | .positive => ok .unbounded | .boundary => ok .boundary) := by
  unfold boundedSide
  rw [if_neg (by simp [Region.isEmpty, hk]), if_neg (by simp [Region.isFull, hk])]; rfl

/-- **Points of the surface are recognised.** Whatever the triangles, the call returns ON_BOUNDARY, and does not throw. -/
theorem C11_on_surface {E : Env} {r : Region P3 D} {ts : List (Tri P3)} (hr : WithBoundary r ts) (hE : E.Valid ts) {p : P3} (hp : Surface ts p) : boundedSide E r p = ok .boundary := by
  obtain ⟨hk, hne, hc⟩ := hr
  have h := sideOf_rounds hE hc hne p
  rw [boundedSide_eq hk]
  have : sideOf E r.boundary p = ok .boundary := by
    obtain ⟨t, ht, _⟩ := id hp
    cases hts : ts with
    | nil => rw [hts] at ht; simp at ht
    | cons u l =>
      have hround : Round ts p (target u) (ok (some .boundary)) := by
        by_cases hpu : p = target u
        · exact .start hpu
        · exact .surface hpu hp
      refine rounds_unique h ?_
      have := Rounds.found (ts := ts) u l .boundary hround
      rwa [← hts] at this
  rw [this]; rfl

theorem round_sound {K : P3 → Prop} (hK : Zone K) {ts : List (Tri P3)} (hw : StaysIn K ts) (hok : ∀ t ∈ ts, Proper t) {χ : P3 → Prop} (hb : BoundsIn K ts χ) {p q : P3} (hpK : K p) (hp : ¬ Surface ts p) (hpq : p ≠ q) {s : Oriented}
    (h : Round ts p q (ok (some s))) : (s = .negative → χ p) ∧ (s = .positive → ¬ χ p) ∧ (s = .boundary → Thin ts → False) := by
  have hok' : ∀ t ∈ ts, Ok t := fun t ht => ok_of_proper (hok t ht)
  generalize hr : ok (some s) = r at h
  cases h with
  | start h => exact absurd h hpq
  | surface _ hs => exact absurd hs hp
  | nothing => cases hr
  | tie => cases hr
  | nearest _ _ i x t hi ht hmin =>
    have hs : s = .of (sgn (FaceFace.det4 t.a t.b t.c p)) := by cases hr; rfl
    have others := others_of_nearest hi hmin
    have hxt : In t x := by
      obtain ⟨t', ht', h⟩ := hi
      rw [ht] at ht'; cases ht'
      exact ((h x).2 rfl).1
    have key := fun hthin s hs hsp => decide_side hK hw hok' hb ht hpK hp hxt others hthin s hs hsp
    rw [eval_plane] at key
    refine ⟨fun e => ?_, fun e => ?_, fun e hth => ?_⟩
    · rw [hs, of_sgn_negative] at e
      exact (key (Or.inl e.ne) (-1) (Or.inr rfl) (by linarith)).2 rfl
    · rw [hs, of_sgn_positive] at e
      intro hχ
      have := (key (Or.inl e.ne') 1 (Or.inl rfl) (by linarith)).1 hχ
      norm_num at this
    · rw [hs, of_sgn_boundary] at e
      have h1 := key (Or.inr hth) 1 (Or.inl rfl) (by rw [e]; norm_num)
      have h2 := key (Or.inr hth) (-1) (Or.inr rfl) (by rw [e]; norm_num)
      have h3 := h1.1 (h2.2 rfl)
      norm_num at h3

theorem centroid_in (t : Tri P3) : In t (target t) :=
  ⟨1 / 3, 1 / 3, 1 / 3, by norm_num, by apply FaceFace.p3_ext <;> simp only [target, centroid, combo] <;> ring, by norm_num, by norm_num, by norm_num⟩

theorem boundedSide_ok {E : Env} {r : Region P3 D} {ts : List (Tri P3)} (hr : WithBoundary r ts) (hE : E.Valid ts) {p : P3} (hp : ¬ Surface ts p) {b : Bounded} (h : boundedSide E r p = ok b) :
    ∃ q s, p ≠ q ∧ Round ts p q (ok (some s)) ∧ b = (match s with | .negative => .bounded | .positive => .unbounded | .boundary => .boundary) := by
  obtain ⟨hk, hne, hc⟩ := hr
  have hrs := sideOf_rounds hE hc hne p
  rw [boundedSide_eq hk] at h
  cases hs : sideOf E r.boundary p with
  | ok s =>
    rw [hs] at h hrs
    obtain ⟨t, ht, hround⟩ := rounds_ok hrs
    refine ⟨target t, s, ?_, hround, ?_⟩
    · rintro rfl
      exact hp ⟨t, ht, centroid_in t⟩
    · cases s <;> cases h <;> rfl
  | exn m => rw [hs] at h; cases h
  | ub w => rw [hs] at h; cases h

/-- Answers for points of the convex set in which the soup bounds a region. -/
theorem boundary_in {E : Env} {r : Region P3 D} {ts : List (Tri P3)} (hr : WithBoundary r ts) (hE : E.Valid ts) (hok : ∀ t ∈ ts, Proper t) {K χ : P3 → Prop} (hK : Zone K) (hw : StaysIn K ts)
    (hb : BoundsIn K ts χ) (hth : Thin ts) {p : P3} (hpK : K p) {b : Bounded} (h : boundedSide E r p = ok b) : b = .boundary ↔ Surface ts p := by
  constructor
  · intro e
    by_contra hp
    obtain ⟨q, s, hpq, hround, hbs⟩ := boundedSide_ok hr hE hp h
    refine (round_sound hK hw hok hb hpK hp hpq hround).2.2 ?_ hth
    rw [e] at hbs
    cases s
    · cases hbs
    · rfl
    · cases hbs
  · intro hp
    rw [C11_on_surface hr hE hp] at h
    cases h; rfl

theorem sound_in {E : Env} {r : Region P3 D} {ts : List (Tri P3)} (hr : WithBoundary r ts) (hE : E.Valid ts) (hok : ∀ t ∈ ts, Proper t) {K χ : P3 → Prop} (hK : Zone K) (hw : StaysIn K ts)
    (hb : BoundsIn K ts χ) {p : P3} (hpK : K p) (hp : ¬ Surface ts p) : (boundedSide E r p = ok .bounded → χ p) ∧ (boundedSide E r p = ok .unbounded → ¬ χ p) := by
  constructor
  · intro h
    obtain ⟨q, s, hpq, hround, hbs⟩ := boundedSide_ok hr hE hp h
    refine (round_sound hK hw hok hb hpK hp hpq hround).1 ?_
    cases s
    · rfl
    · cases hbs
    · cases hbs
  · intro h
    obtain ⟨q, s, hpq, hround, hbs⟩ := boundedSide_ok hr hE hp h
    refine (round_sound hK hw hok hb hpK hp hpq hround).2.1 ?_
    cases s
    · cases hbs
    · cases hbs
    · rfl

/-- **ON_BOUNDARY means on the surface** — partial: for a soup that bounds a region and whose triangles do not overlap in areas, not for every soup. -/
theorem C11_boundary_iff_partial {E : Env} {r : Region P3 D} {ts : List (Tri P3)} (hr : WithBoundary r ts) (hE : E.Valid ts) (hok : ∀ t ∈ ts, Proper t) {χ : P3 → Prop} (hb : Bounds ts χ) (hth : Thin ts)
    {p : P3} {b : Bounded} (h : boundedSide E r p = ok b) : b = .boundary ↔ Surface ts p :=
  boundary_in hr hE hok zone_whole (within_whole ts) hb.whole hth trivial h

/-- **Answers are right.** For every soup that bounds a region, every indicator of the region and every point off the surface: ON_BOUNDED_SIDE is returned for points of the region only, and ON_UNBOUNDED_SIDE for
other points only (triangles may overlap). -/
theorem C12_sound {E : Env} {r : Region P3 D} {ts : List (Tri P3)} (hr : WithBoundary r ts) (hE : E.Valid ts) (hok : ∀ t ∈ ts, Proper t) {χ : P3 → Prop} (hb : Bounds ts χ)
    {p : P3} (hp : ¬ Surface ts p) : (boundedSide E r p = ok .bounded → χ p) ∧ (boundedSide E r p = ok .unbounded → ¬ χ p) :=
  sound_in hr hE hok zone_whole (within_whole ts) hb.whole trivial hp

/-- **The side of a point.** For every soup that bounds a region and whose triangles do not overlap in areas, and every point off the surface for which the call returns, ON_BOUNDED_SIDE is returned exactly for
points of the region and ON_UNBOUNDED_SIDE exactly for the others. -/
theorem C12_side {E : Env} {r : Region P3 D} {ts : List (Tri P3)} (hr : WithBoundary r ts) (hE : E.Valid ts) (hok : ∀ t ∈ ts, Proper t) {χ : P3 → Prop} (hb : Bounds ts χ) (hth : Thin ts)
    {p : P3} (hp : ¬ Surface ts p) {b : Bounded} (h : boundedSide E r p = ok b) : (b = .bounded ↔ χ p) ∧ (b = .unbounded ↔ ¬ χ p) := by
  have hs := C12_sound hr hE hok hb hp
  have hnb : b ≠ .boundary := fun e => hp ((C11_boundary_iff_partial hr hE hok hb hth h).1 e)
  cases b with
  | bounded => simp only [hs.1 h, true_iff, not_true_eq_false, reduceCtorEq]; trivial
  | unbounded => simp only [hs.2 h, iff_false, not_false_eq_true, iff_true, reduceCtorEq]; trivial
  | boundary => exact absurd rfl hnb

/-- Empty and full regions. -/
theorem C12_empty_full {E : Env} {r : Region P3 D} (p : P3) : (r.kind = .empty → boundedSide E r p = ok .unbounded) ∧ (r.kind = .full → boundedSide E r p = ok .bounded) := by
  constructor <;> intro h
  · unfold boundedSide; rw [if_pos (by simp [Region.isEmpty, h])]
  · unfold boundedSide; rw [if_neg (by simp [Region.isEmpty, h]), if_pos (by simp [Region.isFull, h])]

/-- **The answer is determined by the soup and the point.** It depends neither on the order in which the tree reports the faces, nor on faces that it reports in vain, nor on the order of ends of common segments, nor on how
equal distances are sorted; exceptions included. -/
theorem C68_determined {E E' : Env} {r : Region P3 D} {ts : List (Tri P3)} (hr : WithBoundary r ts) (hE : E.Valid ts) (hE' : E'.Valid ts) (p : P3) : boundedSide E r p = boundedSide E' r p := by
  obtain ⟨hk, hne, hc⟩ := hr
  rw [boundedSide_eq hk, boundedSide_eq hk, rounds_unique (sideOf_rounds hE hc hne p) (sideOf_rounds hE' hc hne p)]

/-- What is assumed of the intersections, the query and the sort can be had, for every list of proper triangles. -/
theorem C68_consistent {ts : List (Tri P3)} (h : ∀ t ∈ ts, Proper t) : ∃ E : Env, E.Valid ts := ⟨_, exactEnv_valid (fun t ht => ok_of_proper (h t ht))⟩

/-! ## Witnesses -/

/-- An open square, made of two triangles. -/
def square : Region P3 Unit := ⟨.boundaryDefined, ⟨[⟨0, 0, 0⟩, ⟨1, 0, 0⟩, ⟨1, 1, 0⟩, ⟨0, 1, 0⟩], [⟨0, 1, 2⟩, ⟨0, 2, 3⟩], [(), ()]⟩⟩
def squareTris : List (Tri P3) := [⟨⟨0, 0, 0⟩, ⟨1, 0, 0⟩, ⟨1, 1, 0⟩⟩, ⟨⟨0, 0, 0⟩, ⟨1, 1, 0⟩, ⟨0, 1, 0⟩⟩]

/-- The square again with the other diagonal and the opposite orientation: a sheet without volume. -/
def sheet : Region P3 Unit := ⟨.boundaryDefined, ⟨square.boundary.points, [⟨0, 1, 2⟩, ⟨0, 2, 3⟩, ⟨0, 3, 1⟩, ⟨3, 2, 1⟩], [(), (), (), ()]⟩⟩
def sheetTris : List (Tri P3) := squareTris ++ [⟨⟨0, 0, 0⟩, ⟨0, 1, 0⟩, ⟨1, 0, 0⟩⟩, ⟨⟨0, 1, 0⟩, ⟨1, 1, 0⟩, ⟨1, 0, 0⟩⟩]

theorem square_boundary : WithBoundary square squareTris := by
  refine ⟨rfl, by decide, ?_⟩
  unfold Spec.HasCorners
  exact .cons ⟨rfl, rfl, rfl⟩ (.cons ⟨rfl, rfl, rfl⟩ .nil)
theorem sheet_boundary : WithBoundary sheet sheetTris := by
  refine ⟨rfl, by decide, ?_⟩
  unfold Spec.HasCorners
  exact .cons ⟨rfl, rfl, rfl⟩ (.cons ⟨rfl, rfl, rfl⟩ (.cons ⟨rfl, rfl, rfl⟩ (.cons ⟨rfl, rfl, rfl⟩ .nil)))

theorem square_proper : ∀ t ∈ squareTris, Proper t := by unfold Proper; decide +kernel
theorem sheet_proper : ∀ t ∈ sheetTris, Proper t := by unfold Proper; decide +kernel

theorem sheet_x {x : P3} (h : Surface sheetTris x) : 0 ≤ x.x := by
  obtain ⟨t, ht, u, v, w, hs, rfl, hu, hv, hw⟩ := h
  simp only [sheetTris, squareTris, List.cons_append, List.nil_append, List.mem_cons, List.not_mem_nil, or_false] at ht
  rcases ht with rfl | rfl | rfl | rfl <;> simp only [combo] <;> linarith

theorem square_x {x : P3} (h : Surface squareTris x) : 0 ≤ x.x := by
  obtain ⟨t, ht, hx⟩ := h
  exact sheet_x ⟨t, List.mem_append_left _ ht, hx⟩

/-- **The full claim of C11 is false**: for an open square and a point of its plane outside it, ON_BOUNDARY is returned (whatever the tree and the sort do).  The ray enters the first triangle at a corner, which is
ignored because the common part is a segment, and touches the second triangle at the same corner, whose plane has the point. -/
theorem C11_full_claim_false : ∃ (r : Region P3 Unit) (ts : List (Tri P3)) (p : P3), WithBoundary r ts ∧ (∀ t ∈ ts, Proper t) ∧ (∃ E : Env, E.Valid ts) ∧ (∀ E : Env, E.Valid ts → boundedSide E r p = ok .boundary) ∧
    ¬ Surface ts p := by
  refine ⟨square, squareTris, ⟨-2, -1, 0⟩, square_boundary, square_proper, C68_consistent square_proper, fun E hE => ?_, fun h => ?_⟩
  · rw [C68_determined square_boundary hE (exactEnv_valid (fun t ht => ok_of_proper (square_proper t ht)))]
    decide +kernel
  · have := square_x h
    norm_num at this

/-- Every point of the sheet is in two triangles. -/
theorem sheet_twice {i : Nat} {x : P3} (h : Singly sheetTris i x) : False := by
  obtain ⟨t, ht, ⟨u, v, w, hs, rfl, hu, hv, hw⟩, hall⟩ := h
  have second : ∀ j t', sheetTris[j]? = some t' → j ≠ i → ¬ In t' (combo u v w t.a t.b t.c) := fun j t' hj hji hin => hji (hall j t' hj hin)
  match i, ht with
  | 0, ht =>
    cases ht
    -- x = v + w, y = w
    rcases le_total (v + w + w) 1 with h | h
    · refine second 2 _ rfl (by decide) ⟨1 - (v + w) - w, w, v + w, by ring, ?_, by linarith, hw, by linarith⟩
      apply FaceFace.p3_ext <;> simp only [combo] <;> ring
    · refine second 3 _ rfl (by decide) ⟨1 - (v + w), v + w + w - 1, 1 - w, by ring, ?_, by linarith, by linarith, by linarith⟩
      apply FaceFace.p3_ext <;> simp only [combo] <;> linarith
  | 1, ht =>
    cases ht
    -- x = v, y = v + w
    rcases le_total (v + v + w) 1 with h | h
    · refine second 2 _ rfl (by decide) ⟨1 - (v + w) - v, v + w, v, by ring, ?_, by linarith, by linarith, hv⟩
      apply FaceFace.p3_ext <;> simp only [combo] <;> ring
    · refine second 3 _ rfl (by decide) ⟨1 - v, v + v + w - 1, 1 - (v + w), by ring, ?_, by linarith, by linarith, by linarith⟩
      apply FaceFace.p3_ext <;> simp only [combo] <;> linarith
  | 2, ht =>
    cases ht
    -- x = w, y = v
    rcases le_total v w with h | h
    · refine second 0 _ rfl (by decide) ⟨1 - w, w - v, v, by ring, ?_, by linarith, by linarith, hv⟩
      apply FaceFace.p3_ext <;> simp only [combo] <;> ring
    · refine second 1 _ rfl (by decide) ⟨1 - v, w, v - w, by ring, ?_, by linarith, hw, by linarith⟩
      apply FaceFace.p3_ext <;> simp only [combo] <;> ring
  | 3, ht =>
    cases ht
    -- x = v + w, y = u + v
    rcases le_total u w with h | h
    · refine second 0 _ rfl (by decide) ⟨1 - (v + w), w - u, u + v, by ring, ?_, by linarith, by linarith, by linarith⟩
      apply FaceFace.p3_ext <;> simp only [combo] <;> ring
    · refine second 1 _ rfl (by decide) ⟨1 - (u + v), v + w, u - w, by ring, ?_, by linarith, by linarith, by linarith⟩
      apply FaceFace.p3_ext <;> simp only [combo] <;> ring
  | n + 4, ht => simp [sheetTris, squareTris] at ht

/-- **Overlaps matter**: a sheet without volume bounds the empty region, and ON_BOUNDARY is returned for a point off the sheet. -/
theorem C12_overlap_false : ∃ (r : Region P3 Unit) (ts : List (Tri P3)) (p : P3), WithBoundary r ts ∧ (∀ t ∈ ts, Proper t) ∧ Bounds ts (fun _ => False) ∧ (∀ E : Env, E.Valid ts → boundedSide E r p = ok .boundary) ∧
    ¬ Surface ts p := by
  refine ⟨sheet, sheetTris, ⟨-2, -1, 0⟩, sheet_boundary, sheet_proper, ⟨fun _ _ _ => Iff.rfl, fun i t x _ h => (sheet_twice h).elim⟩, fun E hE => ?_, fun h => ?_⟩
  · rw [C68_determined sheet_boundary hE (exactEnv_valid (fun t ht => ok_of_proper (sheet_proper t ht)))]
    decide +kernel
  · have := sheet_x h
    norm_num at this

/-! ## Examples -/

/-- A tetrahedron as a region. -/
def tetraSolid : Region P3 Unit := ⟨.boundaryDefined, ⟨[⟨0, 0, 0⟩, ⟨1, 0, 0⟩, ⟨0, 1, 0⟩, ⟨0, 0, 1⟩], [⟨0, 3, 2⟩, ⟨0, 1, 3⟩, ⟨0, 2, 1⟩, ⟨1, 2, 3⟩], [(), (), (), ()]⟩⟩

theorem tetraSolid_boundary : WithBoundary tetraSolid tetraFaces := by
  refine ⟨rfl, by decide, ?_⟩
  unfold Spec.HasCorners
  exact .cons ⟨rfl, rfl, rfl⟩ (.cons ⟨rfl, rfl, rfl⟩ (.cons ⟨rfl, rfl, rfl⟩ (.cons ⟨rfl, rfl, rfl⟩ .nil)))

/-- The hypotheses of C11 and C12 hold for the tetrahedron, with its inside as the region. -/
example {E : Env} (hE : E.Valid tetraFaces) {p : P3} (hp : ¬ Surface tetraFaces p) {b : Bounded} (h : boundedSide E tetraSolid p = ok b) : (b = .bounded ↔ tetraInside p) ∧ (b = .unbounded ↔ ¬ tetraInside p) :=
  C12_side tetraSolid_boundary hE tetra_ok tetra_bounds tetra_thin hp h

/-- Inside, outside, in the plane of a face outside the face, on an edge. -/
example : boundedSide (exactEnv 4) tetraSolid ⟨1 / 4, 1 / 4, 1 / 4⟩ = ok .bounded ∧ boundedSide (exactEnv 4) tetraSolid ⟨1, 1, 1⟩ = ok .unbounded ∧
    boundedSide (exactEnv 4) tetraSolid ⟨-1, 0, 1 / 2⟩ = ok .unbounded ∧ boundedSide (exactEnv 4) tetraSolid ⟨1 / 2, 1 / 2, 0⟩ = ok .boundary := by decide +kernel

/-- The search may fail: a triangle and a point of its plane. -/
example : boundedSide (exactEnv 1) (⟨.boundaryDefined, ⟨[⟨0, 0, 0⟩, ⟨1, 0, 0⟩, ⟨0, 1, 0⟩], [⟨0, 1, 2⟩], [()]⟩⟩ : Region P3 Unit) ⟨2, 2, 0⟩ = exn "cannot determine the side of the point" := by decide +kernel

end Kigumi.Props

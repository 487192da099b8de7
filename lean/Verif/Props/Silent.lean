import Verif.Proofs.Spill

/-! # C80: results that are wrong without a warning -/
namespace Kigumi.Props
open Kigumi Outcome Geo Spec.Triangles Spec.Side FaceFace Space
open Kigumi.Spec (SameTri HasCorners operandTris truth onSets RegionInv)
open Kigumi.Corefine (Env Gives construct Operands both)
open Kigumi.Side (Aff plane)
variable {E : Env} {E' : Mix.Env}

/-! ## Four tetrahedra: `fore` and `hind` are hinged to `mid` at the edge from `(4,0,0)` to `(0,4,0)`, `low` at the edge from `(0,0,0)` to `(4,0,0)` -/

def fore : List (Tri P3) := Space.tetra ⟨4, 0, 0⟩ ⟨0, 4, 0⟩ ⟨4, 4, 3⟩ ⟨4, 4, 1⟩
def hind : List (Tri P3) := Space.tetra ⟨4, 0, 0⟩ ⟨0, 4, 0⟩ ⟨4, 4, -1⟩ ⟨4, 4, -3⟩

theorem fore_det : 0 < det4 ⟨4, 0, 0⟩ ⟨0, 4, 0⟩ ⟨4, 4, 3⟩ ⟨4, 4, 1⟩ := by decide +kernel
theorem hind_det : 0 < det4 ⟨4, 0, 0⟩ ⟨0, 4, 0⟩ ⟨4, 4, -1⟩ ⟨4, 4, -3⟩ := by decide +kernel

/-- `z` and `x + y - 4`, tilted such that they are negative, zero, or positive at `(4,0,0)` and at `(0,4,0)`. -/
def tilted : List Aff :=
  [((-1/2 : ℚ), (-1/2 : ℚ)), (-1/2, 0), (-1/2, 1/2), (0, -1/2), (0, 0), (0, 1/2), (1/2, -1/2), (1/2, 0), (1/2, 1/2)].flatMap fun (p, q) =>
    [⟨⟨-q/4, -p/4, 1⟩, p + q⟩, ⟨⟨1 - q/4, 1 - p/4, 0⟩, p + q - 4⟩]

def tilted' : List Aff := tilted ++ tilted.map Aff.neg

theorem all_complex : Complex ((fore ++ hind) ++ (low ++ mid)) :=
  complex_parts (fs := tilted') (complex_parts (fs := tilted') (tetra_complex fore_det) (tetra_complex hind_det) (by decide +kernel))
    (complex_parts (fs := separators') (tetra_complex low_det) (tetra_complex mid_det) (by decide +kernel)) (by decide +kernel)

def spilled : Bool → List (Tri P3) := both (mid ++ fore) (mid ++ (hind ++ low))

theorem spilled_mem {c : Bool} {t : Tri P3} (h : t ∈ spilled c) : t ∈ (fore ++ hind) ++ (low ++ mid) := by
  simp only [List.mem_append]
  cases c
  · have h' : t ∈ mid ++ (hind ++ low) := h
    simp only [List.mem_append] at h'
    tauto
  · have h' : t ∈ mid ++ fore := h
    simp only [List.mem_append] at h'
    tauto

theorem spilled_part (c : Bool) : Complex (spilled c) := ⟨fun t ht => all_complex.proper t (spilled_mem ht), fun t ht u hu => all_complex.meet t (spilled_mem ht) u (spilled_mem hu)⟩

theorem spilled_complex : Complex (spilled true ++ spilled false) := by
  have sub : ∀ t ∈ spilled true ++ spilled false, t ∈ (fore ++ hind) ++ (low ++ mid) := fun t ht => (List.mem_append.1 ht).elim spilled_mem spilled_mem
  exact ⟨fun t ht => all_complex.proper t (sub t ht), fun t ht u hu => all_complex.meet t (sub t ht) u (sub u hu)⟩

theorem spilled_once (c : Bool) : Once (spilled c) := by
  rw [Space.once_pairwise]
  unfold Match
  cases c <;> decide +kernel

/-! ### Where they are -/

theorem fore_closed {x : P3} (h : Space.Closed fore x) : 4 ≤ x.x + x.y ∧ 0 ≤ 4 * x.z - (x.x + x.y - 4) ∧ 0 ≤ x.y := by
  have h1 := h ⟨⟨0, 4, 0⟩, ⟨4, 4, 3⟩, ⟨4, 4, 1⟩⟩ (by simp [fore, Space.tetra])
  have h2 := h ⟨⟨4, 0, 0⟩, ⟨4, 4, 1⟩, ⟨4, 4, 3⟩⟩ (by simp [fore, Space.tetra])
  have h3 := h ⟨⟨4, 0, 0⟩, ⟨0, 4, 0⟩, ⟨4, 4, 1⟩⟩ (by simp [fore, Space.tetra])
  have h4 := h ⟨⟨4, 0, 0⟩, ⟨4, 4, 3⟩, ⟨0, 4, 0⟩⟩ (by simp [fore, Space.tetra])
  simp only [plane, Aff.eval, dot, normal, cross, Geo.sub] at h1 h2 h3 h4
  norm_num at h1 h2 h3 h4
  exact ⟨by linarith, by linarith, by linarith⟩

theorem hind_closed {x : P3} (h : Space.Closed hind x) : 4 ≤ x.x + x.y ∧ 4 * x.z + (x.x + x.y - 4) ≤ 0 ∧ 0 ≤ x.y := by
  have h1 := h ⟨⟨0, 4, 0⟩, ⟨4, 4, -1⟩, ⟨4, 4, -3⟩⟩ (by simp [hind, Space.tetra])
  have h2 := h ⟨⟨4, 0, 0⟩, ⟨4, 4, -3⟩, ⟨4, 4, -1⟩⟩ (by simp [hind, Space.tetra])
  have h3 := h ⟨⟨4, 0, 0⟩, ⟨0, 4, 0⟩, ⟨4, 4, -3⟩⟩ (by simp [hind, Space.tetra])
  have h4 := h ⟨⟨4, 0, 0⟩, ⟨4, 4, -1⟩, ⟨0, 4, 0⟩⟩ (by simp [hind, Space.tetra])
  simp only [plane, Aff.eval, dot, normal, cross, Geo.sub] at h1 h2 h3 h4
  norm_num at h1 h2 h3 h4
  exact ⟨by linarith, by linarith, by linarith⟩

theorem fore_within {x : P3} (h : Within fore x) : 4 < x.x + x.y ∧ 0 < x.z := by
  have h3 := h ⟨⟨4, 0, 0⟩, ⟨0, 4, 0⟩, ⟨4, 4, 1⟩⟩ (by simp [fore, Space.tetra])
  have h4 := h ⟨⟨4, 0, 0⟩, ⟨4, 4, 3⟩, ⟨0, 4, 0⟩⟩ (by simp [fore, Space.tetra])
  simp only [plane, Aff.eval, dot, normal, cross, Geo.sub] at h3 h4
  norm_num at h3 h4
  exact ⟨by linarith, by linarith⟩

theorem hind_within {x : P3} (h : Within hind x) : 4 < x.x + x.y ∧ x.z < 0 := by
  have h3 := h ⟨⟨4, 0, 0⟩, ⟨0, 4, 0⟩, ⟨4, 4, -3⟩⟩ (by simp [hind, Space.tetra])
  have h4 := h ⟨⟨4, 0, 0⟩, ⟨4, 4, -1⟩, ⟨0, 4, 0⟩⟩ (by simp [hind, Space.tetra])
  simp only [plane, Aff.eval, dot, normal, cross, Geo.sub] at h3 h4
  norm_num at h3 h4
  exact ⟨by linarith, by linarith⟩

theorem low_sum {x : P3} (h : Space.Closed low x) : x.x + x.y ≤ 4 := by
  have h1 := h ⟨⟨4, 0, 0⟩, ⟨0, -4, 0⟩, ⟨0, 0, -4⟩⟩ (by simp [low, Space.tetra])
  have h2 := low_closed h
  simp only [plane, Aff.eval, dot, normal, cross, Geo.sub] at h1
  norm_num at h1
  linarith

theorem fore_surface {x : P3} (h : Surface fore x) : 4 ≤ x.x + x.y ∧ 0 ≤ 4 * x.z - (x.x + x.y - 4) ∧ 0 ≤ x.y := fore_closed (closed_of_surface (tetra_convex fore_det) h)
theorem hind_surface {x : P3} (h : Surface hind x) : 4 ≤ x.x + x.y ∧ 4 * x.z + (x.x + x.y - 4) ≤ 0 ∧ 0 ≤ x.y := hind_closed (closed_of_surface (tetra_convex hind_det) h)
theorem low_surface_sum {x : P3} (h : Surface low x) : x.x + x.y ≤ 4 := low_sum (closed_of_surface (tetra_convex low_det) h)

def spillLeft (x : P3) : Prop := Within mid x ∨ Within fore x
def spillRight (x : P3) : Prop := Within mid x ∨ Within hind x ∨ Within low x
def spillInside : Bool → P3 → Prop := both spillLeft spillRight

theorem left_bounds : Spec.Side.Bounds (mid ++ fore) spillLeft :=
  bounds_touch (tetra_proper mid_det.ne') (tetra_proper fore_det.ne') (tetra_bound mid_det) (tetra_bound fore_det)
    (fun x hs hw => by have := mid_surface hs; have := fore_within hw; linarith) (fun x hs hw => by have := fore_surface hs; have := mid_closed (closed_of_within hw); have := mid_within hw; linarith)

theorem right_bounds : Spec.Side.Bounds (mid ++ (hind ++ low)) spillRight := by
  have h : Spec.Side.Bounds (hind ++ low) fun x => Within hind x ∨ Within low x := bounds_touch (tetra_proper hind_det.ne') (tetra_proper low_det.ne') (tetra_bound hind_det) (tetra_bound low_det)
    (fun x hs hw => by have := hind_surface hs; have := low_within hw; linarith) (fun x hs hw => by have := low_surface_sum hs; have := hind_within hw; linarith)
  refine bounds_touch (tetra_proper mid_det.ne') ?_ (tetra_bound mid_det) h ?_ ?_
  · intro t ht
    rcases List.mem_append.1 ht with ht | ht
    · exact tetra_proper hind_det.ne' t ht
    · exact tetra_proper low_det.ne' t ht
  · rintro x hs (hw | hw)
    · have := mid_surface hs; have := hind_within hw; linarith
    · have := mid_surface hs; have := low_within hw; linarith
  · intro x hs hw
    rcases surface_append.1 hs with hs | hs
    · have := hind_surface hs; have := mid_closed (closed_of_within hw); have := mid_within hw; linarith
    · have := low_surface hs; have := mid_within hw; linarith

def leftRegion : Region P3 Unit := ⟨.boundaryDefined, ⟨[⟨0, 0, 0⟩, ⟨4, 0, 0⟩, ⟨0, 4, 0⟩, ⟨0, 0, 4⟩, ⟨4, 4, 3⟩, ⟨4, 4, 1⟩],
  [⟨1, 2, 3⟩, ⟨0, 3, 2⟩, ⟨0, 1, 3⟩, ⟨0, 2, 1⟩, ⟨2, 4, 5⟩, ⟨1, 5, 4⟩, ⟨1, 2, 5⟩, ⟨1, 4, 2⟩], List.replicate 8 ()⟩⟩
def rightRegion : Region P3 Unit := ⟨.boundaryDefined, ⟨[⟨0, 0, 0⟩, ⟨4, 0, 0⟩, ⟨0, 4, 0⟩, ⟨0, 0, 4⟩, ⟨4, 4, -1⟩, ⟨4, 4, -3⟩, ⟨0, -4, 0⟩, ⟨0, 0, -4⟩],
  [⟨1, 2, 3⟩, ⟨0, 3, 2⟩, ⟨0, 1, 3⟩, ⟨0, 2, 1⟩, ⟨2, 4, 5⟩, ⟨1, 5, 4⟩, ⟨1, 2, 5⟩, ⟨1, 4, 2⟩, ⟨1, 6, 7⟩, ⟨0, 7, 6⟩, ⟨0, 1, 7⟩, ⟨0, 6, 1⟩], List.replicate 12 ()⟩⟩

theorem left_is : IsSolid leftRegion (spilled true) (spillInside true) where
  inv := by simp [RegionInv, leftRegion]
  wf := ⟨rfl, by decide⟩
  corners := by simp [HasCorners, leftRegion, spilled, both, fore, mid, Space.tetra]
  complex := spilled_part true
  once := spilled_once true
  bounds := left_bounds
  kind := by simp [KindSays, leftRegion, spilled, both, mid, Space.tetra]

theorem right_is : IsSolid rightRegion (spilled false) (spillInside false) where
  inv := by simp [RegionInv, rightRegion]
  wf := ⟨rfl, by decide⟩
  corners := by simp [HasCorners, rightRegion, spilled, both, hind, low, mid, Space.tetra]
  complex := spilled_part false
  once := spilled_once false
  bounds := right_bounds
  kind := by simp [KindSays, rightRegion, spilled, both, mid, Space.tetra]

/-! ## The only edge of the intersection -/

def hinge1 : P3 := ⟨4, 0, 0⟩
def hinge2 : P3 := ⟨0, 4, 0⟩

/-- Triangles of `fore` and `hind` have a corner beyond the hinge. -/
def Far (t : Tri P3) : Prop := ∃ v ∈ t.toList, 4 < v.x + v.y
instance (t : Tri P3) : Decidable (Far t) := inferInstanceAs (Decidable (∃ v ∈ t.toList, _))

theorem far_same {t u : Tri P3} (h : SameTri t u) : Far t ↔ Far u := by
  unfold Far
  simp only [match_mem (.inl h)]

instance (c : Bool) (t : Tri P3) : Decidable (Coincides spilled c t) := inferInstanceAs (Decidable (∃ u ∈ _, SameTri _ _ ∨ SameTri _ _))

theorem spill_border {x y : P3} : BorderEdge spilled x y ↔ (x = hinge1 ∧ y = hinge2) ∨ (x = hinge2 ∧ y = hinge1) := by
  constructor
  · intro h
    obtain ⟨hxy, t, ht, u, hu, h1, h2, hx, hy⟩ := Cutting.conforming_border spilled_complex h
    have key : ∀ t ∈ spilled true, ∀ u ∈ spilled false, ¬ Coincides spilled true t → ¬ Coincides spilled false u → ∀ x ∈ t.toList, x ∈ u.toList → x = hinge1 ∨ x = hinge2 := by decide +kernel
    rcases key t ht u hu h1 h2 x hx.1 hx.2 with rfl | rfl <;> rcases key t ht u hu h1 h2 y hy.1 hy.2 with rfl | rfl
    · exact absurd rfl hxy
    · exact .inl ⟨rfl, rfl⟩
    · exact .inr ⟨rfl, rfl⟩
    · exact absurd rfl hxy
  · have base : BorderEdge spilled hinge1 hinge2 := by
      refine ⟨⟨⟨4, 0, 0⟩, ⟨0, 4, 0⟩, ⟨4, 4, 1⟩⟩, by decide +kernel, ⟨⟨4, 0, 0⟩, ⟨0, 4, 0⟩, ⟨4, 4, -3⟩⟩, by decide +kernel, by decide +kernel, by decide +kernel, ?_⟩
      have hok : Proper (⟨⟨4, 0, 0⟩, ⟨0, 4, 0⟩, ⟨4, 4, 1⟩⟩ : Tri P3) := by unfold Proper; decide +kernel
      have q : ∀ x, x ∈ (⟨⟨4, 0, 0⟩, ⟨0, 4, 0⟩, ⟨4, 4, 1⟩⟩ : Tri P3).toList → x ∈ (⟨⟨4, 0, 0⟩, ⟨0, 4, 0⟩, ⟨4, 4, -3⟩⟩ : Tri P3).toList → Extreme (Common ⟨⟨4, 0, 0⟩, ⟨0, 4, 0⟩, ⟨4, 4, 1⟩⟩ ⟨⟨4, 0, 0⟩, ⟨0, 4, 0⟩, ⟨4, 4, -3⟩⟩) x := by
        intro x hx hy
        exact Cutting.extreme_iff.2 (Cutting.corner_q (Side.ok_of_proper hok) hx (Cutting.in_corner hy))
      refine ⟨q _ (by decide +kernel) (by decide +kernel), q _ (by decide +kernel) (by decide +kernel), by decide +kernel, .inl (.inl ⟨⟨1, 0, by norm_num, by norm_num, by norm_num, ?_⟩, ⟨0, 1, by norm_num, by norm_num, by norm_num, ?_⟩⟩)⟩
      · unfold hinge1; norm_num
      · unfold hinge2; norm_num
    rintro (⟨rfl, rfl⟩ | ⟨rfl, rfl⟩)
    · exact base
    · exact Cutting.borderEdge_swap base

/-! ## The tags that are given -/

/-- The tag that a face gets: those of `low` get the tag `coplanar`. -/
def spillTag (m0 : Soup P3 (MixedData Unit)) (i : Nat) : Tag :=
  match m0.faces[i]? with
  | some f => if Far (tri (Mix.pts m0.points) f) then .exterior else .coplanar
  | none => .exterior

theorem spillTag_some {m0 : Soup P3 (MixedData Unit)} {i : Nat} {f : Tri Nat} (h : m0.faces[i]? = some f) : spillTag m0 i = if Far (tri (Mix.pts m0.points) f) then .exterior else .coplanar := by
  unfold spillTag; rw [h]

theorem far_outside {c : Bool} {t : Tri P3} (ht : t ∈ spilled c) (hf : Far t) {x : P3} (hx : In t x) : ¬ spillInside (!c) x := by
  cases c
  · have key : ∀ t ∈ spilled false, Far t → t ∈ hind := by decide +kernel
    have := hind_surface ⟨t, key t ht hf, hx⟩
    rintro (h | h)
    · have := mid_closed (closed_of_within h); have := mid_within h; linarith
    · have := fore_within h; linarith
  · have key : ∀ t ∈ spilled true, Far t → t ∈ fore := by decide +kernel
    have := fore_surface ⟨t, key t ht hf, hx⟩
    rintro (h | h | h)
    · have := mid_closed (closed_of_within h); have := mid_within h; linarith
    · have := hind_within h; linarith
    · have := low_sum (closed_of_within h); have := low_within h; linarith

section
variable {m0 : Soup P3 (MixedData Unit)} {border : List (Nat × Nat)} {cut : Bool → Tri P3 → List (Tri P3)} {ts : List (Tri P3)}

theorem far_right (h : Cutting.Cuts spilled cut) (hl : Cutting.Laid spilled cut m0 ts border) {i : Nat} {f : Tri Nat} (hf : m0.faces[i]? = some f) (hfar : Far (tri (Mix.pts m0.points) f)) :
    Right m0.faces (Mix.pts m0.points) (Mix.owner m0.data) spillInside i f .exterior := by
  obtain ⟨t, ht, hs, -⟩ := Cutting.conforming_face spilled_complex h hl hf
  have hft := (far_same hs).1 hfar
  refine ⟨fun j g hg ho hm => ?_, fun x hx => far_outside ht hft (in_match (.inl hs) (inner_in hx))⟩
  obtain ⟨u, hu, hsu, -⟩ := Cutting.conforming_face spilled_complex h hl hg
  have key : ∀ c, ∀ t ∈ spilled c, Far t → ∀ u ∈ spilled (!c), ¬ (SameTri t u ∨ SameTri t.flip u) := by decide +kernel
  rw [bool_ne ho] at hu
  exact key _ t ht hft u hu (match_trans (match_symm (.inl hs)) (match_trans hm (.inl hsu)))

theorem spill_scene (h : Cutting.Cuts spilled cut) (hl : Cutting.Laid spilled cut m0 ts border) : Scene Whole m0.faces (Mix.pts m0.points) (Mix.owner m0.data) spillInside :=
  scene_of_cut (cut_of_corefined (Cutting.laid_cutInto h (Cutting.agree_of h (conforming_circle spilled_complex)) hl) fun c => (solid_both (orig := spilled) (χ := spillInside) left_is right_is c).bounds) hl.points

theorem hinge_points {e : Nat × Nat} (hl : Cutting.Laid spilled cut m0 ts border) (he : e ∈ border) : (m0.points[e.1]? = some hinge1 ∧ m0.points[e.2]? = some hinge2) ∨ (m0.points[e.1]? = some hinge2 ∧ m0.points[e.2]? = some hinge1) := by
  obtain ⟨x, y, hx, hy, hb⟩ := hl.joined e he
  rcases spill_border.1 hb with ⟨rfl, rfl⟩ | ⟨rfl, rfl⟩
  · exact .inl ⟨hx, hy⟩
  · exact .inr ⟨hx, hy⟩

theorem spill_consistent (h : Cutting.Cuts spilled cut) (hl : Cutting.Laid spilled cut m0 ts border) (hE' : E'.Valid spilled) {m : Mesh.Mesh} (hm : Mesh.Finalized m0.faces m) {edges : List (List Nat × Option (List Local.Entry))}
    (hedges : Mix.edgeInputs E' m0.faces m (Mix.pts m0.points) border = ok edges) : ConsistentInput m0.faces border (Mix.owner m0.data) edges (spillTag m0) where
  edge x hx cs hcs := by
    obtain ⟨e, he, hin⟩ := edgeInputs_mem hedges x hx
    refine edge_consistent (spill_scene h hl) hE' hm ?_ (hl.edges e he) (fun _ => trivial) hin hcs
    intro i f hf h1 h2
    rw [spillTag_some hf]
    split
    case isTrue hfar => exact far_right h hl hf hfar
    case isFalse hfar =>
      obtain ⟨t, ht, hs, -⟩ := Cutting.conforming_face spilled_complex h hl hf
      obtain ⟨p1, p2⟩ := Cutting.laid_point hl hf h1
      obtain ⟨q1, q2⟩ := Cutting.laid_point hl hf h2
      have hc : hinge1 ∈ t.toList ∧ hinge2 ∈ t.toList := by
        rw [match_mem (.inl hs)] at p2 q2
        rcases hinge_points hl he with ⟨e1, e2⟩ | ⟨e1, e2⟩ <;> rw [p1] at e1 <;> rw [q1] at e2 <;> rw [← Option.some.inj e1, ← Option.some.inj e2]
        · exact ⟨p2, q2⟩
        · exact ⟨q2, p2⟩
      have key : ∀ c, ∀ t ∈ spilled c, ¬ Far t → hinge1 ∈ t.toList → hinge2 ∈ t.toList → ∃ u ∈ spilled (!c), SameTri t u := by decide +kernel
      obtain ⟨u, hu, hsu⟩ := key _ t ht (fun hf => hfar ((far_same hs).2 hf)) hc.1 hc.2
      obtain ⟨j, g, hg, ho, hsg⟩ := Cutting.conforming_has spilled_complex h hl hu
      exact ⟨j, g, hg, by rw [ho]; simp, sameTri_trans hs (sameTri_trans hsu (sameTri_symm hsg))⟩
  const i j hsh := by
    obtain ⟨f, g, x, y, hf, hg, hxy, ⟨x1, x2⟩, ⟨y1, y2⟩, hb⟩ := Cutting.shares_laid hl hsh fun f hf => (spill_scene h hl).distinct hf
    obtain ⟨t, ht, hs, -⟩ := Cutting.conforming_face spilled_complex h hl hf
    obtain ⟨u, hu, hsu, -⟩ := Cutting.conforming_face spilled_complex h hl hg
    rw [match_mem (.inl hs)] at x1 y1
    rw [match_mem (.inl hsu)] at x2 y2
    have key : ∀ t ∈ (fore ++ hind) ++ (low ++ mid), ∀ u ∈ (fore ++ hind) ++ (low ++ mid), Far t → ¬ Far u → ∀ x ∈ t.toList, x ∈ u.toList → x = hinge1 ∨ x = hinge2 := by decide +kernel
    have two : (x = hinge1 ∨ x = hinge2) → (y = hinge1 ∨ y = hinge2) → False := by
      rintro (rfl | rfl) (rfl | rfl)
      · exact hxy rfl
      · exact hb (spill_border.2 (.inl ⟨rfl, rfl⟩))
      · exact hb (spill_border.2 (.inr ⟨rfl, rfl⟩))
      · exact hxy rfl
    have m1 := spilled_mem ht
    have m2 := spilled_mem hu
    rw [spillTag_some hf, spillTag_some hg]
    simp only [far_same hs, far_same hsu]
    by_cases h1 : Far t <;> by_cases h2 : Far u
    · simp [h1, h2]
    · exact absurd (key t m1 u m2 h1 h2 y y1 y2) (two (key t m1 u m2 h1 h2 x x1 x2))
    · exact absurd (key u m2 t m1 h2 h1 y y2 y1) (two (key u m2 t m1 h2 h1 x x2 x1))
    · simp [h1, h2]
  known i := by
    unfold spillTag
    split
    · split <;> simp
    · simp

/-- The tags that faces have before the classification. -/
theorem spill_marked (h : Cutting.Cuts spilled cut) (hl : Cutting.Laid spilled cut m0 ts border) {i : Nat} (hi : Mix.tag m0.data i ≠ .unknown) : Mix.tag m0.data i = .coplanar ∧ spillTag m0 i = .coplanar := by
  have hlt : i < m0.faces.length := by
    rw [← hl.data]
    by_contra hc
    exact hi (by simp [Mix.tag, List.getElem?_eq_none (Nat.le_of_not_lt hc)])
  have hf : m0.faces[i]? = some m0.faces[i] := List.getElem?_eq_getElem hlt
  obtain ⟨t, ht, hs, hcase⟩ := Cutting.conforming_face spilled_complex h hl hf
  have key : ∀ c, ∀ t ∈ spilled c, ∀ u ∈ spilled (!c), ¬ SameTri t.flip u ∧ (SameTri t u → ¬ Far t) := by decide +kernel
  rcases hcase with ⟨hu, -⟩ | ⟨hu, u, hu', hsu⟩ | ⟨-, u, hu', hsu⟩
  · exact absurd hu hi
  · refine ⟨hu, ?_⟩
    rw [spillTag_some hf, if_neg]
    rw [far_same hs]
    exact (key _ t ht u hu').2 hsu
  · exact absurd hsu (key _ t ht u hu').1

theorem laid_tri (hl : Cutting.Laid spilled cut m0 ts border) {i : Nat} {f : Tri Nat} (hf : m0.faces[i]? = some f) :
    m0.points[f.a]? = some (tri (Mix.pts m0.points) f).a ∧ m0.points[f.b]? = some (tri (Mix.pts m0.points) f).b ∧ m0.points[f.c]? = some (tri (Mix.pts m0.points) f).c :=
  ⟨(Cutting.laid_point hl hf (by simp [Tri.toList])).1, (Cutting.laid_point hl hf (by simp [Tri.toList])).1, (Cutting.laid_point hl hf (by simp [Tri.toList])).1⟩

/-- Faces at the hinge are faces at the edge of the intersection. -/
theorem at_hinge (hl : Cutting.Laid spilled cut m0 ts border) {e : Nat × Nat} (he : e ∈ border) {i : Nat} {f : Tri Nat} (hf : m0.faces[i]? = some f) (h1 : hinge1 ∈ (tri (Mix.pts m0.points) f).toList)
    (h2 : hinge2 ∈ (tri (Mix.pts m0.points) f).toList) : e.1 ∈ f.toList ∧ e.2 ∈ f.toList := by
  obtain ⟨⟨g1, hg1, k1⟩, g2, hg2, k2⟩ := hl.used e he
  obtain ⟨v, hv, ev⟩ := Cutting.laid_vertex hl hf h1
  obtain ⟨w, hw, ew⟩ := Cutting.laid_vertex hl hf h2
  have mf := List.mem_of_getElem? hf
  rcases hinge_points hl he with ⟨e1, e2⟩ | ⟨e1, e2⟩
  · rw [hl.points g1 hg1 f mf _ k1 _ hv (e1.trans ev.symm), hl.points g2 hg2 f mf _ k2 _ hw (e2.trans ew.symm)]
    exact ⟨hv, hw⟩
  · rw [hl.points g1 hg1 f mf _ k1 _ hw (e1.trans ew.symm), hl.points g2 hg2 f mf _ k2 _ hv (e2.trans ev.symm)]
    exact ⟨hw, hv⟩

/-- The face of `mid` at both hinges. -/
def floorTri : Tri P3 := ⟨⟨0, 0, 0⟩, ⟨0, 4, 0⟩, ⟨4, 0, 0⟩⟩

/-- After the local classification, in every execution, the faces of `low` have tags. -/
theorem spill_known (h : Cutting.Cuts spilled cut) (hl : Cutting.Laid spilled cut m0 ts border) (hE' : E'.Valid spilled) {m : Mesh.Mesh} (hm : Mesh.Finalized m0.faces m) {edges : List (List Nat × Option (List Local.Entry))}
    (hedges : Mix.edgeInputs E' m0.faces m (Mix.pts m0.points) border = ok edges) {tags1 : Nat → Tag} {w1 : Global.Warnings}
    (hr : Local.Result (Mix.env m0.faces m border (Mix.owner m0.data)) edges (Mix.tag m0.data) tags1 w1) {i : Nat} {f : Tri Nat} (hf : m0.faces[i]? = some f) (hu : tags1 i = .unknown) : Far (tri (Mix.pts m0.points) f) := by
  have S := spill_scene h hl
  have hc := spill_consistent h hl hE' hm hedges
  have hp : Spec.Proper m0.faces := fun f hf => S.distinct hf
  have ha := Local.meshEnv_adj hm hp border (Mix.owner m0.data)
  have hnbr := Local.meshEnv_nbr hm border (Mix.owner m0.data)
  obtain ⟨c, ws, order, hex, rfl, hret, -, -⟩ := hr
  have htag : ∀ g, Mix.tag m0.data g ≠ .unknown → Mix.tag m0.data g = spillTag m0 g := by
    intro g hg
    rw [(spill_marked h hl hg).1, (spill_marked h hl hg).2]
  obtain ⟨-, W, hW, hpost⟩ := Local.local_writes (ok := fun f t => t = spillTag m0 f) ha.lt (spread_right hm hc) htag
    (by intro e he cs hcs; obtain ⟨inside, hi⟩ := hc.edge e he cs hcs; exact ⟨_, _, Local.edge_right hi⟩) hex
  have stays := Local.local_stays ha.lt hex
  by_contra hnf
  obtain ⟨t, ht, hs, hcase⟩ := Cutting.conforming_face spilled_complex h hl hf
  have hnt : ¬ Far t := fun hf => hnf ((far_same hs).2 hf)
  have known : ∀ {n x y : Nat}, n < edges.length → W n x → x ≠ y → Spec.SharesNonBorder m0.faces border x y → c.tags y ≠ .unknown := fun hn hw hne hsh => (hpost _ _ (hret _ hn)).1 _ hw _ (hnbr.2 _ _ hne hsh)
  -- some call writes tags
  obtain ⟨n, z, hn, hz, hwr⟩ : ∃ n z, n < edges.length ∧ edges[n]? = some z ∧ ∀ x, Local.Twin z.2 x → W n x := by
    obtain ⟨i0, f0, hf0, ho, hs0⟩ := Cutting.conforming_has (b := true) (t := ⟨⟨4, 0, 0⟩, ⟨0, 4, 0⟩, ⟨4, 4, 1⟩⟩) spilled_complex h hl (by decide +kernel)
    have c1 : hinge1 ∈ (tri (Mix.pts m0.points) f0).toList := (match_mem (.inl hs0) _).2 (by decide +kernel)
    have c2 : hinge2 ∈ (tri (Mix.pts m0.points) f0).toList := (match_mem (.inl hs0) _).2 (by decide +kernel)
    obtain ⟨v, hv, ev⟩ := Cutting.laid_vertex hl hf0 c1
    obtain ⟨w, hw, ew⟩ := Cutting.laid_vertex hl hf0 c2
    have hB : (min v w, max v w) ∈ border := hl.border f0 (List.mem_of_getElem? hf0) v hv w hw _ _ ev ew (spill_border.2 (.inl ⟨rfl, rfl⟩))
    obtain ⟨z, hz, hez⟩ := edgeInputs_get hedges _ hB
    obtain ⟨k1, k2⟩ := at_hinge hl hB hf0 c1 c2
    have hi0 := edge_around hm (hl.edges _ hB) hez hf0 k1 k2
    obtain ⟨n, hn⟩ := List.mem_iff_getElem?.1 hz
    have hlt := (List.getElem?_eq_some_iff.1 hn).1
    rcases (hpost n _ (hret n hlt)).2 z hn with ⟨hall, -⟩ | hwr
    · have h0 : Mix.tag m0.data i0 = .unknown := by
        by_contra hne
        have := (spill_marked h hl hne).2
        rw [spillTag_some hf0, if_pos ((far_same hs0).2 (by decide +kernel))] at this
        cases this
      obtain ⟨n', hn', hw'⟩ := hW i0 (by rw [h0]; exact hall i0 hi0)
      have hz' : edges[n']? = some edges[n'] := List.getElem?_eq_getElem hn'
      rcases (hpost n' _ (hret n' hn')).2 _ hz' with ⟨-, hno⟩ | hwr
      · exact absurd hw' (hno i0)
      · exact ⟨n', _, hn', hz', hwr⟩
    · exact ⟨n, z, hlt, hn, hwr⟩
  -- so it writes the tag of the floor
  obtain ⟨e, he, hez⟩ := edgeInputs_mem hedges z (List.mem_of_getElem? hz)
  obtain ⟨i1, f1, hf1, ho1, hs1⟩ := Cutting.conforming_has (b := true) (t := floorTri) spilled_complex h hl (by decide +kernel)
  obtain ⟨i2, f2, hf2, ho2, hs2⟩ := Cutting.conforming_has (b := false) (t := floorTri) spilled_complex h hl (by decide +kernel)
  have hW2 : W n i2 := by
    have inc : ∀ v, (∃ f ∈ m0.faces, v ∈ f.toList) → ∃ i, Spec.Incident m0.faces v i := by
      rintro v ⟨f, hf, hv⟩
      obtain ⟨i, hi⟩ := List.mem_iff_getElem?.1 hf
      exact ⟨i, f, hi, by simpa [Tri.toList] using hv⟩
    obtain ⟨z', hez', hz'⟩ := edgeInput_exists S hE' hm (hl.edges e he) (inc _ (hl.used e he).1) (inc _ (hl.used e he).2)
    rw [hez] at hez'; cases hez'
    obtain ⟨cs, hcs⟩ := Option.ne_none_iff_exists'.1 hz'
    obtain ⟨k1, k2⟩ := at_hinge hl he hf2 ((match_mem (.inl hs2) _).2 (by decide +kernel)) ((match_mem (.inl hs2) _).2 (by decide +kernel))
    obtain ⟨a, hapex⟩ := apex_exists (hl.edges e he) k1 k2
    have hsame := Cutting.face_match (laid_tri hl hf2) (laid_tri hl hf1) (hl.points f2 (List.mem_of_getElem? hf2) f1 (List.mem_of_getElem? hf1)) (match_trans (.inl hs2) (match_symm (.inl hs1)))
    have hne : i2 ≠ i1 := by rintro rfl; rw [ho1] at ho2; cases ho2
    obtain ⟨-, hov⟩ := edge_overlap S hE' hm (hl.edges e he) hez hcs hf2 hf1 hne hapex (apex_coincide hapex hsame)
    obtain ⟨inside, hi⟩ := hc.edge z (List.mem_of_getElem? hz) cs hcs
    obtain ⟨s, hs1, hs2, hs3⟩ := (Local.edge_right hi).ovKnown i2 hov
    exact hwr i2 ⟨cs, s, hcs, hs1, hs2, hs3⟩
  -- and of its neighbours
  have side : ∀ {j : Nat} {g : Tri Nat} {t : Tri P3}, m0.faces[j]? = some g → SameTri (tri (Mix.pts m0.points) g) t → ¬ SameTri t floorTri → ⟨0, 0, 0⟩ ∈ t.toList → hinge1 ∈ t.toList → c.tags j ≠ .unknown := by
    intro j g t hg hst hno ht1 ht2
    refine known hn hW2 ?_ (Cutting.laid_shares hl (x := ⟨0, 0, 0⟩) (y := hinge1) hf2 hg (by decide +kernel) ⟨(match_mem (.inl hs2) _).2 (by decide +kernel), (match_mem (.inl hst) _).2 ht1⟩
      ⟨(match_mem (.inl hs2) _).2 (by decide +kernel), (match_mem (.inl hst) _).2 ht2⟩ fun hb => ?_)
    · rintro rfl
      rw [hf2] at hg; cases hg
      exact hno (sameTri_trans (sameTri_symm hst) hs2)
    · rcases spill_border.1 hb with ⟨h, -⟩ | ⟨h, -⟩ <;> revert h <;> decide +kernel
  have h0 : ∀ {j : Nat} {g : Tri Nat} {t : Tri P3}, m0.faces[j]? = some g → Mix.owner m0.data j = false → SameTri (tri (Mix.pts m0.points) g) t → t ∈ low → Mix.tag m0.data j = .unknown := by
    intro j g t hg ho hst htl
    obtain ⟨t', ht', hs', hcase⟩ := Cutting.conforming_face spilled_complex h hl hg
    have key : ∀ t ∈ low, ∀ u ∈ spilled true, ¬ SameTri t u ∧ ¬ SameTri t.flip u := by decide +kernel
    rw [ho] at hcase
    have hs'' : SameTri t t' := sameTri_trans (sameTri_symm hst) hs'
    rcases hcase with ⟨hu, -⟩ | ⟨-, u, hu', hsu⟩ | ⟨-, u, hu', hsu⟩
    · exact hu
    · exact absurd (sameTri_trans hs'' hsu) (key t htl u hu').1
    · exact absurd (sameTri_trans (sameTri_flip hs'') hsu) (key t htl u hu').2
  obtain ⟨j, g, hg, hoj, hsj⟩ := Cutting.conforming_has (b := false) (t := ⟨⟨0, 0, 0⟩, ⟨4, 0, 0⟩, ⟨0, 0, -4⟩⟩) spilled_complex h hl (by decide +kernel)
  have hj := side hg hsj (by decide +kernel) (by decide +kernel) (by decide +kernel)
  obtain ⟨n', hn', hwj⟩ := hW j (by rw [h0 hg hoj hsj (by decide +kernel)]; exact hj)
  -- and of the neighbours of these
  have hcase' : ¬ Coincides spilled (Mix.owner m0.data i) t := by
    rcases hcase with ⟨-, hn⟩ | ⟨hc, -⟩ | ⟨hc, -⟩
    · exact hn
    · exact absurd hu (stays i (by rw [hc]; simp))
    · exact absurd hu (stays i (by rw [hc]; simp))
  have key : ∀ c, ∀ t ∈ spilled c, ¬ Far t → ¬ Coincides spilled c t → t ∈ low := by decide +kernel
  have htl := key _ t ht hnt hcase'
  have key : ∀ t ∈ low, (¬ SameTri t floorTri ∧ ⟨0, 0, 0⟩ ∈ t.toList ∧ hinge1 ∈ t.toList) ∨ (⟨0, 0, -4⟩ ∈ t.toList ∧ (⟨0, 0, 0⟩ ∈ t.toList ∨ ⟨4, 0, 0⟩ ∈ t.toList)) := by decide +kernel
  rcases key t htl with ⟨k1, k2, k3⟩ | ⟨k1, k2⟩
  · exact side hf hs k1 k2 k3 hu
  · have hji : j ≠ i := by rintro rfl; exact hj hu
    obtain ⟨y, hy, hy', hyt, hyb⟩ : ∃ y : P3, y ≠ ⟨0, 0, -4⟩ ∧ y ∈ (⟨⟨0, 0, 0⟩, ⟨4, 0, 0⟩, ⟨0, 0, -4⟩⟩ : Tri P3).toList ∧ y ∈ t.toList ∧ ¬ BorderEdge spilled ⟨0, 0, -4⟩ y := by
      have nb : ∀ y, ¬ BorderEdge spilled ⟨0, 0, -4⟩ y := by
        intro y hb
        rcases spill_border.1 hb with ⟨h, -⟩ | ⟨h, -⟩ <;> revert h <;> decide +kernel
      rcases k2 with k2 | k2
      · exact ⟨_, by decide +kernel, by decide +kernel, k2, nb _⟩
      · exact ⟨_, by decide +kernel, by decide +kernel, k2, nb _⟩
    exact known hn' hwj hji (Cutting.laid_shares hl hg hf hy.symm ⟨(match_mem (.inl hsj) _).2 (by decide +kernel), (match_mem (.inl hs) _).2 k1⟩
      ⟨(match_mem (.inl hsj) _).2 hy', (match_mem (.inl hs) _).2 hyt⟩ hyb) hu

theorem spill_side {i : Nat} {t : Tag} (h : Mix.sideTag E' leftRegion.boundary rightRegion.boundary m0.faces (Mix.pts m0.points) (Mix.owner m0.data) i = some t) : t = .exterior ∨ t = .interior := by
  unfold Mix.sideTag at h
  split at h
  · cases h
  · split at h <;> simp at h <;> simp [← h]

end

/-- **The tags after the classification**, in every execution; there is no warning. -/
theorem spill_built (hE : E.Valid spilled) (hE' : E'.Valid spilled) {bb : Builder P3 Unit} {w : Global.Warnings} (h : Mix.Built E' (Gives E) leftRegion rightRegion bb w) :
    w = .none ∧ ∃ m0 border cut ts tags, Cutting.Cuts spilled cut ∧ Cutting.Laid spilled cut m0 ts border ∧ bb.m = ⟨m0.points, m0.faces, Mix.retag tags 0 m0.data⟩ ∧ ∀ i < m0.faces.length, tags i = spillTag m0 i := by
  unfold Mix.Built at h
  rw [if_neg (by decide)] at h
  obtain ⟨m0, border, hm0, ⟨m, edges, tags1, tags2, w1, w2, hm, hedges, hloc, hglob, hout, rfl⟩, -⟩ := h
  obtain ⟨cut, ts, hcut, hl⟩ := Corefine.gives_laid (op := spilled) (s := both leftRegion.boundary rightRegion.boundary) (solid_operands (χ := spillInside) left_is right_is) hE hm0
  have S := spill_scene hcut hl
  obtain ⟨h1, h2, h3⟩ := classified_right hm (fun f hf => S.distinct hf) (spill_consistent hcut hl hE' hm hedges)
    (fun i hi => by rw [(spill_marked hcut hl hi).1, (spill_marked hcut hl hi).2])
    (fun i => by
      by_cases hu : Mix.tag m0.data i = .unknown
      · exact .inl hu
      · exact .inr (.inl (spill_marked hcut hl hu).1))
    (fun i t ht => spill_side ht) hloc hglob (by
    intro i t hu ht
    have hf : ∃ f, m0.faces[i]? = some f := by
      cases hf : m0.faces[i]? with
      | none => unfold Mix.sideTag at ht; rw [hf] at ht; cases ht
      | some f => exact ⟨f, rfl⟩
    obtain ⟨f, hf⟩ := hf
    have hfar := spill_known hcut hl hE' hm hedges hloc hf hu
    have hR := far_right hcut hl hf hfar
    rw [spillTag_some hf, if_pos hfar]
    have hsol := solid_both (orig := spilled) (χ := spillInside) left_is right_is
    have hR' := (side_right S hE' (soup := both leftRegion.boundary rightRegion.boundary) (fun c => by cases c; exacts [right_is.corners, left_is.corners]) (fun c => by cases c <;> simp [both, leftRegion, rightRegion])
      (fun c => (hsol c).complex.proper) (fun c => within_whole _) (fun c => (hsol c).bounds.whole) (fun c x => by
        constructor
        · rintro ⟨t, ht, hx⟩
          obtain ⟨j, g, hg, ho, hs⟩ := Cutting.conforming_has spilled_complex hcut hl ht
          exact ⟨j, g, hg, ho, in_match (match_symm (.inl hs)) hx⟩
        · rintro ⟨j, g, hg, rfl, hx⟩
          obtain ⟨t, ht, hs, -⟩ := Cutting.conforming_face spilled_complex hcut hl hg
          exact ⟨t, ht, in_match (.inl hs) hx⟩) hf ht).2
    exact S.right_unique hf hR' hR)
  refine ⟨by rw [h2, h3]; rfl, m0, border, cut, ts, tags2, hcut, hl, hout, h1⟩

theorem low_slant {x : P3} (h : Space.Closed low x) : x.x - x.y - x.z ≤ 4 := by
  have h1 := h ⟨⟨4, 0, 0⟩, ⟨0, -4, 0⟩, ⟨0, 0, -4⟩⟩ (by simp [low, Space.tetra])
  simp only [plane, Aff.eval, dot, normal, cross, Geo.sub] at h1
  norm_num at h1
  linarith

/-- The operations, and choices of the operand whose coinciding faces are taken, for which nothing of `low` is in the result. -/
def Loses (op : Op) (pf : Bool) : Prop := op = .symmetricDifference ∨ (op = .union ∧ pf = true)

theorem loses_select : ∀ op pf, Loses op pf → ∀ fl, Spec.select op pf fl .coplanar = none ∨ fl = true := by
  intro op pf h fl
  rcases h with rfl | ⟨rfl, rfl⟩
  · cases pf <;> cases fl <;> decide
  · cases fl <;> decide

theorem spill_run (hE : E.Valid spilled) (hE' : E'.Valid spilled) {bb : Builder P3 Unit} {w : Global.Warnings} (h : Mix.Built E' (Gives E) leftRegion rightRegion bb w) {op : Op} {pf : Bool} (hop : Loses op pf) :
    ∃ r, bb.run op pf = ok r ∧ ∀ ts, HasCorners r.boundary.points r.boundary.faces ts → ∀ x, Surface ts x → 0 ≤ x.y := by
  obtain ⟨-, m0, border, cut, ts, tags, hcut, hl, hm, htags⟩ := spill_built hE hE' h
  have hc : HasCorners bb.m.points bb.m.faces ts := by rw [hm]; exact hl.corners
  have hlen : bb.m.data.length = bb.m.faces.length := by rw [hm]; simp only [retag_length]; exact hl.data
  obtain ⟨s, hs, hsc, -, -⟩ := extract_corners hc hlen op pf
  have dat : ∀ {i f}, m0.faces[i]? = some f → ∃ d, bb.m.data[i]? = some d ∧ d.fromLeft = Mix.owner m0.data i ∧ d.tag = if Far (tri (Mix.pts m0.points) f) then .exterior else .coplanar := by
    intro i f hf
    obtain ⟨d, hd, ho, -⟩ := Cutting.laid_data hl hf
    refine ⟨{ d with tag := tags i }, ?_, ho.symm, ?_⟩
    · rw [hm]; simp only [retag_get, hd]; simp
    · simp only; rw [htags i (List.getElem?_eq_some_iff.1 hf).1, spillTag_some hf]
  have hne : s.faces.length ≠ 0 := by
    rw [List.Forall₂.length_eq hsc]
    intro h0
    rw [List.length_eq_zero_iff, List.eq_nil_iff_forall_not_mem] at h0
    obtain ⟨i, f, hf, ho, hsf⟩ := Cutting.conforming_has (b := true) (t := ⟨⟨4, 0, 0⟩, ⟨0, 4, 0⟩, ⟨4, 4, 1⟩⟩) spilled_complex hcut hl (by decide +kernel)
    obtain ⟨d, hd, hdo, hdt⟩ := dat hf
    rw [if_pos ((far_same hsf).2 (by decide +kernel))] at hdt
    rw [ho] at hdo
    have hz : (tri (Mix.pts m0.points) f, d) ∈ ts.zip bb.m.data := List.mem_of_getElem? (i := i) (by rw [List.getElem?_zip_eq_some]; exact ⟨corner_tri hl.corners hf, hd⟩)
    have hsel : Spec.select op pf d.fromLeft d.tag = some false := by
      rw [hdt, hdo]
      rcases hop with rfl | ⟨rfl, rfl⟩
      · cases pf <;> decide
      · decide
    exact h0 _ (List.mem_filterMap.2 ⟨_, hz, by simp only [hsel]; rfl⟩)
  refine ⟨⟨.boundaryDefined, s⟩, ?_, ?_⟩
  · unfold Builder.run
    rw [hs, ok_bind, if_pos hne]
    unfold Region.ofSoup
    rw [if_neg hne]
  · intro ts' hts x hx
    rw [hasCorners_unique hts hsc] at hx
    obtain ⟨p, hp, hin⟩ := hx
    unfold outTris at hp
    rw [List.mem_filterMap] at hp
    obtain ⟨⟨t, d⟩, hmem, hp⟩ := hp
    obtain ⟨i, hi⟩ := List.getElem?_of_mem hmem
    rw [List.getElem?_zip_eq_some] at hi
    rw [Option.map_eq_some_iff] at hp
    obtain ⟨inv, hsel, rfl⟩ := hp
    obtain ⟨f, hf, rfl⟩ := corner_face hl.corners hi.1
    obtain ⟨d', hd, hdo, hdt⟩ := dat hf
    obtain rfl : d' = d := Option.some.inj (hd.symm.trans hi.2)
    obtain ⟨t, ht, hst, -⟩ := Cutting.conforming_face spilled_complex hcut hl hf
    have hin' : In t x := by
      refine in_match (.inl hst) ?_
      cases inv
      · exact hin
      · exact in_match (.inr (.inl (by rfl))) hin
    simp only [far_same hst] at hdt
    have htm : t ∈ fore ∨ t ∈ hind ∨ t ∈ mid := by
      by_cases hft : Far t
      · have key : ∀ t ∈ (fore ++ hind) ++ (low ++ mid), Far t → t ∈ fore ∨ t ∈ hind ∨ t ∈ mid := by decide +kernel
        exact key t (spilled_mem ht) hft
      · rw [if_neg hft] at hdt
        rcases loses_select op pf hop d'.fromLeft with h0 | h0
        · rw [hdt, h0] at hsel; cases hsel
        · rw [← hdo, h0] at ht
          rcases List.mem_append.1 ht with h | h
          · exact .inr (.inr h)
          · exact .inl h
    rcases htm with h | h | h
    · exact (fore_surface ⟨t, h, hin'⟩).2.2
    · exact (hind_surface ⟨t, h, hin'⟩).2.2
    · exact (mid_surface ⟨t, h, hin'⟩).2.1

/-! ## There is an execution -/

theorem middle_same {t u : Tri P3} (h : SameTri t u) : middle t = middle u := by
  obtain ⟨a, b, c⟩ := t
  rcases h with rfl | rfl | rfl <;> simp only [middle, Tri.rot] <;> congr 1 <;> ring

/-- What is visible of the other operand from the faces of `fore` and `hind`. -/
theorem far_visible {c : Bool} {t : Tri P3} (ht : t ∈ spilled c) (hf : Far t) : ¬ Surface (spilled (!c)) (middle t) ∧ ∃ u ∈ spilled (!c), Visible (spilled (!c)) (middle t) (middle u) := by
  cases c
  · have key : ∀ t ∈ spilled false, Far t → 4 < (middle t).x + (middle t).y ∧ 4 * (middle t).z - ((middle t).x + (middle t).y - 4) < 0 := by decide +kernel
    obtain ⟨k1, k2⟩ := key t ht hf
    generalize middle t = p at k1 k2
    have e : middle (⟨⟨4, 0, 0⟩, ⟨0, 4, 0⟩, ⟨4, 4, 1⟩⟩ : Tri P3) = ⟨8/3, 8/3, 1/3⟩ := by decide +kernel
    have off : ∀ x : P3, Surface (spilled true) x → 4 < x.x + x.y → 0 ≤ 4 * x.z - (x.x + x.y - 4) := by
      intro x hs hx
      rcases surface_append.1 hs with hs | hs
      · have := mid_surface hs; linarith
      · exact (fore_surface hs).2.1
    refine ⟨fun hs => absurd (off p hs k1) (by linarith), ⟨⟨4, 0, 0⟩, ⟨0, 4, 0⟩, ⟨4, 4, 1⟩⟩, by decide +kernel, ?_⟩
    rw [e]
    rintro x ⟨s, r, one, s0, r0, rfl⟩ hs
    obtain rfl : r = 1 - s := by linarith
    simp only at *
    have hpos : 4 < s * p.x + (1 - s) * (8/3) + (s * p.y + (1 - s) * (8/3)) := by
      rcases s0.eq_or_lt with rfl | hs0
      · norm_num
      · nlinarith
    have := off _ hs hpos
    simp only at this
    have hs1 : s = 0 := by
      by_contra hne
      have : 0 < s := lt_of_le_of_ne s0 (Ne.symm hne)
      nlinarith
    subst hs1
    simp
  · have key : ∀ t ∈ spilled true, Far t → 4 < (middle t).x + (middle t).y ∧ 0 < 4 * (middle t).z + ((middle t).x + (middle t).y - 4) := by decide +kernel
    obtain ⟨k1, k2⟩ := key t ht hf
    generalize middle t = p at k1 k2
    have e : middle (⟨⟨4, 0, 0⟩, ⟨4, 4, -1⟩, ⟨0, 4, 0⟩⟩ : Tri P3) = ⟨8/3, 8/3, -1/3⟩ := by decide +kernel
    have off : ∀ x : P3, Surface (spilled false) x → 4 < x.x + x.y → 4 * x.z + (x.x + x.y - 4) ≤ 0 := by
      intro x hs hx
      rcases surface_append.1 hs with hs | hs
      · have := mid_surface hs; linarith
      · rcases surface_append.1 hs with hs | hs
        · exact (hind_surface hs).2.1
        · have := low_surface_sum hs; linarith
    refine ⟨fun hs => absurd (off p hs k1) (by linarith), ⟨⟨4, 0, 0⟩, ⟨4, 4, -1⟩, ⟨0, 4, 0⟩⟩, by decide +kernel, ?_⟩
    rw [e]
    rintro x ⟨s, r, one, s0, r0, rfl⟩ hs
    obtain rfl : r = 1 - s := by linarith
    simp only at *
    have hpos : 4 < s * p.x + (1 - s) * (8/3) + (s * p.y + (1 - s) * (8/3)) := by
      rcases s0.eq_or_lt with rfl | hs0
      · norm_num
      · nlinarith
    have := off _ hs hpos
    simp only at this
    have hs1 : s = 0 := by
      by_contra hne
      have : 0 < s := lt_of_le_of_ne s0 (Ne.symm hne)
      nlinarith
    subst hs1
    simp

theorem spill_exists (hE : E.Valid spilled) (hE' : E'.Valid spilled) : ∃ bb w, Mix.Built E' (Gives E) leftRegion rightRegion bb w := by
  obtain ⟨m0, border, hm0⟩ := C78_mixed (op := spilled) (s := both leftRegion.boundary rightRegion.boundary) (solid_operands (χ := spillInside) left_is right_is) hE
  obtain ⟨cut, ts, hcut, hl⟩ := Corefine.gives_laid (op := spilled) (s := both leftRegion.boundary rightRegion.boundary) (solid_operands (χ := spillInside) left_is right_is) hE hm0
  obtain ⟨m, hm⟩ := Mesh.finalized_exists m0.faces
  obtain ⟨hp, edges, he1, he2⟩ := edges_exist (orig := spilled) (χ := spillInside) (a := leftRegion) (b := rightRegion) left_is right_is hE (conforming_circle spilled_complex) hE' hm0 hm
  obtain ⟨tags1, w1, hloc, -⟩ := Local.local_exists (E := Mix.env m0.faces m border (Mix.owner m0.data)) (Local.meshEnv_adj hm hp border (Mix.owner m0.data)).lt he2 (Mix.tag m0.data)
  obtain ⟨tags2, w2, hglob⟩ := C26_global_finishes hm hp border (Mix.owner m0.data) (fun i t h => spill_side (E' := E') (m0 := m0) h) (tags0 := tags1) (by
    intro r hr hu
    have hf : m0.faces[r]? = some m0.faces[r] := List.getElem?_eq_getElem hr
    have hfar := spill_known hcut hl hE' hm he1 hloc hf hu
    obtain ⟨t, ht, hs, -⟩ := Cutting.conforming_face spilled_complex hcut hl hf
    obtain ⟨hoff, u, hu', hv⟩ := far_visible ht ((far_same hs).1 hfar)
    rw [← middle_same hs] at hoff hv
    intro hnone
    have := (sideTag_none (orig := spilled) (χ := spillInside) (a := leftRegion) (b := rightRegion) left_is right_is rfl rfl hE' hf hoff).1 hnone
    exact visible_not_tied (spilled_part _) (spilled_once _) hoff hu' hv (this u hu'))
  refine ⟨⟨.boundaryDefined, .boundaryDefined, ⟨m0.points, m0.faces, Mix.retag tags2 0 m0.data⟩⟩, Global.Warnings.or w1 w2, ?_⟩
  unfold Mix.Built
  rw [if_neg (by decide)]
  exact ⟨_, _, hm0, ⟨m, edges, tags1, tags2, w1, w2, hm, he1, hloc, hglob, rfl, rfl⟩, rfl, rfl⟩

/-- **Results may be wrong without a warning.** There are two solids, both made of tetrahedra hinged to each other at edges, for which Boolean operations return, and in every execution, whatever the threads do and whatever CGAL returns as long as
it is right, no warning is given, and one of the tetrahedra of the second solid is missing in the symmetric difference, and also in the union if coinciding faces are taken from the first solid. The tag of coinciding faces has spilled over to this
tetrahedron, across the edge at which it is hinged to a tetrahedron that both solids have in common. -/
theorem C80_silently_wrong : ∃ (a b : Region P3 Unit) (orig : Bool → List (Tri P3)) (χ : Bool → P3 → Prop), IsSolid a (orig true) (χ true) ∧ IsSolid b (orig false) (χ false) ∧ NoFourOnCircle orig ∧ (∃ E : Env, E.Valid orig) ∧
    (∃ E' : Mix.Env, E'.Valid orig) ∧ ∀ E : Env, E.Valid orig → ∀ E' : Mix.Env, E'.Valid orig → (∃ bb w, Mix.Built E' (Gives E) a b bb w) ∧
      ∀ bb w, Mix.Built E' (Gives E) a b bb w → w = .none ∧ ∀ op pf, (op = .symmetricDifference ∨ (op = .union ∧ pf = true)) → ∃ r, bb.run op pf = ok r ∧
        ¬ Denotes r (fun x => x ∈ onSets op {x | χ true x} {x | χ false x}) (fun x => Surface (orig true) x ∨ Surface (orig false) x) := by
  refine ⟨leftRegion, rightRegion, spilled, spillInside, left_is, right_is, conforming_circle spilled_complex, ⟨_, C74_consistent _⟩, ⟨_, C70_consistent fun c => (spilled_part c).proper⟩, ?_⟩
  intro E hE E' hE'
  refine ⟨spill_exists hE hE', fun bb w h => ⟨(spill_built hE hE' h).1, fun op pf hop => ?_⟩⟩
  obtain ⟨r, hr, hsurf⟩ := spill_run hE hE' h hop
  refine ⟨r, hr, ?_⟩
  rintro ⟨ts, χ', hsol, -, heq⟩
  have hin : Within low ⟨1, -1, -1⟩ := by unfold Within; decide +kernel
  have off : ∀ x : P3, x.y < 0 → (Within low x ∨ 4 < x.x - x.y - x.z) → ¬ (Surface (spilled true) x ∨ Surface (spilled false) x) := by
    intro x hy hx hs
    have hs' : Surface mid x ∨ Surface fore x ∨ Surface hind x ∨ Surface low x := by
      rcases hs with hs | hs
      · rcases surface_append.1 hs with hs | hs
        · exact .inl hs
        · exact .inr (.inl hs)
      · rcases surface_append.1 hs with hs | hs
        · exact .inl hs
        · rcases surface_append.1 hs with hs | hs
          · exact .inr (.inr (.inl hs))
          · exact .inr (.inr (.inr hs))
    rcases hs' with hs | hs | hs | hs
    · have := mid_surface hs; linarith
    · have := fore_surface hs; linarith
    · have := hind_surface hs; linarith
    · rcases hx with hx | hx
      · obtain ⟨t, ht, hxt⟩ := hs
        have := hx t ht
        rw [((tetra_convex low_det t ht x).1 hxt).1] at this
        exact absurd this (lt_irrefl _)
      · have := low_slant (closed_of_surface (tetra_convex low_det) hs); linarith
  have e1 := heq ⟨1, -1, -1⟩ (off _ (by norm_num) (.inl hin))
  have e2 := heq ⟨1, -9, -9⟩ (off _ (by norm_num) (.inr (by norm_num)))
  have e3 := hsol.bounds.const ⟨1, -1, -1⟩ ⟨1, -9, -9⟩ (by
    rintro z ⟨s, r, one, s0, r0, rfl⟩ hz
    have := hsurf ts hsol.corners _ hz
    simp only at this
    nlinarith)
  have left : ∀ x : P3, x.y < 0 → ¬ spillLeft x := by
    rintro x hy (h | h)
    · have := mid_within h; linarith
    · have := fore_closed (closed_of_within h); linarith
  have in1 : spillRight ⟨1, -1, -1⟩ := .inr (.inr hin)
  have out1 : ¬ spillRight ⟨1, -9, -9⟩ := by
    rintro (h | h | h)
    · have := mid_within h; norm_num at this
    · have := hind_within h; norm_num at this
    · have := low_slant (closed_of_within h); norm_num at this
  have l1 := left ⟨1, -1, -1⟩ (by norm_num)
  have l2 := left ⟨1, -9, -9⟩ (by norm_num)
  rcases hop with rfl | ⟨rfl, rfl⟩
  · rcases e2.1 (e3.1 (e1.2 (.inr ⟨in1, l1⟩))) with ⟨h, -⟩ | ⟨h, -⟩
    · exact l2 h
    · exact out1 h
  · rcases e2.1 (e3.1 (e1.2 (.inr in1))) with h | h
    · exact l2 h
    · exact out1 h

end Kigumi.Props

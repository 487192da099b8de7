import Verif.Props.Crossing
import Verif.Proofs.Hinge

/-! # C80: operands that are not manifold where faces coincide -/
namespace Kigumi.Props
open Kigumi Outcome Geo Spec.Triangles Spec.Side FaceFace Space
open Kigumi.Spec (SameTri HasCorners operandTris truth onSets RegionInv)
open Kigumi.Corefine (Env Gives construct Operands both)
open Kigumi.Side (Aff plane)
variable {D : Type} {E : Env} {E' : Mix.Env} {orig : Bool → List (Tri P3)} {χ : Bool → P3 → Prop} {a b : Region P3 D}

/-! ## Three tetrahedra in a row, hinged to each other at edges -/

def mid : List (Tri P3) := Space.tetra ⟨0, 0, 0⟩ ⟨4, 0, 0⟩ ⟨0, 4, 0⟩ ⟨0, 0, 4⟩
def low : List (Tri P3) := Space.tetra ⟨0, 0, 0⟩ ⟨4, 0, 0⟩ ⟨0, -4, 0⟩ ⟨0, 0, -4⟩
def top : List (Tri P3) := Space.tetra ⟨0, 4, 0⟩ ⟨0, 0, 4⟩ ⟨4, 4, 4⟩ ⟨-4, 4, 4⟩
def chain : List (Tri P3) := low ++ (mid ++ top)

theorem mid_det : 0 < det4 ⟨0, 0, 0⟩ ⟨4, 0, 0⟩ ⟨0, 4, 0⟩ ⟨0, 0, 4⟩ := by decide +kernel
theorem low_det : 0 < det4 ⟨0, 0, 0⟩ ⟨4, 0, 0⟩ ⟨0, -4, 0⟩ ⟨0, 0, -4⟩ := by decide +kernel
theorem top_det : 0 < det4 ⟨0, 4, 0⟩ ⟨0, 0, 4⟩ ⟨4, 4, 4⟩ ⟨-4, 4, 4⟩ := by decide +kernel

def separators : List Aff :=
  [⟨⟨0, 1, 1⟩, 0⟩, ⟨⟨1/2, 1, 1⟩, 0⟩, ⟨⟨-1/2, 1, 1⟩, 0⟩, ⟨⟨1/2, 1, 1⟩, -1⟩, ⟨⟨-1/2, 1, 1⟩, 1⟩, ⟨⟨-1/2, 1, 1⟩, 2⟩, ⟨⟨1/2, 1, 1⟩, -2⟩,
   ⟨⟨0, -1, -1⟩, 4⟩, ⟨⟨0, -1/2, -1⟩, 4⟩, ⟨⟨0, -1/2, -1⟩, 3⟩, ⟨⟨0, -1, -1/2⟩, 4⟩, ⟨⟨0, -1, -1/2⟩, 3⟩, ⟨⟨0, -3/2, -1⟩, 4⟩, ⟨⟨0, -1, -3/2⟩, 4⟩, ⟨⟨0, -1/2, -1⟩, 2⟩, ⟨⟨0, -1, -1/2⟩, 2⟩, ⟨⟨0, -1, -1⟩, 2⟩, ⟨⟨0, 1, 1⟩, -2⟩]

def separators' : List Aff := separators ++ separators.map Aff.neg

theorem chain_complex : Complex chain :=
  complex_parts (fs := separators') (tetra_complex low_det) (complex_parts (fs := separators') (tetra_complex mid_det) (tetra_complex top_det) (by decide +kernel)) (by decide +kernel)

theorem chain_once : Once chain := by
  rw [Space.once_pairwise]
  unfold Match
  decide +kernel

theorem low_closed {x : P3} (h : Space.Closed low x) : x.y ≤ 0 ∧ x.z ≤ 0 := by
  have h1 := h ⟨⟨0, 0, 0⟩, ⟨4, 0, 0⟩, ⟨0, 0, -4⟩⟩ (by simp [low, Space.tetra])
  have h2 := h ⟨⟨0, 0, 0⟩, ⟨0, -4, 0⟩, ⟨4, 0, 0⟩⟩ (by simp [low, Space.tetra])
  simp only [plane, Aff.eval, dot, normal, cross, Geo.sub] at h1 h2
  norm_num at h1 h2
  exact ⟨by linarith, by linarith⟩

theorem mid_closed {x : P3} (h : Space.Closed mid x) : 0 ≤ x.x ∧ 0 ≤ x.y ∧ 0 ≤ x.z ∧ x.x + x.y + x.z ≤ 4 := by
  have h1 := h ⟨⟨4, 0, 0⟩, ⟨0, 4, 0⟩, ⟨0, 0, 4⟩⟩ (by simp [mid, Space.tetra])
  have h2 := h ⟨⟨0, 0, 0⟩, ⟨0, 0, 4⟩, ⟨0, 4, 0⟩⟩ (by simp [mid, Space.tetra])
  have h3 := h ⟨⟨0, 0, 0⟩, ⟨4, 0, 0⟩, ⟨0, 0, 4⟩⟩ (by simp [mid, Space.tetra])
  have h4 := h ⟨⟨0, 0, 0⟩, ⟨0, 4, 0⟩, ⟨4, 0, 0⟩⟩ (by simp [mid, Space.tetra])
  simp only [plane, Aff.eval, dot, normal, cross, Geo.sub] at h1 h2 h3 h4
  norm_num at h1 h2 h3 h4
  exact ⟨by linarith, by linarith, by linarith, by linarith⟩

theorem top_closed {x : P3} (h : Space.Closed top x) : 4 ≤ x.y + x.z ∧ x.y ≤ 4 ∧ x.z ≤ 4 := by
  have h1 := h ⟨⟨0, 0, 4⟩, ⟨4, 4, 4⟩, ⟨-4, 4, 4⟩⟩ (by simp [top, Space.tetra])
  have h2 := h ⟨⟨0, 4, 0⟩, ⟨-4, 4, 4⟩, ⟨4, 4, 4⟩⟩ (by simp [top, Space.tetra])
  have h3 := h ⟨⟨0, 4, 0⟩, ⟨0, 0, 4⟩, ⟨-4, 4, 4⟩⟩ (by simp [top, Space.tetra])
  have h4 := h ⟨⟨0, 4, 0⟩, ⟨4, 4, 4⟩, ⟨0, 0, 4⟩⟩ (by simp [top, Space.tetra])
  simp only [plane, Aff.eval, dot, normal, cross, Geo.sub] at h1 h2 h3 h4
  norm_num at h1 h2 h3 h4
  exact ⟨by linarith, by linarith, by linarith⟩

theorem low_within {x : P3} (h : Within low x) : x.y < 0 ∧ x.z < 0 := by
  have h1 := h ⟨⟨0, 0, 0⟩, ⟨4, 0, 0⟩, ⟨0, 0, -4⟩⟩ (by simp [low, Space.tetra])
  have h2 := h ⟨⟨0, 0, 0⟩, ⟨0, -4, 0⟩, ⟨4, 0, 0⟩⟩ (by simp [low, Space.tetra])
  simp only [plane, Aff.eval, dot, normal, cross, Geo.sub] at h1 h2
  norm_num at h1 h2
  exact ⟨by linarith, by linarith⟩

theorem mid_within {x : P3} (h : Within mid x) : 0 < x.y ∧ 0 < x.z ∧ x.y + x.z < 4 := by
  have h1 := h ⟨⟨4, 0, 0⟩, ⟨0, 4, 0⟩, ⟨0, 0, 4⟩⟩ (by simp [mid, Space.tetra])
  have h2 := h ⟨⟨0, 0, 0⟩, ⟨0, 0, 4⟩, ⟨0, 4, 0⟩⟩ (by simp [mid, Space.tetra])
  have h3 := h ⟨⟨0, 0, 0⟩, ⟨4, 0, 0⟩, ⟨0, 0, 4⟩⟩ (by simp [mid, Space.tetra])
  have h4 := h ⟨⟨0, 0, 0⟩, ⟨0, 4, 0⟩, ⟨4, 0, 0⟩⟩ (by simp [mid, Space.tetra])
  simp only [plane, Aff.eval, dot, normal, cross, Geo.sub] at h1 h2 h3 h4
  norm_num at h1 h2 h3 h4
  exact ⟨by linarith, by linarith, by linarith⟩

theorem top_within {x : P3} (h : Within top x) : 4 < x.y + x.z := by
  have h3 := h ⟨⟨0, 4, 0⟩, ⟨0, 0, 4⟩, ⟨-4, 4, 4⟩⟩ (by simp [top, Space.tetra])
  have h4 := h ⟨⟨0, 4, 0⟩, ⟨4, 4, 4⟩, ⟨0, 0, 4⟩⟩ (by simp [top, Space.tetra])
  simp only [plane, Aff.eval, dot, normal, cross, Geo.sub] at h3 h4
  norm_num at h3 h4
  linarith

theorem low_surface {x : P3} (h : Surface low x) : x.y ≤ 0 ∧ x.z ≤ 0 := low_closed (closed_of_surface (tetra_convex low_det) h)
theorem mid_surface {x : P3} (h : Surface mid x) : 0 ≤ x.x ∧ 0 ≤ x.y ∧ 0 ≤ x.z ∧ x.x + x.y + x.z ≤ 4 := mid_closed (closed_of_surface (tetra_convex mid_det) h)
theorem top_surface {x : P3} (h : Surface top x) : 4 ≤ x.y + x.z ∧ x.y ≤ 4 ∧ x.z ≤ 4 := top_closed (closed_of_surface (tetra_convex top_det) h)

def chainInside (x : P3) : Prop := Within low x ∨ Within mid x ∨ Within top x

theorem chain_bounds : Spec.Side.Bounds chain chainInside := by
  have h : Spec.Side.Bounds (mid ++ top) fun x => Within mid x ∨ Within top x := bounds_touch (tetra_proper mid_det.ne') (tetra_proper top_det.ne') (tetra_bound mid_det) (tetra_bound top_det)
    (fun x hs hw => by have := mid_surface hs; have := top_within hw; linarith) (fun x hs hw => by have := top_surface hs; have := mid_within hw; linarith)
  refine bounds_touch (tetra_proper low_det.ne') ?_ (tetra_bound low_det) h ?_ ?_
  · intro t ht
    rcases List.mem_append.1 ht with ht | ht
    · exact tetra_proper mid_det.ne' t ht
    · exact tetra_proper top_det.ne' t ht
  · rintro x hs (hw | hw)
    · have := low_surface hs; have := mid_within hw; linarith
    · have := low_surface hs; have := top_within hw; linarith
  · intro x hs hw
    rcases surface_append.1 hs with hs | hs
    · have := mid_surface hs; have := low_within hw; linarith
    · have := top_surface hs; have := low_within hw; linarith

def chainRegion : Region P3 Unit := ⟨.boundaryDefined, ⟨[⟨0, 0, 0⟩, ⟨4, 0, 0⟩, ⟨0, -4, 0⟩, ⟨0, 0, -4⟩, ⟨0, 4, 0⟩, ⟨0, 0, 4⟩, ⟨4, 4, 4⟩, ⟨-4, 4, 4⟩],
  [⟨1, 2, 3⟩, ⟨0, 3, 2⟩, ⟨0, 1, 3⟩, ⟨0, 2, 1⟩, ⟨1, 4, 5⟩, ⟨0, 5, 4⟩, ⟨0, 1, 5⟩, ⟨0, 4, 1⟩, ⟨5, 6, 7⟩, ⟨4, 7, 6⟩, ⟨4, 5, 7⟩, ⟨4, 6, 5⟩], List.replicate 12 ()⟩⟩
def midRegion : Region P3 Unit := simplex ⟨0, 0, 0⟩ ⟨4, 0, 0⟩ ⟨0, 4, 0⟩ ⟨0, 0, 4⟩

theorem chain_is : IsSolid chainRegion chain chainInside where
  inv := by simp [RegionInv, chainRegion]
  wf := ⟨rfl, by decide⟩
  corners := by simp [HasCorners, chainRegion, chain, low, mid, top, Space.tetra]
  complex := chain_complex
  once := chain_once
  bounds := chain_bounds
  kind := by simp [KindSays, chainRegion, chain, low, Space.tetra]

theorem mid_is : IsSolid midRegion mid (Within mid) := simplex_is mid_det

/-! ## The mixed faces -/

def hinged : Bool → List (Tri P3) := both mid chain
def hingedSoups : Bool → Soup P3 Unit := both midRegion.boundary chainRegion.boundary

/-- The faces in terms of the vertices `(0,0,0)`, `(4,0,0)`, `(0,4,0)`, `(0,0,4)`, `(0,-4,0)`, `(0,0,-4)`, `(4,4,4)`, `(-4,4,4)`. -/
def hingedFaces : List (Tri Nat) :=
  [⟨1, 2, 3⟩, ⟨0, 3, 2⟩, ⟨0, 1, 3⟩, ⟨0, 2, 1⟩, ⟨1, 4, 5⟩, ⟨0, 5, 4⟩, ⟨0, 1, 5⟩, ⟨0, 4, 1⟩, ⟨1, 2, 3⟩, ⟨0, 3, 2⟩, ⟨0, 1, 3⟩, ⟨0, 2, 1⟩, ⟨3, 6, 7⟩, ⟨2, 7, 6⟩, ⟨2, 3, 7⟩, ⟨2, 6, 3⟩]
def hingedData : List (MixedData Unit) :=
  List.replicate 4 ⟨true, .coplanar, ()⟩ ++ List.replicate 4 ⟨false, .unknown, ()⟩ ++ List.replicate 4 ⟨false, .coplanar, ()⟩ ++ List.replicate 4 ⟨false, .unknown, ()⟩
def hingedPoints : List P3 := [⟨0, 0, 0⟩, ⟨4, 0, 0⟩, ⟨0, 4, 0⟩, ⟨0, 0, 4⟩, ⟨0, -4, 0⟩, ⟨0, 0, -4⟩, ⟨4, 4, 4⟩, ⟨-4, 4, 4⟩]
def hingedTris : List (Tri P3) := mid ++ (low ++ (mid ++ top))

theorem hinged_operands : Operands hinged hingedSoups := solid_operands (χ := both (Within mid) chainInside) (a := midRegion) (b := chainRegion) mid_is chain_is

theorem hinged_gives (hE : E.Valid hinged) {m : Soup P3 (MixedData Unit)} {border : List (Nat × Nat)} (hm : Gives E midRegion.boundary chainRegion.boundary m border) :
    border = [] ∧ ∃ new, m = ⟨hingedPoints ++ new, hingedFaces, hingedData⟩ := by
  obtain ⟨h1, finite, fs, ds, new, h2, rfl⟩ := Corefine.gives_coincident hinged_operands hE (by decide +kernel) (by decide +kernel) hm
  refine ⟨h1, new, ?_⟩
  have e1 : Corefine.idsOf hingedSoups true = [0, 1, 2, 3] := by decide +kernel
  have e2 : Corefine.idsOf hingedSoups false = [0, 1, 4, 5, 2, 3, 6, 7] := by decide +kernel
  have e3 : Corefine.base hingedSoups = hingedPoints := by decide +kernel
  have e4 : (hinged true).map (Corefine.plainTag hinged true) = List.replicate 4 .coplanar := by decide +kernel
  have e5 : (hinged false).map (Corefine.plainTag hinged false) = List.replicate 4 .unknown ++ List.replicate 4 .coplanar ++ List.replicate 4 .unknown := by decide +kernel
  rw [e1, e2, e4, e5] at h2
  have e6 : ok (hingedFaces, hingedData) = ok (fs, ds) := h2
  cases e6
  rw [e3]

/-! ## The classification -/

/-- Face `j` has two corners of face `i`. -/
def touches (fs : List (Tri Nat)) (i j : Nat) : Bool :=
  match fs[i]?, fs[j]? with
  | some f, some g => let has := fun v => decide (v = g.a ∨ v = g.b ∨ v = g.c); (has f.a && has f.b) || (has f.b && has f.c) || (has f.c && has f.a)
  | _, _ => false

theorem shares_touches {fs : List (Tri Nat)} {i j : Nat} : Spec.SharesNonBorder fs [] i j ↔ touches fs i j = true := by
  unfold Spec.SharesNonBorder Spec.Incident touches Spec.IsSide Spec.IsBorder
  cases hi : fs[i]? with
  | none => simp
  | some f =>
    cases hj : fs[j]? with
    | none => simp
    | some g =>
      simp only [Option.some.injEq, exists_eq_left', List.not_mem_nil, not_false_eq_true, true_and, Bool.or_eq_true, Bool.and_eq_true, decide_eq_true_eq]
      constructor
      · rintro ⟨f', v, w, rfl, ⟨rfl, rfl⟩ | ⟨rfl, rfl⟩ | ⟨rfl, rfl⟩, h1, h2⟩
        · exact .inl (.inl ⟨h1, h2⟩)
        · exact .inl (.inr ⟨h1, h2⟩)
        · exact .inr ⟨h1, h2⟩
      · rintro ((⟨h1, h2⟩ | ⟨h1, h2⟩) | ⟨h1, h2⟩)
        · exact ⟨_, _, _, rfl, .inl ⟨rfl, rfl⟩, h1, h2⟩
        · exact ⟨_, _, _, rfl, .inr (.inl ⟨rfl, rfl⟩), h1, h2⟩
        · exact ⟨_, _, _, rfl, .inr (.inr ⟨rfl, rfl⟩), h1, h2⟩

theorem hinged_proper : Spec.Proper hingedFaces := by unfold Spec.Proper; decide

/-- Only the first face of the lower tetrahedron is classified on its own; faces reached from it are those of the lower tetrahedron. -/
theorem hinged_global {m : Mesh.Mesh} (hm : Mesh.Finalized hingedFaces m) {side : Nat → Option Tag} (hside : ∀ r t, side r = some t → t = .exterior ∨ t = .interior) {tags : Nat → Tag} {w : Global.Warnings}
    (h : Global.Result (Mix.env hingedFaces m [] (Mix.owner hingedData)).nbr hingedFaces.length side (Mix.owner hingedData) (Mix.tag hingedData) tags w) :
    (∀ i, ¬ (4 ≤ i ∧ i < 8) → tags i = Mix.tag hingedData i) ∧ w &&& Global.flag false ≠ .none := by
  have hadj := Local.meshEnv_adj hm hinged_proper [] (Mix.owner hingedData)
  obtain ⟨nb1, nb2⟩ := Local.meshEnv_nbr hm [] (Mix.owner hingedData)
  obtain ⟨reps, t, hr, hall, htag, hkeep, -, hwarn⟩ := Local.global_result hadj hside h
  obtain ⟨reps', hr', -, -, -, hleast⟩ := Global.representatives_least (tags := Mix.tag hingedData) hadj
  have hrr : reps' = reps := by
    have := hr'.symm.trans hr
    simpa using this
  subst hrr
  have unk : ∀ i < 16, Mix.tag hingedData i = .unknown → (4 ≤ i ∧ i < 8) ∨ 12 ≤ i := by decide
  have h4 : 4 ∈ reps' := by
    obtain ⟨r, hr, hle, -⟩ := hleast 4 (show 4 < 16 by decide) (by decide)
    rcases unk r (hall r hr).2.2 (hall r hr).2.1 with h | h
    · obtain rfl : r = 4 := by omega
      exact hr
    · omega
  have only : ∀ r ∈ reps', r = 4 := by
    intro r hr'
    by_contra hne
    have hlt : r < 16 := (hall r hr').2.2
    have h4r : 4 < r := by
      rcases unk r hlt (hall r hr').2.1 with h | h <;> omega
    obtain ⟨Q, q4, qr, hQ⟩ := Global.representatives_apart hadj.lt hr h4 hr' h4r
    have go : ∀ f g, f ≠ g → 4 ≤ f → touches hingedFaces f g = true → Q f → Q g := fun f g hne hf ht hq => hQ f hf hq g (nb2 f g hne (shares_touches.2 ht))
    have q5 := go 4 5 (by decide) (by decide) (by decide) q4
    have q6 := go 4 6 (by decide) (by decide) (by decide) q4
    have q7 := go 4 7 (by decide) (by decide) (by decide) q4
    have q10 := go 6 10 (by decide) (by decide) (by decide) q6
    have q8 := go 10 8 (by decide) (by decide) (by decide) q10
    have q14 := go 8 14 (by decide) (by decide) (by decide) q8
    have q15 := go 8 15 (by decide) (by decide) (by decide) q8
    have q12 := go 14 12 (by decide) (by decide) (by decide) q14
    have q13 := go 14 13 (by decide) (by decide) (by decide) q14
    have : r = 5 ∨ r = 6 ∨ r = 7 ∨ r = 12 ∨ r = 13 ∨ r = 14 ∨ r = 15 := by
      rcases unk r hlt (hall r hr').2.1 with h | h <;> omega
    rcases this with rfl | rfl | rfl | rfl | rfl | rfl | rfl <;> contradiction
  have reach : ∀ g, Spec.Reach (Global.R (Mix.env hingedFaces m [] (Mix.owner hingedData)).nbr) (Mix.tag hingedData) 4 g → 4 ≤ g ∧ g < 8 := by
    intro g hg
    induction hg with
    | seed => omega
    | @step f g hf hn h0 ih =>
      have hlt : g < 16 := hadj.lt f g hn
      have key : ∀ f < 8, 4 ≤ f → ∀ g < 16, touches hingedFaces f g = true → g < 12 := by decide
      have := key f ih.2 ih.1 g hlt (shares_touches.1 (nb1 f g hn))
      rcases unk g hlt h0 with h | h <;> omega
  have out : ∀ g, ¬ (4 ≤ g ∧ g < 8) → tags g = Mix.tag hingedData g := fun g hg => hkeep g fun r hr hre => by
    rw [only r hr] at hre
    exact hg (reach g hre)
  refine ⟨out, (hwarn false).2 ⟨4, h4, rfl, 6, 10, ?_, ?_, ?_⟩⟩
  · exact .step .seed (nb2 4 6 (by decide) (shares_touches.2 (by decide))) (by decide)
  · exact nb2 6 10 (by decide) (shares_touches.2 (by decide))
  · rw [out 10 (by omega)]
    have := hside 4 (t 4) (hall 4 h4).1
    intro he
    rw [← he] at this
    revert this
    decide

theorem hinged_corners (new : List P3) : HasCorners (hingedPoints ++ new) hingedFaces hingedTris := by
  simp [HasCorners, hingedPoints, hingedFaces, hingedTris, low, mid, top, Space.tetra]

theorem hinged_side {m0 : Soup P3 (MixedData Unit)} : ∀ r t, Mix.sideTag E' midRegion.boundary chainRegion.boundary m0.faces (Mix.pts m0.points) (Mix.owner m0.data) r = some t → t = .exterior ∨ t = .interior := by
  intro r t h
  unfold Mix.sideTag at h
  split at h
  · cases h
  · split at h <;> simp at h <;> simp [← h]

/-- In every execution, the faces of the upper tetrahedron are left without a tag, and there is a warning. -/
theorem hinged_built (hE : E.Valid hinged) {bb : Builder P3 Unit} {w : Global.Warnings} (h : Mix.Built E' (Gives E) midRegion chainRegion bb w) :
    w &&& Global.flag false ≠ .none ∧ HasCorners bb.m.points bb.m.faces hingedTris ∧ bb.m.data.length = bb.m.faces.length ∧ ∀ i, ¬ (4 ≤ i ∧ i < 8) → bb.m.data[i]? = hingedData[i]? := by
  unfold Mix.Built at h
  rw [if_neg (by decide)] at h
  obtain ⟨m0, border, hm0, ⟨m, edges, tags1, tags2, w1, w2, hm, hedges, hloc, hglob, hout, rfl⟩, -⟩ := h
  obtain ⟨rfl, new, rfl⟩ := hinged_gives hE hm0
  cases (show ok [] = ok edges from hedges)
  obtain rfl := no_edges hloc
  obtain ⟨h1, h2⟩ := hinged_global hm (hinged_side (m0 := ⟨hingedPoints ++ new, hingedFaces, hingedData⟩)) hglob
  rw [hout]
  refine ⟨?_, hinged_corners new, ?_, ?_⟩
  · intro h
    refine h2 ?_
    unfold Global.Warnings.or at h
    rw [BitVec.and_or_distrib_right] at h
    exact (BitVec.or_eq_zero_iff.1 h).2
  · rw [retag_length]; rfl
  · intro i hi
    have := h1 i hi
    rw [retag_get]
    unfold Mix.tag at this
    cases hd : hingedData[i]? with
    | none => rfl
    | some d =>
      rw [hd] at this
      simp only [Option.map_some, Option.getD_some] at this
      simp [this]

/-- Faces without a tag are not in any result. -/
theorem outTris_tagged {ts : List (Tri P3)} {data : List (MixedData D)} {op : Op} {pf : Bool} {p : Tri P3} (h : p ∈ outTris ts data op pf) :
    ∃ (i : Nat) (t : Tri P3) (d : MixedData D), ts[i]? = some t ∧ data[i]? = some d ∧ d.tag ≠ .unknown ∧ (p = t ∨ p = t.flip) := by
  unfold outTris at h
  rw [List.mem_filterMap] at h
  obtain ⟨⟨t, d⟩, hmem, h⟩ := h
  obtain ⟨i, hi⟩ := List.getElem?_of_mem hmem
  rw [List.getElem?_zip_eq_some] at hi
  rw [Option.map_eq_some_iff] at h
  obtain ⟨inv, hs, rfl⟩ := h
  refine ⟨i, t, d, hi.1, hi.2, ?_, ?_⟩
  · intro hu
    simp only [hu] at hs
    revert hs
    cases op <;> cases pf <;> cases d.fromLeft <;> decide +revert
  · cases inv <;> simp

/-- The union lacks the upper tetrahedron. -/
theorem hinged_union (hE : E.Valid hinged) {bb : Builder P3 Unit} {w : Global.Warnings} (h : Mix.Built E' (Gives E) midRegion chainRegion bb w) (pf : Bool) :
    ∃ r, bb.run .union pf = ok r ∧ ∀ ts, HasCorners r.boundary.points r.boundary.faces ts → ∀ x, Surface ts x → x.y + x.z ≤ 4 := by
  obtain ⟨-, hc, hlen, hdat⟩ := hinged_built hE h
  obtain ⟨s, hs, hsc, -, -⟩ := extract_corners hc hlen .union pf
  have hne : s.faces.length ≠ 0 := by
    rw [List.Forall₂.length_eq hsc]
    intro h0
    rw [List.length_eq_zero_iff, List.eq_nil_iff_forall_not_mem] at h0
    have hz : ∀ i t d, hingedTris[i]? = some t → bb.m.data[i]? = some d → (t, d) ∈ hingedTris.zip bb.m.data := fun i t d h1 h2 => List.mem_of_getElem? (i := i) (by rw [List.getElem?_zip_eq_some]; exact ⟨h1, h2⟩)
    cases pf
    · have e : bb.m.data[8]? = some ⟨false, .coplanar, ()⟩ := hdat 8 (by omega)
      exact h0 _ (List.mem_filterMap.2 ⟨_, hz 8 _ _ (by rfl) e, by rfl⟩)
    · have e : bb.m.data[0]? = some ⟨true, .coplanar, ()⟩ := hdat 0 (by omega)
      exact h0 _ (List.mem_filterMap.2 ⟨_, hz 0 _ _ (by rfl) e, by rfl⟩)
  refine ⟨⟨.boundaryDefined, s⟩, ?_, ?_⟩
  · unfold Builder.run
    rw [hs, ok_bind, if_pos hne]
    unfold Region.ofSoup
    rw [if_neg hne]
  · intro ts hts x hx
    rw [hasCorners_unique hts hsc] at hx
    obtain ⟨p, hp, hin⟩ := hx
    obtain ⟨i, t, d, ht, hd, htag, hpt⟩ := outTris_tagged hp
    have hi : i < 12 := by
      by_contra hi
      rw [hdat i (by omega)] at hd
      have hlt := (List.getElem?_eq_some_iff.1 hd).1
      have key : ∀ i < 16, 12 ≤ i → (hingedData[i]?.map (·.tag)) = some .unknown := by decide
      have := key i hlt (by omega)
      rw [hd] at this
      simp only [Option.map_some, Option.some.injEq] at this
      exact htag this
    have hin' : In t x := by
      rcases hpt with rfl | rfl
      · exact hin
      · exact in_match (.inr (.inl (by cases t; rfl))) hin
    have hmem : t ∈ mid ++ low ++ mid := by
      have : hingedTris = (mid ++ low ++ mid) ++ top := by simp [hingedTris]
      rw [this, List.getElem?_append_left (by simpa [mid, low, Space.tetra] using hi)] at ht
      exact List.mem_of_getElem? ht
    rcases List.mem_append.1 hmem with hmem | hmem
    · rcases List.mem_append.1 hmem with hmem | hmem
      · have := mid_surface ⟨t, hmem, hin'⟩; linarith
      · have := low_surface ⟨t, hmem, hin'⟩; linarith
    · have := mid_surface ⟨t, hmem, hin'⟩; linarith

theorem hinged_circle : NoFourOnCircle hinged := conforming_circle (by
  have sub : ∀ t ∈ hinged true ++ hinged false, t ∈ chain := by
    intro t ht
    rcases List.mem_append.1 ht with ht | ht
    · exact List.mem_append_right _ (List.mem_append_left _ ht)
    · exact ht
  exact ⟨fun t ht => chain_complex.proper t (sub t ht), fun t ht u hu => chain_complex.meet t (sub t ht) u (sub u hu)⟩)

/-- There is an execution. -/
theorem hinged_exists (hE : E.Valid hinged) (hE' : E'.Valid hinged) : ∃ bb w, Mix.Built E' (Gives E) midRegion chainRegion bb w := by
  obtain ⟨m0, border, hm0⟩ := C78_mixed hinged_operands hE
  have hg := hinged_gives hE hm0
  obtain ⟨rfl, new, rfl⟩ := hg
  obtain ⟨m, hm⟩ := Mesh.finalized_exists hingedFaces
  obtain ⟨tags, w, hr⟩ := C26_global_finishes hm hinged_proper [] (Mix.owner hingedData) (hinged_side (E' := E') (m0 := ⟨hingedPoints ++ new, hingedFaces, hingedData⟩)) (tags0 := Mix.tag hingedData) (by
    intro r hr hu
    have hfr : hingedFaces[r]? = some hingedFaces[r] := List.getElem?_eq_getElem hr
    have hown : ∀ r < 16, Mix.tag hingedData r = .unknown → Mix.owner hingedData r = false := by decide
    have ho := hown r hr hu
    have hoff : ¬ Surface (hinged (!Mix.owner hingedData r)) (middle (tri (Mix.pts (hingedPoints ++ new)) hingedFaces[r])) := by
      rw [ho]
      have ht := corner_tri (hinged_corners new) hfr
      have key : ∀ r < 16, Mix.tag hingedData r = .unknown → ∀ t ∈ hingedTris[r]?, (middle t).y < 0 ∨ 4 < (middle t).y + (middle t).z ∨ (middle t).z < 0 := by decide +kernel
      intro hs
      have hs' := mid_surface hs
      have := key r hr hu _ ht
      rcases this with h | h | h <;> linarith
    intro hnone
    have := (sideTag_none (orig := hinged) (χ := both (Within mid) chainInside) (a := midRegion) (b := chainRegion) mid_is chain_is rfl rfl hE' hfr hoff).1 hnone
    rw [ho] at this hoff
    obtain ⟨t, ht, hv⟩ := convex_visible (by simp [mid, Space.tetra]) mid_is.complex mid_is.once mid_is.bounds (within_convexSet (tetra_convex mid_det)) _ hoff
    exact visible_not_tied mid_is.complex mid_is.once hoff ht hv (this t ht))
  refine ⟨⟨.boundaryDefined, .boundaryDefined, ⟨hingedPoints ++ new, hingedFaces, Mix.retag tags 0 hingedData⟩⟩, Global.Warnings.or .none w, ?_⟩
  unfold Mix.Built
  rw [if_neg (by decide)]
  exact ⟨_, _, hm0, ⟨m, [], _, _, .none, w, hm, rfl, ⟨_, fun _ => .none, [], .init, rfl, by simp, by simp, rfl⟩, hr, rfl, rfl⟩, rfl, rfl⟩

/-- **Boolean operations of solids that are not manifold where faces coincide may be wrong.** There are two solids, a tetrahedron and the same tetrahedron with two others hinged to it at opposite edges, for which Boolean operations return, and in
every execution, whatever the threads do and whatever CGAL returns as long as it is right, the union lacks one of the tetrahedra; a warning is given. -/
theorem C80_full_claim_false : ∃ (a b : Region P3 Unit) (orig : Bool → List (Tri P3)) (χ : Bool → P3 → Prop), IsSolid a (orig true) (χ true) ∧ IsSolid b (orig false) (χ false) ∧ NoFourOnCircle orig ∧ (∃ E : Env, E.Valid orig) ∧
    (∃ E' : Mix.Env, E'.Valid orig) ∧ ∀ E : Env, E.Valid orig → ∀ E' : Mix.Env, E'.Valid orig → (∃ bb w, Mix.Built E' (Gives E) a b bb w) ∧
      ∀ bb w, Mix.Built E' (Gives E) a b bb w → w &&& Global.flag false ≠ .none ∧ ∀ pf, ∃ r, bb.run .union pf = ok r ∧
        ¬ Denotes r (fun x => x ∈ onSets .union {x | χ true x} {x | χ false x}) (fun x => Surface (orig true) x ∨ Surface (orig false) x) := by
  refine ⟨midRegion, chainRegion, hinged, both (Within mid) chainInside, mid_is, chain_is, hinged_circle, ⟨_, C74_consistent _⟩, ⟨_, C70_consistent ?_⟩, ?_⟩
  · intro c
    cases c
    exacts [chain_complex.proper, mid_is.complex.proper]
  intro E hE E' hE'
  refine ⟨hinged_exists hE hE', fun bb w h => ⟨(hinged_built hE h).1, fun pf => ?_⟩⟩
  obtain ⟨r, hr, hsurf⟩ := hinged_union hE h pf
  refine ⟨r, hr, ?_⟩
  rintro ⟨ts, χ', hsol, -, heq⟩
  have hin : Within top ⟨0, 3, 3⟩ := by unfold Within; decide +kernel
  have off : ∀ x : P3, (Within top x ∨ 8 < x.y + x.z) → ¬ (Surface (hinged true) x ∨ Surface (hinged false) x) := by
    intro x hx hs
    have hs' : Surface chain x := by
      rcases hs with hs | hs
      · exact surface_append.2 (.inr (surface_append.2 (.inl hs)))
      · exact hs
    rcases surface_append.1 hs' with hs | hs
    · have := low_surface hs
      rcases hx with hx | hx
      · have := top_within hx; linarith
      · linarith
    · rcases surface_append.1 hs with hs | hs
      · have := mid_surface hs
        rcases hx with hx | hx
        · have := top_within hx; linarith
        · linarith
      · rcases hx with hx | hx
        · obtain ⟨t, ht, hxt⟩ := hs
          have := hx t ht
          rw [((tetra_convex top_det t ht x).1 hxt).1] at this
          exact absurd this (lt_irrefl _)
        · have := top_surface hs; linarith
  have e1 := heq ⟨0, 3, 3⟩ (off _ (.inl hin))
  have e2 := heq ⟨0, 9, 9⟩ (off _ (.inr (by norm_num)))
  have e3 := hsol.bounds.const ⟨0, 3, 3⟩ ⟨0, 9, 9⟩ (by
    rintro z ⟨s, r, one, s0, r0, rfl⟩ hz
    have := hsurf ts hsol.corners _ hz
    simp only at this
    nlinarith)
  have in1 : (⟨0, 3, 3⟩ : P3) ∈ onSets .union {x | both (Within mid) chainInside true x} {x | both (Within mid) chainInside false x} := .inr (.inr (.inr hin))
  have out1 : (⟨0, 9, 9⟩ : P3) ∉ onSets .union {x | both (Within mid) chainInside true x} {x | both (Within mid) chainInside false x} := by
    rintro (h | h | h | h)
    · have := mid_within h; norm_num at this
    · have := low_within h; norm_num at this
    · have := mid_within h; norm_num at this
    · have := top_closed (closed_of_within h); norm_num at this
  exact out1 (e2.1 (e3.1 (e1.2 in1)))

/-- If the operands are manifold where faces coincide, the results are right, and there are no warnings. -/
theorem C80_boolean_partial (ha : IsSolid a (orig true) (χ true)) (hb : IsSolid b (orig false) (χ false)) (hE : E.Valid orig) (hg : NoFourOnCircle orig) (hman : ManifoldWhereCoinciding orig) (hE' : E'.Valid orig) {bb : Builder P3 D}
    {w : Global.Warnings} (h : Mix.Built E' (Gives E) a b bb w) (op : Op) (pf : Bool) :
    w = .none ∧ ∃ r, bb.run op pf = ok r ∧ Denotes r (fun x => x ∈ onSets op {x | χ true x} {x | χ false x}) (fun x => Surface (orig true) x ∨ Surface (orig false) x) :=
  C73_boolean ha hb hE hg hman hE' h op pf

end Kigumi.Props

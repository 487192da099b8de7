import Verif.Props.Exchange
import Verif.Proofs.Spill

/-! # C115: operands that need no cutting -/
namespace Kigumi.Props
open Kigumi Outcome Geo Spec.Triangles Spec.Side FaceFace Space
open Kigumi.Spec (SameTri HasCorners operandTris RegionInv select truth onSets)
open Kigumi.Corefine (Env Gives GivesBy Operands both)
open Kigumi.Cutting (Cuts Laid)
variable {D : Type} {ord : Tri P3 → P3 → P3 → Prop} {E : Env} {E' : Mix.Env} {orig : Bool → List (Tri P3)} {χ : Bool → P3 → Prop} {a b c : Region P3 D} {bb : Builder P3 D} {w : Global.Warnings} {op : Op} {pf : Bool} {p t u : Tri P3} {d : D}

section
variable {s : Bool → Soup P3 D} {m : Soup P3 (MixedData D)} {ts : List (Tri P3)} {cut : Bool → Tri P3 → List (Tri P3)}

theorem whole_piece (hW : Complex (orig true ++ orig false)) (h : Cuts orig cut) {x : Bool} (ht : t ∈ orig x) : ∃ p ∈ cut x t, SameTri p t := by
  obtain ⟨p, hp, -⟩ := (h.tri x t ht).cover _ (Side.in_a t)
  exact ⟨p, hp, Cutting.conforming_piece hW h ht hp⟩

theorem whole_there (hW : Complex (orig true ++ orig false)) (h : Made ord orig s m ts cut) (x : Bool) : ∀ p ∈ operandTris ts m.data x, ∃ t ∈ orig x, SameTri p t := by
  intro p hp
  rw [h.tris, List.mem_flatMap] at hp
  obtain ⟨t, ht, hp⟩ := hp
  exact ⟨t, ht, Cutting.conforming_piece hW h.cuts ht hp⟩

theorem whole_back (hW : Complex (orig true ++ orig false)) (h : Made ord orig s m ts cut) (x : Bool) : ∀ t ∈ orig x, ∃ p ∈ operandTris ts m.data x, SameTri t p := by
  intro t ht
  obtain ⟨p, hp, hs⟩ := whole_piece hW h.cuts ht
  exact ⟨p, by rw [h.tris, List.mem_flatMap]; exact ⟨t, ht, hp⟩, sameTri_symm hs⟩

/-- Every face of the operands is among the mixed faces, with its data. -/
theorem whole_has (hW : Complex (orig true ++ orig false)) (h : Made ord orig s m ts cut) {x : Bool} {j : Nat} (ht : (orig x)[j]? = some t) (hd : (s x).data[j]? = some d) :
    ∃ (k : Nat) (p : Tri P3) (md : MixedData D), ts[k]? = some p ∧ m.data[k]? = some md ∧ SameTri p t ∧ md.fromLeft = x ∧ md.data = d := by
  have htm := List.mem_of_getElem? ht
  obtain ⟨r, hr, hs⟩ := whole_piece hW h.cuts htm
  have hmem : r ∈ operandTris ts m.data x := by rw [h.tris, List.mem_flatMap]; exact ⟨t, htm, hr⟩
  obtain ⟨k, md, h1, h2, h3⟩ := Cutting.mem_operand.1 hmem
  refine ⟨k, r, md, h1, h2, hs, h3, ?_⟩
  obtain ⟨j', t', ht', hpt', hj'⟩ := h.from_ k r md h1 h2
  rw [h3] at ht' hpt' hj'
  obtain rfl := Cutting.pieces_apart h.cuts htm (List.mem_of_getElem? ht') hr hpt' (match_refl _)
  rw [← once_index (h.cuts.once _) ht ht', hd] at hj'
  exact (Option.some.inj hj').symm

end

theorem hasFace_index {s : Soup P3 D} {us : List (Tri P3)} (h : HasCorners s.points s.faces us) (hf : HasFace s t d) : ∃ j : Nat, us[j]? = some t ∧ s.data[j]? = some d := by
  obtain ⟨i, f, hf, h1, h2, h3, h4⟩ := hf
  obtain ⟨p0, hp0, e1, e2, e3⟩ := forall2_get h hf
  obtain rfl : p0 = t := by
    rw [h1] at e1; rw [h2] at e2; rw [h3] at e3
    cases t; cases p0; cases e1; cases e2; cases e3; rfl
  exact ⟨i, hp0, h4⟩

theorem not_trivial {r : Region P3 D} (h : r.kind = .boundaryDefined) : r.isEmptyOrFull = false := by simp [Region.isEmptyOrFull, Region.isEmpty, Region.isFull, h]

/-- **Operands that need no cutting.** If faces of the two solids meet only in common vertices, edges or faces, the result has exactly the faces that its operator selects among those of the operands, as they are or inverted, with their data: `g` says where a face is with respect to the other solid. -/
theorem C115_faces (ha : IsSolid a (orig true) (χ true)) (hb : IsSolid b (orig false) (χ false)) (hka : a.kind = .boundaryDefined) (hkb : b.kind = .boundaryDefined) (hE : E.Valid orig) (hW : Complex (orig true ++ orig false)) (hman : ManifoldWhereCoinciding orig) (hE' : E'.Valid orig)
    (h : Mix.Built E' (Gives E) a b bb w) (op : Op) (pf : Bool) : ∃ c, bb.run op pf = ok c ∧
      (∀ p d, HasFace c.boundary p d → ∃ x t g inv, HasFace (both a b x).boundary t d ∧ RightTag t (orig (!x)) (χ (!x)) g ∧ select op pf x g = some inv ∧ SameTri p (if inv then t.flip else t)) ∧
      ∀ x t d g inv, HasFace (both a b x).boundary t d → RightTag t (orig (!x)) (χ (!x)) g → select op pf x g = some inv → ∃ p, HasFace c.boundary p d ∧ SameTri p (if inv then t.flip else t) := by
  have hset : Cutting.Settled (fun _ _ _ => False) orig := Cutting.settled_noFour (conforming_circle hW)
  replace h : Mix.Built E' (GivesBy (fun _ _ _ => False) E) a b bb w := Corefine.gives_eq ▸ h
  obtain ⟨-, c, hr, -⟩ := boolean_by ha hb hE hset hman hE' h op pf
  obtain ⟨ts, cut, m, hcx, htag⟩ := built_made ha hb hE hset hman hE' h (by rw [not_trivial hka, not_trivial hkb]; decide)
  have hcor : ∀ x, HasCorners (both a b x).boundary.points (both a b x).boundary.faces (orig x) := by
    intro x
    cases x
    exacts [hb.corners, ha.corners]
  have hbo : ∀ x, both a.boundary b.boundary x = (both a b x).boundary := by intro x; cases x <;> rfl
  have tag_of : ∀ {i : Nat} {q : Tri P3} {md : MixedData D}, ts[i]? = some q → bb.m.data[i]? = some md → RightTag q (operandTris ts bb.m.data (!md.fromLeft)) (χ (!md.fromLeft)) md.tag := by
    intro i q md h1 h2
    have hm : (q, md) ∈ ts.zip bb.m.data := List.mem_of_getElem? (List.getElem?_zip_eq_some.2 ⟨h1, h2⟩)
    exact htag _ hm
  refine ⟨c, hr, fun p d hf => ?_, fun x t d g inv hf hg hsel => ?_⟩
  · obtain ⟨k, q, md, inv, hq, hmd, rfl, hsel, rfl⟩ := run_faces m.corners m.data hr hf
    obtain ⟨j, t, ht, hqt, hj⟩ := m.from_ k q md hq hmd
    have hs := Cutting.conforming_piece hW m.cuts (List.mem_of_getElem? ht) hqt
    rw [hbo] at hj
    refine ⟨md.fromLeft, t, md.tag, inv, hasFace_of (hcor _) ht hj, right_congr hs (whole_there hW m _) (whole_back hW m _) (tag_of hq hmd), hsel, ?_⟩
    cases inv
    exacts [hs, sameTri_flip hs]
  · obtain ⟨j, ht, hj⟩ := hasFace_index (hcor x) hf
    rw [← hbo] at hj
    obtain ⟨k, q, md, hq, hmd, hs, rfl, rfl⟩ := whole_has hW m ht hj
    have et : md.tag = g := right_unique (hcx.proper q (List.mem_of_getElem? hq)) (m.once _) (tag_of hq hmd) (right_congr (sameTri_symm hs) (whole_back hW m _) (whole_there hW m _) hg)
    refine ⟨_, run_has m.corners m.data hr hq hmd (by rw [et]; exact hsel), ?_⟩
    cases inv
    exacts [hs, sameTri_flip hs]

/-! ## A solid with itself -/

theorem complex_twice {ts : List (Tri P3)} (h : Complex ts) : Complex (ts ++ ts) := by
  have e : ∀ {t}, t ∈ ts ++ ts → t ∈ ts := fun h => by simpa using h
  exact ⟨fun t ht => h.proper t (e ht), fun t ht u hu => h.meet t (e ht) u (e hu)⟩

theorem onSets_same (htt : truth op true true = true) (hff : truth op false false = false) (A : Set P3) : onSets op A A = A := by
  classical
  ext x
  rw [← C01_truth_is_set_operation op A A x (decide (x ∈ A)) (decide (x ∈ A)) (by simp) (by simp)]
  by_cases hx : x ∈ A <;> simp [hx, htt, hff]

theorem onSets_constant {v : Bool} (htt : truth op true true = v) (hff : truth op false false = v) (A : Set P3) : onSets op A A = {_x | v = true} := by
  classical
  ext x
  rw [← C01_truth_is_set_operation op A A x (decide (x ∈ A)) (decide (x ∈ A)) (by simp) (by simp)]
  by_cases hx : x ∈ A <;> simp [hx, htt, hff]

theorem constant_is (v : Bool) : IsSolid (fullOrEmpty v : Region P3 D) [] (fun _ => v = true) where
  inv := by cases v <;> rfl
  wf := by cases v <;> exact ⟨rfl, by simp [fullOrEmpty, Region.fullRegion, Region.emptyRegion, Soup.empty]⟩
  corners := by cases v <;> exact .nil
  complex := ⟨fun t ht => by simp at ht, fun t ht => by simp at ht⟩
  once := fun _ _ _ _ h => by simp at h
  bounds := ⟨fun _ _ _ => Iff.rfl, fun _ _ _ h => by simp at h⟩
  kind := by cases v <;> simp [fullOrEmpty, Region.fullRegion, Region.emptyRegion, KindSays]

/-- **The union and the intersection of a solid with itself** are the solid: the result has the same kind and the same faces, with the same data. So for all operators that give the set itself. -/
theorem C115_idempotent {ts : List (Tri P3)} {ψ : P3 → Prop} (ha : IsSolid a ts ψ) (hE : E.Valid fun _ => ts) (hman : TwoAtEdges ts) (hE' : E'.Valid fun _ => ts) (h : Mix.Built E' (Gives E) a a bb w) (htt : truth op true true = true) (hff : truth op false false = false) (pf : Bool) :
    ∃ c, bb.run op pf = ok c ∧ c.kind = a.kind ∧ SameFaces c.boundary a.boundary := by
  have hW := complex_twice ha.complex
  have hman' : ManifoldWhereCoinciding fun _ => ts := fun _ t ht _ => hman t ht
  have hg : NoFourOnCircle fun _ => ts := conforming_circle hW
  obtain ⟨-, c, hr, hden⟩ := C73_boolean (orig := fun _ => ts) (χ := fun _ => ψ) ha ha hE hg hman' hE' h op pf
  simp only [onSets_same htt hff, or_self] at hden
  have hk : c.kind = a.kind := by
    obtain ⟨k1, k2, -⟩ := C97_same (C97_regularizes hden ha.complex.proper fun _ hx => hx) (C97_regularizes ⟨ts, ψ, ha, fun _ hx => hx, fun _ _ => Iff.rfl⟩ ha.complex.proper fun _ hx => hx) fun _ => Iff.rfl
    simp only [Region.isEmpty, Region.isFull] at k1 k2
    cases e : c.kind <;> cases e' : a.kind <;> simp_all
  refine ⟨c, hr, hk, ?_⟩
  obtain ⟨rs, ψ', hc, -⟩ := hden
  by_cases hka : a.kind = .boundaryDefined
  · have hsel : select op pf pf .coplanar = some false := by simp [select, Spec.sides, htt, hff]
    have hself : ∀ {t}, t ∈ ts → RightTag t ts ψ .coplanar := fun ht => ⟨_, ht, .inl rfl⟩
    obtain ⟨c', hr', h1, h2⟩ := C115_faces (orig := fun _ => ts) (χ := fun _ => ψ) ha ha hka hka hE hW hman' hE' h op pf
    rw [hr] at hr'
    cases hr'
    have t1 : ∀ p d, HasFace c.boundary p d → ∃ p', HasFace a.boundary p' d ∧ SameTri p p' := by
      intro p d hf
      obtain ⟨x, t, g, inv, k1, k2, k3, k4⟩ := h1 p d hf
      have k1 : HasFace a.boundary t d := by cases x <;> exact k1
      obtain ⟨j, hj, -⟩ := hasFace_index ha.corners k1
      have ht := List.mem_of_getElem? hj
      obtain rfl : g = .coplanar := right_unique (ha.complex.proper t ht) ha.once k2 (hself ht)
      have hx : x = pf := by
        by_contra hne
        simp [select, hne] at k3
      rw [hx, hsel] at k3
      cases k3
      exact ⟨t, k1, k4⟩
    have t2 : ∀ p d, HasFace a.boundary p d → ∃ p', HasFace c.boundary p' d ∧ SameTri p p' := by
      intro p d hf
      obtain ⟨j, hj, -⟩ := hasFace_index ha.corners hf
      obtain ⟨q, k1, k2⟩ := h2 pf p d .coplanar false (by cases pf <;> exact hf) (hself (List.mem_of_getElem? hj)) hsel
      exact ⟨q, k1, sameTri_symm k2⟩
    exact ⟨t1, t2, le_antisymm (faces_le hc ha t1) (faces_le ha hc t2)⟩
  · have key : ∀ {r : Region P3 D} {us φ}, IsSolid r us φ → r.kind = a.kind → r.boundary = Soup.empty := by
      intro r us φ hs he
      refine trivial_boundary hs ?_
      cases e : a.kind
      · simp [Region.isEmptyOrFull, Region.isEmpty, he, e]
      · simp [Region.isEmptyOrFull, Region.isFull, he, e]
      · exact absurd e hka
    rw [key hc hk, key ha rfl]
    exact ⟨fun p d hf => ⟨p, hf, .inl rfl⟩, fun p d hf => ⟨p, hf, .inl rfl⟩, rfl⟩

/-- **The difference and the symmetric difference of a solid and itself** are empty. So for all operators that give the empty set; others give the whole space. -/
theorem C115_constant {ts : List (Tri P3)} {ψ : P3 → Prop} (ha : IsSolid a ts ψ) (hE : E.Valid fun _ => ts) (hman : TwoAtEdges ts) (hE' : E'.Valid fun _ => ts) (h : Mix.Built E' (Gives E) a a bb w) {v : Bool} (htt : truth op true true = v) (hff : truth op false false = v) (pf : Bool) :
    bb.run op pf = ok (if v then Region.fullRegion else Region.emptyRegion) := by
  obtain ⟨-, c, hr, hden⟩ := C73_boolean (orig := fun _ => ts) (χ := fun _ => ψ) ha ha hE (conforming_circle (complex_twice ha.complex)) (fun _ t ht _ => hman t ht) hE' h op pf
  simp only [onSets_constant htt hff, or_self] at hden
  have hk : c.kind = (fullOrEmpty v : Region P3 D).kind := by
    obtain ⟨k1, k2, -⟩ := C97_same (C97_regularizes hden ha.complex.proper fun _ hx => hx) (C97_regularizes (S := Surface []) ⟨[], _, constant_is (D := D) v, fun _ hx => hx, fun _ _ => Iff.rfl⟩ (W := []) (fun t ht => by simp at ht) fun _ hx => hx) fun _ => Iff.rfl
    simp only [Region.isEmpty, Region.isFull] at k1 k2
    cases e : c.kind <;> cases e' : (fullOrEmpty v : Region P3 D).kind <;> simp_all
  obtain ⟨rs, ψ', hc, -⟩ := hden
  have hb : c.boundary = Soup.empty := trivial_boundary hc (by cases v <;> simp [Region.isEmptyOrFull, Region.isEmpty, Region.isFull, hk, fullOrEmpty, Region.fullRegion, Region.emptyRegion])
  rw [hr]
  congr 1
  cases c
  simp only at hk hb
  subst hk hb
  cases v <;> rfl

/-! ## Examples -/

theorem lower_manifold (x : Bool) : TwoAtEdges (doubleOrig x) := by
  unfold TwoAtEdges TwoAtEdge
  cases x
  · simp only [doubleOrig, lower_eq, Bool.false_eq_true, if_false]
    decide +kernel
  · simp only [doubleOrig, lower_eq, if_true]
    decide +kernel

/-- The union of two tetrahedra with a common face: a face of the upper one that the lower one does not have, and whose inner points are not in the lower one, is a face of the union. -/
example {E : Env} {E' : Mix.Env} (hE : E.Valid doubleOrig) (hE' : E'.Valid doubleOrig) {bb : Builder P3 Unit} {w : Global.Warnings} (h : Mix.Built E' (Gives E) (doubleSolid true) (doubleSolid false) bb w) :
    ∃ c, bb.run .union true = ok c ∧ ∀ t d, HasFace (doubleSolid true).boundary t d → (∀ u ∈ doubleOrig false, ¬ Match t u) → (∀ x, Inner t x → ¬ doubleSets false x) → ∃ p, HasFace c.boundary p d ∧ SameTri p t := by
  obtain ⟨c, hr, -, hf⟩ := C115_faces (χ := doubleSets) (doubleSolid_is true) (doubleSolid_is false) rfl rfl hE double_complex double_manifold hE' h .union true
  exact ⟨c, hr, fun t d ht h1 h2 => hf true t d .exterior false ht ⟨h1, h2⟩ (by decide)⟩

/-- A tetrahedron with itself: the union is the tetrahedron, the difference is empty. -/
example {E : Env} {E' : Mix.Env} (hE : E.Valid fun _ => doubleOrig true) (hE' : E'.Valid fun _ => doubleOrig true) {bb : Builder P3 Unit} {w : Global.Warnings} (h : Mix.Built E' (Gives E) (doubleSolid true) (doubleSolid true) bb w) :
    (∃ c, bb.run .union true = ok c ∧ c.kind = .boundaryDefined ∧ SameFaces c.boundary (doubleSolid true).boundary) ∧ bb.run .difference true = ok Region.emptyRegion :=
  ⟨C115_idempotent (doubleSolid_is true) hE (lower_manifold true) hE' h (by decide) (by decide) true, C115_constant (v := false) (doubleSolid_is true) hE (lower_manifold true) hE' h (by decide) (by decide) true⟩

end Kigumi.Props

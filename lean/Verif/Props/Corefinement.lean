import Verif.Proofs.Executions
import Verif.Props.Solid

/-! # C73, C74: the corefinement of two operands -/
namespace Kigumi.Props
open Kigumi Outcome Geo Spec.Triangles Spec.Side Space
open Kigumi.Spec (SameTri HasCorners operandTris truth onSets RegionInv)
open Kigumi.Corefine (Env Gives construct Operands Cdt State mixedFaces intersectingEdges both exactEnv exactEnv_valid)
variable {D : Type} {op : Bool → List (Tri P3)} {s : Bool → Soup P3 D} {E : Env}

/-! ## C74: the constructor -/

/-- **The constructor never throws.** For operands whose triangles have nothing in common but vertices and edges, whatever the threads do: no outcome is an exception or undefined behaviour, and there is one.
In particular no operand without self-intersections is reported to have some. -/
theorem C74_never_throws (h : Operands op s) (hE : E.Valid op) : (∃ o, construct E (s true) (s false) o) ∧ ∀ o, construct E (s true) (s false) o → ∃ st, o = ok st :=
  ⟨Corefine.construct_exists _, fun _ ho => let ⟨st, e, _⟩ := Corefine.construct_ok h hE ho; ⟨st, e⟩⟩

/-- Neither does collecting the faces and the edges of the intersection, whatever the triangulations consist of. -/
theorem C74_collected (h : Operands op s) (hE : E.Valid op) {st : State} (hst : construct E (s true) (s false) (ok st)) (finite : Cdt → List (Tri Nat)) :
    (∃ fs ds, mixedFaces finite (s true).faces (s false).faces st.leftMap st.rightMap st.leftIds st.rightIds st.leftTags st.rightTags (s true).data (s false).data = ok (fs, ds)) ∧
      ∃ edges, intersectingEdges st.infos [] = ok edges := by
  obtain ⟨st', e, hc⟩ := Corefine.construct_ok h hE hst
  cases e
  exact Corefine.mixed_ok h hc finite

/-- **What CGAL is given.** Whatever the threads do: the triangulation of a face gets exactly the extreme points of what the face has in common with faces of the other operand, and exactly the segments that join them, faces that
coincide with one of the other operand aside; its vertices are different points of the face, and constraints do not cross. Faces without a triangulation have nothing in common with such faces. -/
theorem C74_triangulations (h : Operands op s) (hE : E.Valid op) {st : State} (hst : construct E (s true) (s false) (ok st)) (b : Bool) (fi : Nat) (t : Tri P3) (ht : (op b)[fi]? = some t) :
    (both st.leftMap st.rightMap b fi = none ∧ ∀ x, ¬ CutVertex op b t x) ∨
    ∃ c, both st.leftMap st.rightMap b fi = some (some c) ∧ c.Expected st.points t ∧
      (∀ x, (∃ id ∈ c.vertexIds, st.points[id]? = some x) ↔ CutVertex op b t x ∨ x ∈ t.toList) ∧
      ∀ x y, c.Constraint st.points x y ∨ c.Constraint st.points y x ↔ CutSegment op b t x y := by
  obtain ⟨st', e, hc⟩ := Corefine.construct_ok h hE hst
  cases e
  have hb : Corefine.Built op s st.points st.infos b (both st.leftMap st.rightMap b) := by
    cases b
    · exact hc.right
    · exact hc.left
  by_cases hx : ∃ x ∈ st.infos, Corefine.keyOf b x = fi
  · right
    obtain ⟨t', f, c, ht', -, e, hent⟩ := hb.some fi hx
    rw [ht] at ht'; cases ht'
    obtain ⟨k1, k2, k3⟩ := hent.expected.corners
    refine ⟨c, e, hent.expected, fun x => ?_, fun x y => ⟨?_, hent.complete x y⟩⟩
    · rw [← hent.vertices x]
      unfold Cdt.vertexIds
      simp only [List.mem_cons, Tri.toList, List.not_mem_nil, or_false]
      constructor
      · rintro ⟨id, rfl | rfl | rfl | hid, e⟩
        · rw [k1] at e; cases e; exact .inr (.inl rfl)
        · rw [k2] at e; cases e; exact .inr (.inr (.inl rfl))
        · rw [k3] at e; cases e; exact .inr (.inr (.inr rfl))
        · exact .inl ⟨id, hid, e⟩
      · rintro (⟨id, hid, e⟩ | rfl | rfl | rfl)
        · exact ⟨id, .inr (.inr (.inr hid)), e⟩
        · exact ⟨_, .inl rfl, k1⟩
        · exact ⟨_, .inr (.inl rfl), k2⟩
        · exact ⟨_, .inr (.inr (.inl rfl)), k3⟩
    · rintro (h | h)
      · exact hent.sound x y h
      · obtain ⟨h0, u, hu, h1, hj⟩ := hent.sound y x h
        exact ⟨h0, u, hu, h1, Corefine.joined_swap hj⟩
  · left
    refine ⟨hb.none fi hx, ?_⟩
    rintro x ⟨h0, u, hu, h1, hxu⟩
    obtain ⟨j, hj⟩ := List.getElem?_of_mem hu
    obtain ⟨y, hy, e, -⟩ := Corefine.record_complete hc.points ht hj h0 h1 hxu.1.1 hxu.1.2
    exact hx ⟨y, hy, e⟩

/-- What is assumed of the environment can be had. -/
theorem C74_consistent (op : Bool → List (Tri P3)) : (exactEnv op).Valid op := exactEnv_valid op

/-! ## C73: the mixed faces -/

/-- **The corefinement.** Whatever the threads do and whatever constrained Delaunay triangulations CGAL gives: the mixed faces are pieces of the faces of the operands, which cover them and meet only in common vertices and edges, with
the edges of the intersection as border. No four of the corners that two faces have in common may be on a circle, and where faces coincide, operands have to be manifold. -/
theorem C73_corefined (h : Operands op s) (hE : E.Valid op) (hg : NoFourOnCircle op) (hman : ManifoldWhereCoinciding op) {m : Soup P3 (MixedData D)} {border : List (Nat × Nat)} (hm : Gives E (s true) (s false) m border) :
    ∃ ts, Corefined op m ts border :=
  Corefine.gives_corefined h hE (Cutting.settled_noFour hg) hman (Corefine.gives_eq ▸ hm)

theorem solid_operands {a b : Region P3 D} {orig : Bool → List (Tri P3)} {χ : Bool → P3 → Prop} (ha : IsSolid a (orig true) (χ true)) (hb : IsSolid b (orig false) (χ false)) : Operands orig (both a.boundary b.boundary) where
  corners c := by cases c; exacts [hb.corners, ha.corners]
  complex c := by cases c; exacts [hb.complex, ha.complex]
  once c := by cases c; exacts [hb.once, ha.once]
  data c := by cases c; exacts [hb.wf.1, ha.wf.1]

/-- **Boolean operations, from the operands to the result.** The operands are the sets `χ true` and `χ false`. Whatever the threads do and whatever constrained Delaunay triangulations CGAL gives, if the constructor of the builder returns, no
operation throws, and its result is a region with a proper boundary, contained in the two given surfaces, which is the result of the operation on the two sets, apart from points of these surfaces. -/
theorem C73_boolean {orig : Bool → List (Tri P3)} {χ : Bool → P3 → Prop} {a b : Region P3 D} (ha : IsSolid a (orig true) (χ true)) (hb : IsSolid b (orig false) (χ false)) (hE : E.Valid orig) (hg : NoFourOnCircle orig)
    (hman : ManifoldWhereCoinciding orig) {E' : Mix.Env} (hE' : E'.Valid orig) {bb : Builder P3 D} {w : Global.Warnings} (h : Mix.Built E' (Gives E) a b bb w) (op : Op) (pf : Bool) :
    w = .none ∧ ∃ r, bb.run op pf = ok r ∧ Denotes r (fun x => x ∈ onSets op {x | χ true x} {x | χ false x}) (fun x => Surface (orig true) x ∨ Surface (orig false) x) :=
  C70_boolean (fun _ _ _ _ hm => C73_corefined (s := both a.boundary b.boundary) (solid_operands ha hb) hE hg hman hm) ha hb hE' h op pf

/-- The side of points with respect to the result. -/
theorem C73_side {orig : Bool → List (Tri P3)} {χ : Bool → P3 → Prop} {a b : Region P3 D} (ha : IsSolid a (orig true) (χ true)) (hb : IsSolid b (orig false) (χ false)) (hE : E.Valid orig) (hg : NoFourOnCircle orig)
    (hman : ManifoldWhereCoinciding orig) {E' : Mix.Env} (hE' : E'.Valid orig) {bb : Builder P3 D} {w : Global.Warnings} (h : Mix.Built E' (Gives E) a b bb w) {op : Op} {pf : Bool} {r : Region P3 D} (hr : bb.run op pf = ok r) :
    ∃ ts, HasCorners r.boundary.points r.boundary.faces ts ∧ ∀ F : Side.Env, F.Valid ts → ∀ p, ¬ Surface (orig true) p → ¬ Surface (orig false) p →
      ∀ s, Side.boundedSide F r p = ok s → (s = .bounded ↔ p ∈ onSets op {x | χ true x} {x | χ false x}) ∧ (s = .unbounded ↔ p ∉ onSets op {x | χ true x} {x | χ false x}) :=
  C70_side (fun _ _ _ _ hm => C73_corefined (s := both a.boundary b.boundary) (solid_operands ha hb) hE hg hman hm) ha hb hE' h hr

/-- Operands that already meet only in common vertices and edges: there are mixed faces. -/
theorem C73_conforming (h : Operands op s) (hE : E.Valid op) (hW : Complex (op true ++ op false)) : ∃ m border, Gives E (s true) (s false) m border :=
  Corefine.gives_exists h hE fun _ _ _ _ _ _ ht hent => ⟨_, Corefine.conforming_correct hW ht hent⟩

theorem conforming_circle (hW : Complex (op true ++ op false)) : NoFourOnCircle op := by
  intro t ht u hu o w x y z hw hx hy hz _ _ _
  have key : ∀ {x}, Extreme (Common t u) x → x = t.a ∨ x = t.b ∨ x = t.c := by
    intro x hx
    have := Cutting.ext_corner (Cutting.ext_face (Cutting.complex_face hW (List.mem_append_left _ ht) (List.mem_append_right _ hu)) (Cutting.extreme_iff.1 hx))
    simpa [Tri.toList] using this
  rcases key hw with rfl | rfl | rfl <;> rcases key hx with rfl | rfl | rfl <;> rcases key hy with rfl | rfl | rfl <;> rcases key hz with rfl | rfl | rfl <;> simp

/-! ## Two tetrahedra with a common face -/

theorem double_operands : Operands doubleOrig (both (doubleSolid true).boundary (doubleSolid false).boundary) := solid_operands (χ := doubleSets) (doubleSolid_is true) (doubleSolid_is false)

example : ∃ m border, Gives (exactEnv doubleOrig) (doubleSolid true).boundary (doubleSolid false).boundary m border :=
  C73_conforming double_operands (C74_consistent _) double_complex

theorem double_manifold : ManifoldWhereCoinciding doubleOrig := by
  suffices h : ∀ b, ∀ t ∈ doubleOrig b, ∀ c ∈ t.toList, ∀ d ∈ t.toList, c ≠ d → TwoAtEdge (doubleOrig b) c d from fun b t ht _ => h b t ht
  unfold TwoAtEdge
  intro b
  cases b
  · simp only [doubleOrig, lower_eq, Bool.false_eq_true, if_false]
    decide +kernel
  · simp only [doubleOrig, if_true]
    decide +kernel

/-- The union of the two tetrahedra, from the operands to the result. -/
example {bb : Builder P3 Unit} {w : Global.Warnings} (h : Mix.Built (someEnv doubleOrig) (Gives (exactEnv doubleOrig)) (doubleSolid true) (doubleSolid false) bb w) :
    w = .none ∧ ∃ r, bb.run .union false = ok r ∧ Denotes r (fun x => x ∈ onSets .union {x | Side.tetraInside x} {x | lowerInside x}) (fun x => Surface Side.tetraFaces x ∨ Surface lowerFaces x) :=
  C73_boolean (χ := doubleSets) (doubleSolid_is true) (doubleSolid_is false) (C74_consistent _) (conforming_circle double_complex) double_manifold (C70_consistent fun b => (double_complexes b).proper) h .union false

end Kigumi.Props

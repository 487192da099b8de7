import Verif.Props.Expressions
import Verif.Proofs.Regular

/-! # C97: results are regularized -/
namespace Kigumi.Props
open Kigumi Outcome Geo Spec.Triangles Spec.Side FaceFace Space Spec.Regular
open Kigumi.Spec (SameTri HasCorners operandTris truth onSets RegionInv Expr)
open Kigumi.Corefine (Env Gives construct Operands both)
variable {D : Type} {E : Env} {E' : Mix.Env} {orig : Bool → List (Tri P3)} {χ : Bool → P3 → Prop} {a b : Region P3 D}

/-- The region is the set `A` with its interior taken first, followed by its closure: its boundary is the border of this set, `is_empty` and `is_full` are right, and all answers of `bounded_side` are, for every point of space. -/
def Regularizes (r : Region P3 D) (A : P3 → Prop) : Prop :=
  ∃ ts, HasCorners r.boundary.points r.boundary.faces ts ∧ (∀ x, Surface ts x ↔ Border (Regular A) x) ∧ (r.isEmpty = true ↔ ∀ x, ¬ Regular A x) ∧ (r.isFull = true ↔ ∀ x, Inside (Regular A) x) ∧
    ∀ F : Side.Env, F.Valid ts → ∀ p s, Side.boundedSide F r p = ok s →
      (s = .bounded ↔ Inside (Regular A) p) ∧ (s = .unbounded ↔ ¬ Regular A p) ∧ (s = .boundary ↔ Border (Regular A) p)

/-- **What a region that denotes a set is.** The set has to be known off finitely many triangles only. -/
theorem C97_regularizes {r : Region P3 D} {A S : P3 → Prop} (h : Denotes r A S) {W : List (Tri P3)} (hW : ∀ t ∈ W, Proper t) (hS : ∀ x, S x → Surface W x) : Regularizes r A := by
  obtain ⟨ts, χ', hs, hsub, hag⟩ := h
  have hok : ∀ t ∈ W, Side.Ok t := fun t ht => Side.ok_of_proper (hW t ht)
  have hsub' : ∀ x, Surface ts x → Surface W x := fun x hx => hS x (hsub x hx)
  have hag' : ∀ x, ¬ Surface W x → (χ' x ↔ A x) := fun x hx => hag x fun k => hx (hS x k)
  have hR := Regular.regular_iff hs.complex hs.once hs.bounds hok hsub' hag'
  have hI := Regular.inside_iff hs.complex hs.once hs.bounds hok hsub' hag'
  have hB := Regular.border_iff hs.complex hs.once hs.bounds hok hsub' hag'
  have hinv := hs.inv
  have hk := hs.kind
  unfold RegionInv at hinv
  have hnil : r.boundary = Soup.empty → ts = [] := by
    intro e
    have hc := hs.corners
    rw [e] at hc
    cases hc
    rfl
  have hcorner : ts ≠ [] → ∃ x, Surface ts x := by
    intro hne
    obtain ⟨t, ht⟩ := List.exists_mem_of_ne_nil ts hne
    exact ⟨t.a, t, ht, Side.in_a t⟩
  refine ⟨ts, hs.corners, fun x => (hB x).symm, ?_, ?_, fun F hF p s hside => ?_⟩
  · simp only [hR, not_or]
    cases hkind : r.kind <;> rw [hkind] at hinv hk <;> simp only [Region.isEmpty, hkind]
    · have e := hnil hinv
      subst e
      exact ⟨fun _ x => ⟨hk x, by simp [Surface]⟩, fun _ => by decide⟩
    · exact ⟨fun k => absurd k (by decide), fun k => absurd (hk ⟨0, 0, 0⟩) (k _).1⟩
    · obtain ⟨x, hx⟩ := hcorner hk
      exact ⟨fun k => absurd k (by decide), fun k => absurd hx (k x).2⟩
  · simp only [hI]
    cases hkind : r.kind <;> rw [hkind] at hinv hk <;> simp only [Region.isFull, hkind]
    · exact ⟨fun k => absurd k (by decide), fun k => absurd (k ⟨0, 0, 0⟩).1 (hk _)⟩
    · have e := hnil hinv
      subst e
      exact ⟨fun _ x => ⟨hk x, by simp [Surface]⟩, fun _ => by decide⟩
    · obtain ⟨x, hx⟩ := hcorner hk
      exact ⟨fun k => absurd k (by decide), fun k => absurd hx (k x).2⟩
  · rw [hR, hI, hB]
    cases hkind : r.kind <;> rw [hkind] at hinv hk
    · have e := hnil hinv
      subst e
      rw [(C12_empty_full p).1 hkind] at hside
      cases hside
      simp [hk p, Surface]
    · have e := hnil hinv
      subst e
      rw [(C12_empty_full p).2 hkind] at hside
      cases hside
      simp [hk p, Surface]
    · have hth := thin_of_complex hs.complex hs.once
      have hwb : WithBoundary r ts := ⟨hkind, hinv, hs.corners⟩
      have hbd := C11_boundary_iff_partial hwb hF hs.complex.proper hs.bounds hth hside
      by_cases hp : Surface ts p
      · obtain rfl := hbd.2 hp
        simp [hp]
      · obtain ⟨h1, h2⟩ := C12_side hwb hF hs.complex.proper hs.bounds hth hp hside
        rw [h1, h2, hbd]
        simp [hp]

theorem onSets_congr {X : Type} {op : Op} {A A' B B' : Set X} {x : X} (ha : x ∈ A ↔ x ∈ A') (hb : x ∈ B ↔ x ∈ B') : x ∈ onSets op A B ↔ x ∈ onSets op A' B' := by
  cases op <;> simp [onSets, Set.mem_symmDiff, ha, hb]

theorem surface_append {l l' : List (Tri P3)} {x : P3} : Surface (l ++ l') x ↔ Surface l x ∨ Surface l' x := by
  simp only [Surface, List.mem_append, or_and_right, exists_or]

/-- Sets that differ on the surfaces only. -/
theorem denotes_any {r : Region P3 D} {op : Op} {X Y : P3 → Prop} (h : Denotes r (fun x => x ∈ onSets op {x | χ true x} {x | χ false x}) (fun x => Surface (orig true) x ∨ Surface (orig false) x))
    (hX : ∀ x, ¬ Surface (orig true) x → (X x ↔ χ true x)) (hY : ∀ x, ¬ Surface (orig false) x → (Y x ↔ χ false x)) :
    Denotes r (fun x => x ∈ onSets op {x | X x} {x | Y x}) (fun x => Surface (orig true) x ∨ Surface (orig false) x) := by
  obtain ⟨ts, χ', hs, hsub, hag⟩ := h
  refine ⟨ts, χ', hs, hsub, fun x hx => ?_⟩
  rw [not_or] at hx
  rw [hag x (by tauto)]
  exact (onSets_congr (hX x hx.1) (hY x hx.2)).symm

/-- **Results of Boolean operations are regularized.** The operands are the sets `χ true` and `χ false`; points of their surfaces may or may not be counted among their points (`X` and `Y`). Under the conditions of `C73_boolean`, the result of every
operator is the closure of the interior of the result of the operation on the two sets: for every point of space, points of the surfaces of the operands included. -/
theorem C97_boolean (ha : IsSolid a (orig true) (χ true)) (hb : IsSolid b (orig false) (χ false)) (hE : E.Valid orig) (hg : NoFourOnCircle orig)
    (hman : ManifoldWhereCoinciding orig) (hE' : E'.Valid orig) {bb : Builder P3 D} {w : Global.Warnings} (h : Mix.Built E' (Gives E) a b bb w) (op : Op) (pf : Bool)
    {X Y : P3 → Prop} (hX : ∀ x, ¬ Surface (orig true) x → (X x ↔ χ true x)) (hY : ∀ x, ¬ Surface (orig false) x → (Y x ↔ χ false x)) :
    ∃ r, bb.run op pf = ok r ∧ Regularizes r (fun x => x ∈ onSets op {x | X x} {x | Y x}) := by
  obtain ⟨-, r, hr, hd⟩ := C73_boolean ha hb hE hg hman hE' h op pf
  refine ⟨r, hr, C97_regularizes (denotes_any hd hX hY) (W := orig true ++ orig false) ?_ fun x => surface_append.2⟩
  intro t ht
  rcases List.mem_append.1 ht with ht | ht
  exacts [ha.complex.proper t ht, hb.complex.proper t ht]

/-- The operands themselves are regularized sets. -/
theorem C97_operand {r : Region P3 D} {ts : List (Tri P3)} {χ : P3 → Prop} (h : IsSolid r ts χ) : Regularizes r χ :=
  C97_regularizes (S := Surface ts) ⟨ts, χ, h, fun _ hx => hx, fun _ _ => Iff.rfl⟩ h.complex.proper fun _ hx => hx

/-- So are results of expressions of any depth: it makes no difference whether intermediate results are regularized. -/
theorem C97_expression {reg : Nat → Region P3 D} {tris : Nat → List (Tri P3)} {χ : Nat → P3 → Prop} {e : Expr} (h : Separate reg tris χ e.leaves) {r : Region P3 D} (he : Evaluates reg e r) :
    Regularizes r fun x => x ∈ e.value fun i => {x | χ i x} := by
  refine C97_regularizes (C85_expression h he) (W := e.leaves.flatMap tris) ?_ ?_
  · intro t ht
    obtain ⟨i, hi, ht⟩ := List.mem_flatMap.1 ht
    exact (h.solid i hi).complex.proper t ht
  · rintro x ⟨i, hi, t, ht, hx⟩
    exact ⟨t, List.mem_flatMap.2 ⟨i, hi, ht⟩, hx⟩

/-- **Regions with the same set give the same answers**, however they were computed: two regions that are sets with the same regularization have the same kind, their boundaries consist of the same points, and no point has different sides. -/
theorem C97_same {r r' : Region P3 D} {A A' : P3 → Prop} (h : Regularizes r A) (h' : Regularizes r' A') (hA : ∀ x, Regular A x ↔ Regular A' x) :
    r.isEmpty = r'.isEmpty ∧ r.isFull = r'.isFull ∧ ∃ ts ts', HasCorners r.boundary.points r.boundary.faces ts ∧ HasCorners r'.boundary.points r'.boundary.faces ts' ∧ (∀ x, Surface ts x ↔ Surface ts' x) ∧
      ∀ F F' : Side.Env, F.Valid ts → F'.Valid ts' → ∀ p s s', Side.boundedSide F r p = ok s → Side.boundedSide F' r' p = ok s' → s = s' := by
  obtain rfl' : Regular A = Regular A' := funext fun x => propext (hA x)
  obtain ⟨ts, c, b, e, f, s⟩ := h
  obtain ⟨ts', c', b', e', f', s'⟩ := h'
  rw [rfl'] at b e f s
  refine ⟨Bool.eq_iff_iff.2 (e.trans e'.symm), Bool.eq_iff_iff.2 (f.trans f'.symm), ts, ts', c, c', fun x => (b x).trans (b' x).symm, fun F F' hF hF' p q q' hq hq' => ?_⟩
  obtain ⟨k1, k2, k3⟩ := s F hF p q hq
  obtain ⟨l1, l2, l3⟩ := s' F' hF' p q' hq'
  cases q
  · exact (l2.2 (k2.1 rfl)).symm
  · exact (l3.2 (k3.1 rfl)).symm
  · exact (l1.2 (k1.1 rfl)).symm

/-! ## Two tetrahedra with a common face -/

/-- The two tetrahedra, with their surfaces. -/
def doubleClosed (c : Bool) (x : P3) : Prop := doubleSets c x ∨ Surface (doubleOrig c) x

theorem double_regular {bb : Builder P3 Unit} {w : Global.Warnings} (h : Mix.Built (someEnv doubleOrig) (Gives (Corefine.exactEnv doubleOrig)) (doubleSolid true) (doubleSolid false) bb w) (op : Op) (pf : Bool) {X Y : P3 → Prop}
    (hX : ∀ x, ¬ Surface (doubleOrig true) x → (X x ↔ doubleSets true x)) (hY : ∀ x, ¬ Surface (doubleOrig false) x → (Y x ↔ doubleSets false x)) :
    ∃ r, bb.run op pf = ok r ∧ Regularizes r (fun x => x ∈ onSets op {x | X x} {x | Y x}) :=
  C97_boolean (χ := doubleSets) (doubleSolid_is true) (doubleSolid_is false) (C74_consistent _) (conforming_circle double_complex) double_manifold (C70_consistent fun b => (double_complexes b).proper) h op pf hX hY

/-- With their surfaces, the tetrahedra have a triangle in common. … -/
example : (⟨1 / 4, 1 / 4, 0⟩ : P3) ∈ onSets .intersection {x | doubleClosed true x} {x | doubleClosed false x} := by
  refine ⟨.inr ?_, .inr ?_⟩
  · refine ⟨⟨⟨0, 0, 0⟩, ⟨0, 1, 0⟩, ⟨1, 0, 0⟩⟩, by decide +kernel, 1 / 2, 1 / 4, 1 / 4, ?_⟩
    norm_num [combo]
  · refine ⟨⟨⟨0, 0, 0⟩, ⟨1, 0, 0⟩, ⟨0, 1, 0⟩⟩, by simp only [doubleOrig, lower_eq]; decide +kernel, 1 / 2, 1 / 4, 1 / 4, ?_⟩
    norm_num [combo]

/-- … The intersection is regularized: it is empty. -/
example {bb : Builder P3 Unit} {w : Global.Warnings} (h : Mix.Built (someEnv doubleOrig) (Gives (Corefine.exactEnv doubleOrig)) (doubleSolid true) (doubleSolid false) bb w) :
    ∃ r, bb.run .intersection false = ok r ∧ r.isEmpty = true := by
  obtain ⟨r, hr, ts, -, -, he, -⟩ := double_regular h .intersection false (X := doubleSets true) (Y := doubleSets false) (fun _ _ => Iff.rfl) (fun _ _ => Iff.rfl)
  refine ⟨r, hr, he.2 fun x hx => ?_⟩
  obtain ⟨y, -, e, e0, hy⟩ := hx 1 one_pos
  obtain ⟨h1, h2⟩ := hy y (Side.near_refl e0.le y)
  simp only [Set.mem_ofPred_eq, doubleSets, if_true, Bool.false_eq_true, if_false, Side.tetraInside, lowerInside, mirror] at h1 h2
  linarith [h1.2.2.1, h2.2.2.1]

/-- Without their surfaces, the tetrahedra do not contain the points of the common face, but the union is regularized: these points are inside. -/
example {bb : Builder P3 Unit} {w : Global.Warnings} (h : Mix.Built (someEnv doubleOrig) (Gives (Corefine.exactEnv doubleOrig)) (doubleSolid true) (doubleSolid false) bb w) :
    (⟨1 / 4, 1 / 4, 0⟩ : P3) ∉ onSets .union {x | doubleSets true x} {x | doubleSets false x} ∧
    ∃ r ts, bb.run .union false = ok r ∧ HasCorners r.boundary.points r.boundary.faces ts ∧ ∀ F : Side.Env, F.Valid ts → ∀ s, Side.boundedSide F r ⟨1 / 4, 1 / 4, 0⟩ = ok s → s = .bounded := by
  constructor
  · simp [onSets, Op.union, doubleSets, Side.tetraInside, lowerInside, mirror]
  obtain ⟨r, hr, ts, hc, -, -, -, hall⟩ := double_regular h .union false (X := doubleSets true) (Y := doubleSets false) (fun _ _ => Iff.rfl) (fun _ _ => Iff.rfl)
  refine ⟨r, ts, hr, hc, fun F hF s hs => (hall F hF _ s hs).1.2 ⟨1 / 16, by norm_num, fun y hy e he => ?_⟩⟩
  obtain ⟨y1, y2, y3, y4, y5, y6⟩ := hy
  have d0 : 0 < min e (1 / 16) := lt_min he (by norm_num)
  have d1 : min e (1 / 16) ≤ e := min_le_left _ _
  have d2 : min e (1 / 16) ≤ 1 / 16 := min_le_right _ _
  generalize min e (1 / 16) = d at *
  simp only [sub_zero] at y5 y6
  rcases le_total 0 y.z with hz | hz
  · refine ⟨⟨y.x, y.y, y.z + d⟩, ?_, d / 2, half_pos d0, fun z hz' => .inl ?_⟩
    · simp only [Near]
      refine ⟨?_, ?_, ?_, ?_, ?_, ?_⟩ <;> linarith
    · obtain ⟨z1, z2, z3, z4, z5, z6⟩ := hz'
      simp only at z1 z2 z3 z4 z5 z6
      show Side.tetraInside z
      refine ⟨?_, ?_, ?_, ?_⟩ <;> linarith
  · refine ⟨⟨y.x, y.y, y.z - d⟩, ?_, d / 2, half_pos d0, fun z hz' => .inr ?_⟩
    · simp only [Near]
      refine ⟨?_, ?_, ?_, ?_, ?_, ?_⟩ <;> linarith
    · obtain ⟨z1, z2, z3, z4, z5, z6⟩ := hz'
      simp only at z1 z2 z3 z4 z5 z6
      show Side.tetraInside (mirror z)
      simp only [Side.tetraInside, mirror]
      refine ⟨?_, ?_, ?_, ?_⟩ <;> linarith

end Kigumi.Props

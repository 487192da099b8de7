import Verif.Proofs.Complete
import Verif.Props.Existence
import Verif.Props.SideReturns

/-! # C76, C77: the classification of the faces returns -/
namespace Kigumi.TagProg
open Kigumi Global
open Kigumi.Flood (set_same set_other)

theorem exec_noFail {c0 c : Cfg} (h0 : ∀ i, NoFail (c0.prog i)) (h : Exec c0 c) : ∀ i, NoFail (c.prog i) := by
  induction h with
  | init => exact h0
  | @step c c' i _ st ih =>
    intro j
    cases st with
    | @read f k hk =>
      by_cases hj : j = i
      · subst hj
        have := ih j
        rw [hk] at this
        simp only [set_same]
        exact this _
      · simp only [set_other _ _ hj]; exact ih j
    | @write f t k hk =>
      by_cases hj : j = i
      · subst hj
        have := ih j
        rw [hk] at this
        simp only [set_same]
        exact this
      · simp only [set_other _ _ hj]; exact ih j

end Kigumi.TagProg

namespace Kigumi.Props
open Kigumi Outcome Geo Spec.Triangles Spec.Side Space
open Kigumi.Spec (SameTri HasCorners operandTris truth onSets RegionInv)
open Kigumi.Corefine (Env Gives GivesBy construct Operands both)
variable {D : Type} {E : Env} {E' : Mix.Env} {orig : Bool → List (Tri P3)} {χ : Bool → P3 → Prop} {a b : Region P3 D} {m0 : Soup P3 (MixedData D)} {border : List (Nat × Nat)} {ord : Tri P3 → P3 → P3 → Prop}

theorem solid_both (ha : IsSolid a (orig true) (χ true)) (hb : IsSolid b (orig false) (χ false)) (c : Bool) : IsSolid (both a b c) (orig c) (χ c) := by
  cases c; exacts [hb, ha]

theorem boundary_both (c : Bool) : (both a b c).boundary = both a.boundary b.boundary c := by cases c <;> rfl

theorem centroid_middle (pts : Nat → P3) (f : Tri Nat) : Side.centroid (pts f.a) (pts f.b) (pts f.c) = middle (tri pts f) := rfl

theorem middle_centre (t : Tri P3) : middle t = centre t := centre_eq t.a t.b t.c

theorem side_not_boundary {r : Region P3 D} {ts : List (Tri P3)} {χ : P3 → Prop} (hk : r.kind = .boundaryDefined) (h : IsSolid r ts χ) {F : Side.Env} (hF : F.Valid ts) {p : P3} (hp : ¬ Surface ts p) : Side.sideOf F r.boundary p ≠ ok .boundary := by
  intro hs
  have hne : r.boundary.faces ≠ [] := by have := h.inv; unfold RegionInv at this; rwa [hk] at this
  have hbs : Side.boundedSide F r p = ok .boundary := by rw [boundedSide_eq hk, hs]; rfl
  exact hp ((C11_boundary_iff_partial ⟨hk, hne, h.corners⟩ hF h.complex.proper h.bounds (thin_of_complex h.complex h.once) hbs).1 rfl)

/-! ## However ties in the triangulations are broken -/

theorem never_on_boundary (ha : IsSolid a (orig true) (χ true)) (hb : IsSolid b (orig false) (χ false)) (hka : a.kind = .boundaryDefined) (hkb : b.kind = .boundaryDefined) (hE : E.Valid orig) (hg : Cutting.Settled ord orig)
    (hman : ManifoldWhereCoinciding orig) (hE' : E'.Valid orig) (hm0 : GivesBy ord E a.boundary b.boundary m0 border) {m : Mesh.Mesh} (hm : Mesh.Finalized m0.faces m) {edges : List (List Nat × Option (List Local.Entry))}
    (hedges : Mix.edgeInputs E' m0.faces m (Mix.pts m0.points) border = ok edges) {tags1 : Nat → Tag} {w1 : Global.Warnings}
    (hr : Local.Result (Mix.env m0.faces m border (Mix.owner m0.data)) edges (Mix.tag m0.data) tags1 w1) {i : Nat} {f : Tri Nat} (hf : m0.faces[i]? = some f) (hu : tags1 i = .unknown) :
    ¬ Surface (orig (!Mix.owner m0.data i)) (middle (tri (Mix.pts m0.points) f)) ∧
      Side.sideOf (E'.side (!Mix.owner m0.data i)) (both a.boundary b.boundary (!Mix.owner m0.data i)) (middle (tri (Mix.pts m0.points) f)) ≠ ok .boundary := by
  obtain ⟨cut, ts, h1, h2, h3⟩ := Corefine.gives_laid_by (s := both a.boundary b.boundary) (solid_operands ha hb) hE hm0
  have hbd : ∀ c, Spec.Side.Bounds (orig c) (χ c) := fun c => (solid_both ha hb c).bounds
  have hoff := Cutting.unknown_off h1 (hg _ h1 h3) hman h2 zone_whole (fun _ => within_whole _) (clear_whole _ _ _ _) (fun c => (hbd c).whole) hE' hm hedges hr hf hu
  rw [← middle_centre] at hoff
  refine ⟨hoff, ?_⟩
  rw [← boundary_both]
  refine side_not_boundary ?_ (solid_both ha hb _) (hE'.side _) hoff
  cases Mix.owner m0.data i <;> assumption

/-- If the tag of a face off the surface of the other operand cannot be determined, all rays are tied. -/
theorem sideTag_none (ha : IsSolid a (orig true) (χ true)) (hb : IsSolid b (orig false) (χ false)) (hka : a.kind = .boundaryDefined) (hkb : b.kind = .boundaryDefined) (hE' : E'.Valid orig) {fs : List (Tri Nat)} {pts : Nat → P3} {owner : Nat → Bool}
    {i : Nat} {f : Tri Nat} (hf : fs[i]? = some f) (hoff : ¬ Surface (orig (!owner i)) (middle (tri pts f))) :
    Mix.sideTag E' a.boundary b.boundary fs pts owner i = none ↔ ∀ t ∈ orig (!owner i), Tied (orig (!owner i)) (middle (tri pts f)) (middle t) := by
  have hk : (both a b (!owner i)).kind = .boundaryDefined := by cases owner i <;> assumption
  have hsol := solid_both ha hb (!owner i)
  have hne : (both a b (!owner i)).boundary.faces ≠ [] := by have := hsol.inv; unfold RegionInv at this; rwa [hk] at this
  have hsel : (if owner i = true then b.boundary else a.boundary) = (both a b (!owner i)).boundary := by cases owner i <;> rfl
  have hthrow := C75_throws_iff hk hsol (hE'.side _) hoff
  unfold Mix.sideTag
  rw [hf]
  simp only [centroid_middle, hsel]
  have hnb := side_not_boundary hk hsol (hE'.side _) hoff
  cases hs : Side.sideOf (E'.side (!owner i)) (both a b (!owner i)).boundary (middle (tri pts f)) with
  | ok s =>
    have hno : ¬ ∀ t ∈ orig (!owner i), Tied (orig (!owner i)) (middle (tri pts f)) (middle t) := fun hall => by
      have := (boundedSide_exn hk).1 ((hthrow _).2 ⟨rfl, hall⟩)
      rw [hs] at this; cases this
    cases s with
    | boundary => exact absurd hs hnb
    | positive => simp only [reduceCtorEq, false_iff]; exact hno
    | negative => simp only [reduceCtorEq, false_iff]; exact hno
  | exn w =>
    simp only [true_iff]
    exact ((hthrow w).1 ((boundedSide_exn hk).2 hs)).2
  | ub w => exact absurd hs (sideOf_not_ub (hE'.side _) hsol.corners hne _ w)

theorem edges_exist_by (ha : IsSolid a (orig true) (χ true)) (hb : IsSolid b (orig false) (χ false)) (hE : E.Valid orig) (hg : Cutting.Settled ord orig) (hE' : E'.Valid orig)
    (hm0 : GivesBy ord E a.boundary b.boundary m0 border) {m : Mesh.Mesh} (hm : Mesh.Finalized m0.faces m) :
    Spec.Proper m0.faces ∧ ∃ edges, Mix.edgeInputs E' m0.faces m (Mix.pts m0.points) border = ok edges ∧ ∀ x ∈ edges, x.2 ≠ none := by
  obtain ⟨cut, ts, h1, h2, h3⟩ := Corefine.gives_laid_by (s := both a.boundary b.boundary) (solid_operands ha hb) hE hm0
  have hcor := Cutting.laid_cutInto h1 (hg _ h1 h3) h2
  have S := scene_of_cut (cut_of_corefined hcor fun c => (solid_both ha hb c).bounds) hcor.points
  have inc : ∀ v, (∃ f ∈ m0.faces, v ∈ f.toList) → ∃ i, Spec.Incident m0.faces v i := by
    rintro v ⟨f, hf, hv⟩
    obtain ⟨i, hi⟩ := List.mem_iff_getElem?.1 hf
    exact ⟨i, f, hi, by simpa [Tri.toList] using hv⟩
  exact ⟨fun f hf => S.distinct hf, edgeInputs_exists fun e he => edgeInput_exists S hE' hm (hcor.edges e he) (inc _ (h2.used e he).1) (inc _ (h2.used e he).2)⟩

theorem fails_only_tied (ha : IsSolid a (orig true) (χ true)) (hb : IsSolid b (orig false) (χ false)) (hka : a.kind = .boundaryDefined) (hkb : b.kind = .boundaryDefined) (hE : E.Valid orig) (hg : Cutting.Settled ord orig)
    (hman : ManifoldWhereCoinciding orig) (hE' : E'.Valid orig) (hm0 : GivesBy ord E a.boundary b.boundary m0 border) (h : Mix.Fails E' a.boundary b.boundary m0 border) :
    ∃ i f, m0.faces[i]? = some f ∧ ¬ Surface (orig (!Mix.owner m0.data i)) (middle (tri (Mix.pts m0.points) f)) ∧
      ∀ t ∈ orig (!Mix.owner m0.data i), Tied (orig (!Mix.owner m0.data i)) (middle (tri (Mix.pts m0.points) f)) (middle t) := by
  obtain ⟨m, hm, h⟩ := h
  obtain ⟨hp, edges, he1, he2⟩ := edges_exist_by ha hb hE hg hE' hm0 hm
  have hadj := Local.meshEnv_adj hm hp border (Mix.owner m0.data)
  rcases h with h | ⟨edges', he, h⟩
  · exact absurd he1 (h edges)
  rw [he1] at he; cases he
  rcases h with ⟨c, i, hex, h⟩ | ⟨tags1, w1, hl, h⟩
  · exfalso
    have hnf := TagProg.exec_noFail (by
      intro i
      simp only [Local.start]
      cases hei : edges[i]? with
      | none => trivial
      | some e =>
        obtain ⟨around, sorted⟩ := e
        cases sorted with
        | none => exact absurd rfl (he2 _ (List.mem_of_getElem? hei))
        | some cs => exact Local.body_noFail _ _ _) hex i
    have hnd := (Local.local_result (ok := fun _ _ => True) hadj.lt (by intro _ _ _ _ _; trivial) (by intros; trivial) (fun _ => False) (by intro e _ cs _; exact ⟨_, _, Local.edge_any cs, by simp⟩) hex).2.1 i
    rcases h with h | h
    · rw [h] at hnf; exact hnf
    · exact hnd h
  · obtain ⟨reps, hreps, hr1, -⟩ := Global.representatives_spec (tags := tags1) hadj
    rcases h with h | ⟨reps', hreps', r, hr, hnone⟩
    · rw [show Global.representatives (Mix.env m0.faces m border (Mix.owner m0.data)).nbr tags1 m0.faces.length = some reps from hreps] at h
      cases h
    · rw [show Global.representatives (Mix.env m0.faces m border (Mix.owner m0.data)).nbr tags1 m0.faces.length = some reps from hreps] at hreps'
      cases hreps'
      obtain ⟨hlt, hunk⟩ := hr1 r hr
      have hf := List.getElem?_eq_getElem (show r < m0.faces.length from hlt)
      obtain ⟨hoff, -⟩ := never_on_boundary ha hb hka hkb hE hg hman hE' hm0 hm he1 hl hf hunk
      exact ⟨r, _, hf, hoff, (sideTag_none ha hb hka hkb hE' hf hoff).1 hnone⟩

theorem returns_by (ha : IsSolid a (orig true) (χ true)) (hb : IsSolid b (orig false) (χ false)) (hka : a.kind = .boundaryDefined) (hkb : b.kind = .boundaryDefined) (hE : E.Valid orig) (hg : Cutting.Settled ord orig)
    (hman : ManifoldWhereCoinciding orig) (hE' : E'.Valid orig) (hs : ∀ c, Seen (orig c)) (hm0 : GivesBy ord E a.boundary b.boundary m0 border) :
    ¬ Mix.Fails E' a.boundary b.boundary m0 border ∧ ∃ out w, Mix.Result E' a.boundary b.boundary m0 border out w := by
  have untied : ∀ {i f}, ¬ Surface (orig (!Mix.owner m0.data i)) (middle (tri (Mix.pts m0.points) f)) → ¬ ∀ t ∈ orig (!Mix.owner m0.data i), Tied (orig (!Mix.owner m0.data i)) (middle (tri (Mix.pts m0.points) f)) (middle t) := by
    intro i f hoff hall
    obtain ⟨t, ht, hv⟩ := hs _ _ hoff
    have hsol := solid_both ha hb (!Mix.owner m0.data i)
    exact visible_not_tied hsol.complex hsol.once hoff ht hv (hall t ht)
  constructor
  · intro h
    obtain ⟨i, f, hf, hoff, hall⟩ := fails_only_tied ha hb hka hkb hE hg hman hE' hm0 h
    exact untied hoff hall
  · obtain ⟨m, hm⟩ := Mesh.finalized_exists m0.faces
    obtain ⟨hp, edges, he1, he2⟩ := edges_exist_by ha hb hE hg hE' hm0 hm
    have hadj := Local.meshEnv_adj hm hp border (Mix.owner m0.data)
    obtain ⟨tags1, w1, hl, -⟩ := Local.local_exists (E := Local.meshEnv m0.faces m border (Mix.owner m0.data)) hadj.lt he2 (Mix.tag m0.data)
    obtain ⟨tags2, w2, hgl⟩ := C26_global_finishes hm hp border (Mix.owner m0.data) (side := Mix.sideTag E' a.boundary b.boundary m0.faces (Mix.pts m0.points) (Mix.owner m0.data)) (tags0 := tags1) (by
      intro r t ht
      unfold Mix.sideTag at ht
      split at ht
      · cases ht
      · split at ht
        · cases ht; exact Or.inl rfl
        · cases ht; exact Or.inr rfl
        · cases ht) (fun r hr hunk hnone => by
        have hf := List.getElem?_eq_getElem hr
        obtain ⟨hoff, -⟩ := never_on_boundary ha hb hka hkb hE hg hman hE' hm0 hm he1 hl hf hunk
        exact untied hoff ((sideTag_none ha hb hka hkb hE' hf hoff).1 hnone))
    exact ⟨_, _, m, edges, tags1, tags2, w1, w2, hm, he1, hl, hgl, rfl, rfl⟩

theorem built_by (ha : IsSolid a (orig true) (χ true)) (hb : IsSolid b (orig false) (χ false)) (hE : E.Valid orig) (hg : Cutting.Settled ord orig) (hman : ManifoldWhereCoinciding orig) (hE' : E'.Valid orig)
    (hs : ∀ c, orig c ≠ [] → Seen (orig c)) (hex : ∃ m0 border, GivesBy ord E a.boundary b.boundary m0 border) : ∃ bb w, Mix.Built E' (GivesBy ord E) a b bb w := by
  have hne : ∀ c, (both a b c).kind = .boundaryDefined → orig c ≠ [] := by
    intro c hk
    have hkind := (solid_both ha hb c).kind
    rwa [hk] at hkind
  unfold Mix.Built
  by_cases hef : (a.isEmptyOrFull || b.isEmptyOrFull) = true
  · simp only [hef, if_true]
    obtain ⟨bb, hbb⟩ : ∃ bb, Builder.make (fun _ _ => exn "not called") a b = ok bb := by
      unfold Builder.make
      rw [hef]
      split
      · exact ⟨_, rfl⟩
      · rw [concatMixed_ok ha.wf hb.wf]
        exact ⟨_, rfl⟩
    exact ⟨bb, _, hbb, rfl⟩
  · simp only [hef]
    simp only [Bool.or_eq_true, not_or, Region.isEmptyOrFull] at hef
    have hka : a.kind = .boundaryDefined := by cases h : a.kind <;> simp_all [Region.isEmpty, Region.isFull]
    have hkb : b.kind = .boundaryDefined := by cases h : b.kind <;> simp_all [Region.isEmpty, Region.isFull]
    obtain ⟨m0, border, hm0⟩ := hex
    obtain ⟨out, w, hr⟩ := (returns_by ha hb hka hkb hE hg hman hE' (fun c => hs c (hne c (by cases c <;> assumption))) hm0).2
    exact ⟨⟨a.kind, b.kind, out⟩, w, m0, border, hm0, hr, rfl, rfl⟩

theorem boolean_by (ha : IsSolid a (orig true) (χ true)) (hb : IsSolid b (orig false) (χ false)) (hE : E.Valid orig) (hg : Cutting.Settled ord orig)
    (hman : ManifoldWhereCoinciding orig) (hE' : E'.Valid orig) {bb : Builder P3 D} {w : Global.Warnings} (h : Mix.Built E' (GivesBy ord E) a b bb w) (op : Op) (pf : Bool) :
    w = .none ∧ ∃ r, bb.run op pf = ok r ∧ Denotes r (fun x => x ∈ onSets op {x | χ true x} {x | χ false x}) (fun x => Surface (orig true) x ∨ Surface (orig false) x) :=
  C70_boolean (fun _ _ _ _ hm => Corefine.gives_corefined (s := both a.boundary b.boundary) (solid_operands ha hb) hE hg hman hm) ha hb hE' h op pf

theorem convex_by (ha : IsSolid a (orig true) (χ true)) (hb : IsSolid b (orig false) (χ false)) (hE : E.Valid orig) (hg : Cutting.Settled ord orig) (hman : ManifoldWhereCoinciding orig) (hE' : E'.Valid orig)
    (hc : ∀ c, ConvexSet fun x => χ c x ∨ Surface (orig c) x) (hex : ∃ m0 border, GivesBy ord E a.boundary b.boundary m0 border) :
    (a.kind = .boundaryDefined → b.kind = .boundaryDefined → ∀ m0 border, GivesBy ord E a.boundary b.boundary m0 border → ¬ Mix.Fails E' a.boundary b.boundary m0 border) ∧ (∃ bb w, Mix.Built E' (GivesBy ord E) a b bb w) ∧
    ∀ bb w, Mix.Built E' (GivesBy ord E) a b bb w → ∀ op pf, ∃ r, bb.run op pf = ok r ∧ Denotes r (fun x => x ∈ onSets op {x | χ true x} {x | χ false x}) (fun x => Surface (orig true) x ∨ Surface (orig false) x) := by
  have seen : ∀ c, orig c ≠ [] → Seen (orig c) := by
    intro c hne p hp
    have h := solid_both ha hb c
    exact convex_visible hne h.complex h.once h.bounds (hc c) p hp
  have hne : ∀ c, (both a b c).kind = .boundaryDefined → orig c ≠ [] := by
    intro c hk
    have hkind := (solid_both ha hb c).kind
    rwa [hk] at hkind
  exact ⟨fun hka hkb m0 border hm0 => (returns_by ha hb hka hkb hE hg hman hE' (fun c => seen c (hne c (by cases c <;> assumption))) hm0).1, built_by ha hb hE hg hman hE' seen hex,
    fun bb w h op pf => (boolean_by ha hb hE hg hman hE' h op pf).2⟩

/-! ## With any triangulations -/

/-- **The check of the global classification never fires.** For all solids as operands, whatever the threads do and whatever constrained Delaunay triangulations CGAL gives: when the edges of the intersection have been dealt with, the centroid of
every face without a tag is off the surface of the other operand, so that "local classification must be performed before global classification" is never thrown. -/
theorem C76_never_on_boundary (ha : IsSolid a (orig true) (χ true)) (hb : IsSolid b (orig false) (χ false)) (hka : a.kind = .boundaryDefined) (hkb : b.kind = .boundaryDefined) (hE : E.Valid orig) (hg : NoFourOnCircle orig)
    (hman : ManifoldWhereCoinciding orig) (hE' : E'.Valid orig) (hm0 : Gives E a.boundary b.boundary m0 border) {m : Mesh.Mesh} (hm : Mesh.Finalized m0.faces m) {edges : List (List Nat × Option (List Local.Entry))}
    (hedges : Mix.edgeInputs E' m0.faces m (Mix.pts m0.points) border = ok edges) {tags1 : Nat → Tag} {w1 : Global.Warnings}
    (hr : Local.Result (Mix.env m0.faces m border (Mix.owner m0.data)) edges (Mix.tag m0.data) tags1 w1) {i : Nat} {f : Tri Nat} (hf : m0.faces[i]? = some f) (hu : tags1 i = .unknown) :
    ¬ Surface (orig (!Mix.owner m0.data i)) (middle (tri (Mix.pts m0.points) f)) ∧
      Side.sideOf (E'.side (!Mix.owner m0.data i)) (both a.boundary b.boundary (!Mix.owner m0.data i)) (middle (tri (Mix.pts m0.points) f)) ≠ ok .boundary :=
  never_on_boundary ha hb hka hkb hE (Cutting.settled_noFour hg) hman hE' (Corefine.gives_eq ▸ hm0) hm hedges hr hf hu

theorem edges_exist (ha : IsSolid a (orig true) (χ true)) (hb : IsSolid b (orig false) (χ false)) (hE : E.Valid orig) (hg : NoFourOnCircle orig) (hE' : E'.Valid orig)
    (hm0 : Gives E a.boundary b.boundary m0 border) {m : Mesh.Mesh} (hm : Mesh.Finalized m0.faces m) :
    Spec.Proper m0.faces ∧ ∃ edges, Mix.edgeInputs E' m0.faces m (Mix.pts m0.points) border = ok edges ∧ ∀ x ∈ edges, x.2 ≠ none :=
  edges_exist_by ha hb hE (Cutting.settled_noFour hg) hE' (Corefine.gives_eq ▸ hm0) hm

/-- **When the classification fails.** For all solids as operands, in every execution: the classification neither throws nor goes on forever, unless for some face of one operand, off the surface of the other one, every ray from its centroid
through the centroid of a triangle of the other operand meets two triangles at the same time. -/
theorem C77_fails_only_tied (ha : IsSolid a (orig true) (χ true)) (hb : IsSolid b (orig false) (χ false)) (hka : a.kind = .boundaryDefined) (hkb : b.kind = .boundaryDefined) (hE : E.Valid orig) (hg : NoFourOnCircle orig)
    (hman : ManifoldWhereCoinciding orig) (hE' : E'.Valid orig) (hm0 : Gives E a.boundary b.boundary m0 border) (h : Mix.Fails E' a.boundary b.boundary m0 border) :
    ∃ i f, m0.faces[i]? = some f ∧ ¬ Surface (orig (!Mix.owner m0.data i)) (middle (tri (Mix.pts m0.points) f)) ∧
      ∀ t ∈ orig (!Mix.owner m0.data i), Tied (orig (!Mix.owner m0.data i)) (middle (tri (Mix.pts m0.points) f)) (middle t) :=
  fails_only_tied ha hb hka hkb hE (Cutting.settled_noFour hg) hman hE' (Corefine.gives_eq ▸ hm0) h

/-- **The classification returns** if from every point off the surface of an operand the centroid of some triangle is visible — partial: without this condition it may throw (`C77_full_claim_false`). -/
theorem C77_returns_partial (ha : IsSolid a (orig true) (χ true)) (hb : IsSolid b (orig false) (χ false)) (hka : a.kind = .boundaryDefined) (hkb : b.kind = .boundaryDefined) (hE : E.Valid orig) (hg : NoFourOnCircle orig)
    (hman : ManifoldWhereCoinciding orig) (hE' : E'.Valid orig) (hs : ∀ c, Seen (orig c)) (hm0 : Gives E a.boundary b.boundary m0 border) :
    ¬ Mix.Fails E' a.boundary b.boundary m0 border ∧ ∃ out w, Mix.Result E' a.boundary b.boundary m0 border out w :=
  returns_by ha hb hka hkb hE (Cutting.settled_noFour hg) hman hE' hs (Corefine.gives_eq ▸ hm0)

/-- The constructor of the builder can return under the same condition. -/
theorem C77_built_partial (ha : IsSolid a (orig true) (χ true)) (hb : IsSolid b (orig false) (χ false)) (hE : E.Valid orig) (hg : NoFourOnCircle orig) (hman : ManifoldWhereCoinciding orig) (hE' : E'.Valid orig)
    (hs : ∀ c, orig c ≠ [] → Seen (orig c)) : ∃ bb w, Mix.Built E' (Gives E) a b bb w := by
  rw [Corefine.gives_eq]
  exact built_by ha hb hE (Cutting.settled_noFour hg) hman hE' hs (by rw [← Corefine.gives_eq]; exact C78_mixed (s := both a.boundary b.boundary) (solid_operands ha hb) hE)

/-- **Boolean operations of convex solids return, with the right result.** There is an execution, no execution fails, and each gives the result of the operation on the two sets, whatever constrained Delaunay triangulations CGAL gives. -/
theorem C77_convex (ha : IsSolid a (orig true) (χ true)) (hb : IsSolid b (orig false) (χ false)) (hE : E.Valid orig) (hg : NoFourOnCircle orig) (hman : ManifoldWhereCoinciding orig) (hE' : E'.Valid orig)
    (hc : ∀ c, ConvexSet fun x => χ c x ∨ Surface (orig c) x) :
    (a.kind = .boundaryDefined → b.kind = .boundaryDefined → ∀ m0 border, Gives E a.boundary b.boundary m0 border → ¬ Mix.Fails E' a.boundary b.boundary m0 border) ∧ (∃ bb w, Mix.Built E' (Gives E) a b bb w) ∧
    ∀ bb w, Mix.Built E' (Gives E) a b bb w → ∀ op pf, ∃ r, bb.run op pf = ok r ∧ Denotes r (fun x => x ∈ onSets op {x | χ true x} {x | χ false x}) (fun x => Surface (orig true) x ∨ Surface (orig false) x) := by
  rw [Corefine.gives_eq]
  exact convex_by ha hb hE (Cutting.settled_noFour hg) hman hE' hc (by rw [← Corefine.gives_eq]; exact C78_mixed (s := both a.boundary b.boundary) (solid_operands ha hb) hE)

end Kigumi.Props

import Verif.Props.Progress

/-! # C77: operands for which the classification throws -/
namespace Kigumi.Props
open Kigumi Outcome Geo Spec.Triangles Spec.Side Space
open Kigumi.Spec (SameTri HasCorners operandTris truth onSets RegionInv)
open Kigumi.Corefine (Env Gives construct Operands both)
open Kigumi.Cutting (in_corner)
open Kigumi.FaceFace (det4)
open Kigumi.Side (in_a)
variable {D : Type} {E : Env} {E' : Mix.Env} {orig : Bool → List (Tri P3)} {χ : Bool → P3 → Prop} {a b : Region P3 D} {m0 : Soup P3 (MixedData D)} {border : List (Nat × Nat)}

theorem filter_head {α β : Type} (q : α → Bool) (f : α → β) : ∀ (xs : List α) {y : β} {r : List β}, (xs.filter q).map f = y :: r →
    ∃ (j : Nat) (x : α), xs[j]? = some x ∧ q x = true ∧ f x = y ∧ ∀ i : Nat, i < j → ∀ x', xs[i]? = some x' → q x' = false
  | [], _, _, h => by simp at h
  | x :: xs, y, r, h => by
    by_cases hx : q x = true
    · rw [List.filter_cons_of_pos hx, List.map_cons, List.cons.injEq] at h
      exact ⟨0, x, rfl, hx, h.1, by omega⟩
    · rw [List.filter_cons_of_neg hx] at h
      obtain ⟨j, x', h1, h2, h3, h4⟩ := filter_head q f xs h
      refine ⟨j + 1, x', h1, h2, h3, ?_⟩
      intro i hi x'' hx''
      cases i with
      | zero => simp only [List.getElem?_cons_zero, Option.some.injEq] at hx''; subst hx''; simpa using hx
      | succ i => exact h4 i (by omega) x'' hx''

theorem match_middle {t u : Tri P3} (h : Match t u) : middle t = middle u := by
  obtain ⟨a, b, c⟩ := u
  unfold Match SameTri at h
  rcases h with (h | h | h) | (h | h | h)
  all_goals
    obtain ⟨x, y, z⟩ := t
    simp only [Tri.rot, Tri.flip, Tri.mk.injEq] at h
    obtain ⟨rfl, rfl, rfl⟩ := h
    apply FaceFace.p3_ext <;> simp only [middle, Side.centroid] <;> ring

/-- Nothing happens if there are no edges. -/
theorem no_edges {F : Local.Env} {tags0 tags1 : Nat → Tag} {w : Global.Warnings} (h : Local.Result F [] tags0 tags1 w) : tags1 = tags0 := by
  obtain ⟨c, ws, order, hex, rfl, -⟩ := h
  suffices c.tags = tags0 ∧ ∀ i, c.prog i = .ret .none from this.1
  induction hex with
  | init => exact ⟨rfl, fun i => by simp [Local.start]⟩
  | @step c c' i _ st ih =>
    cases st with
    | read hk => rw [ih.2] at hk; cases hk
    | write hk => rw [ih.2] at hk; cases hk

/-- If the surfaces are apart and the side of the centroid of the first triangle of the second operand is not found, the classification throws. -/
theorem apart_fails (ha : IsSolid a (orig true) (χ true)) (hb : IsSolid b (orig false) (χ false)) (hka : a.kind = .boundaryDefined) (hkb : b.kind = .boundaryDefined) (hE : E.Valid orig) (hE' : E'.Valid orig)
    (hd : ∀ x, Surface (orig true) x → ¬ Surface (orig false) x) {t0 : Tri P3} {rest : List (Tri P3)} (hf0 : orig false = t0 :: rest) (htied : ∀ t ∈ orig true, Tied (orig true) (middle t0) (middle t))
    (hm0 : Gives E a.boundary b.boundary m0 border) :
    Mix.Fails E' a.boundary b.boundary m0 border ∧ ∀ out w, ¬ Mix.Result E' a.boundary b.boundary m0 border out w := by
  obtain ⟨cut, ts, h1, h2⟩ := Corefine.gives_laid (s := both a.boundary b.boundary) (solid_operands ha hb) hE hm0
  have apart : ∀ c, ∀ t ∈ orig c, ∀ u ∈ orig (!c), ∀ x, In t x → ¬ In u x := by
    intro c t ht u hu x hx hy
    cases c
    · exact hd x ⟨u, hu, hy⟩ ⟨t, ht, hx⟩
    · exact hd x ⟨t, ht, hx⟩ ⟨u, hu, hy⟩
  have unmatched : ∀ c, ∀ t ∈ orig c, ∀ u ∈ orig (!c), ¬ Match t u := fun c t ht u hu hm =>
    apart c t ht u hu t.a (in_corner (by simp [Tri.toList])) (in_corner ((match_mem hm t.a).1 (by simp [Tri.toList])))
  have hborder : border = [] := by
    rw [List.eq_nil_iff_forall_not_mem]
    intro e he
    obtain ⟨x, y, -, -, t, ht, u, hu, -, -, hj, -⟩ := h2.joined e he
    exact apart true t ht u hu x hj.1.1 hj.1.2
  have hcorner : ∀ c, ∀ t ∈ orig c, ∀ p ∈ cut c t, ∀ v ∈ p.toList, v ∈ t.toList := by
    intro c t ht p hp v hv
    rcases (h1.tri c t ht).corner p hp v hv with ⟨-, u, hu, -, hx⟩ | h
    · exact absurd hx.1.2 (apart c t ht u hu v hx.1.1)
    · exact h
  have hlen : m0.data.length = m0.faces.length := h2.data
  have htag : ∀ i, Mix.tag m0.data i = .unknown := by
    intro i
    unfold Mix.tag
    cases hdi : m0.data[i]? with
    | none => rfl
    | some d =>
      have hi := (List.getElem?_eq_some_iff.1 hdi).1
      obtain ⟨p, hp, -⟩ := Cutting.forall₂_get h2.corners (List.getElem?_eq_getElem (show i < m0.faces.length by omega))
      obtain ⟨t, ht, -, h | ⟨-, u, hu, hs⟩ | ⟨-, u, hu, hs⟩⟩ := h2.piece i p d hp hdi
      · simpa using h
      · exact absurd (.inl hs) (unmatched _ t ht u hu)
      · exact absurd (.inr hs) (unmatched _ t ht u hu)
  -- the first face of the second operand
  have hne : cut false t0 ≠ [] := by
    intro h
    obtain ⟨p, hp, -⟩ := (h1.tri false t0 (by rw [hf0]; exact List.mem_cons_self)).cover t0.a (in_corner (by simp [Tri.toList]))
    rw [h] at hp; cases hp
  obtain ⟨p0, ps, hps⟩ := List.exists_cons_of_ne_nil hne
  have hops := h2.tris false
  rw [hf0, List.flatMap_cons, hps, List.cons_append] at hops
  unfold operandTris at hops
  obtain ⟨j0, ⟨p, d0⟩, hj0, hq, hp, hbefore⟩ := filter_head _ _ _ hops
  simp only at hp hq
  subst hp
  rw [List.getElem?_zip_eq_some] at hj0
  obtain ⟨hj1, hj2⟩ := hj0
  simp only at hj1 hj2
  have hd0 : d0.fromLeft = false := by simpa using hq
  have hown0 : Mix.owner m0.data j0 = false := by simp [Mix.owner, hj2, hd0]
  obtain ⟨f0, hff0, hc0⟩ := Cutting.forall₂_get' h2.corners hj1
  have ht0 : t0 ∈ orig false := by rw [hf0]; exact List.mem_cons_self
  have hm : Match p t0 := by
    have hpm : p ∈ cut false t0 := by rw [hps]; exact List.mem_cons_self
    have hpr := (h1.tri false t0 ht0).complex.proper p hpm
    exact match_of_mem (proper_distinct hpr) (hcorner _ _ ht0 p hpm _ (by simp [Tri.toList])) (hcorner _ _ ht0 p hpm _ (by simp [Tri.toList])) (hcorner _ _ ht0 p hpm _ (by simp [Tri.toList]))
  have hmid : middle (tri (Mix.pts m0.points) f0) = middle t0 := by
    have := corner_tri h2.corners hff0
    rw [hj1] at this
    cases this
    exact match_middle hm
  have hoff : ¬ Surface (orig (!Mix.owner m0.data j0)) (middle (tri (Mix.pts m0.points) f0)) := by
    rw [hown0, hmid]
    rintro ⟨u, hu, hx⟩
    rw [middle_centre] at hx
    exact apart false t0 ht0 u hu _ (inner_in (inner_centre _)) hx
  have hnone : Mix.sideTag E' a.boundary b.boundary m0.faces (Mix.pts m0.points) (Mix.owner m0.data) j0 = none := by
    rw [sideTag_none ha hb hka hkb hE' hff0 hoff, hown0, hmid]
    exact htied
  -- it is a representative
  have key : ∀ m, Mesh.Finalized m0.faces m → ∃ reps, Global.representatives (Mix.env m0.faces m border (Mix.owner m0.data)).nbr (Mix.tag m0.data) m0.faces.length = some reps ∧ j0 ∈ reps := by
    intro m hm
    have hp : Spec.Proper m0.faces := (edges_exist ha hb hE (conforming_circle (complex_append ha.complex hb.complex hd)) hE' hm0 hm).1
    have hadj := Local.meshEnv_adj hm hp border (Mix.owner m0.data)
    obtain ⟨reps, hr, -, -, -, hleast⟩ := Global.representatives_least (tags := Mix.tag m0.data) hadj
    refine ⟨reps, hr, ?_⟩
    have dat : ∀ {i : Nat} {f : Tri Nat}, m0.faces[i]? = some f → ∀ v, (v = f.a ∨ v = f.b ∨ v = f.c) → ∃ t ∈ orig (Mix.owner m0.data i), ∃ x, m0.points[v]? = some x ∧ In t x := by
      intro i f hf v hv
      have hi := (List.getElem?_eq_some_iff.1 hf).1
      have e : m0.data[i]? = some (m0.data[i]'(by rw [hlen]; exact hi)) := List.getElem?_eq_getElem _
      obtain ⟨p, hp, hc⟩ := Cutting.forall₂_get h2.corners hf
      obtain ⟨t, ht, hpt, -⟩ := h2.piece i p _ hp e
      have ho : Mix.owner m0.data i = (m0.data[i]'(by rw [hlen]; exact hi)).fromLeft := by simp [Mix.owner, e]
      refine ⟨t, by rw [ho]; exact ht, ?_⟩
      rcases hv with rfl | rfl | rfl
      · exact ⟨p.a, hc.1, (h1.tri _ t ht).inside p hpt _ (in_corner (by simp [Tri.toList]))⟩
      · exact ⟨p.b, hc.2.1, (h1.tri _ t ht).inside p hpt _ (in_corner (by simp [Tri.toList]))⟩
      · exact ⟨p.c, hc.2.2, (h1.tri _ t ht).inside p hpt _ (in_corner (by simp [Tri.toList]))⟩
    obtain ⟨r, hrr, hle, hQ⟩ := hleast j0 (List.getElem?_eq_some_iff.1 hff0).1 (htag j0)
    have hrown : Mix.owner m0.data r = false := by
      by_contra hc
      rw [Bool.not_eq_false] at hc
      have := hQ (fun g => Mix.owner m0.data g = true) hc (by
        intro f hf g hg
        obtain ⟨f', v, w, hf', hs, -, ⟨g', hg', hv⟩, -⟩ := (Local.meshEnv_nbr hm border (Mix.owner m0.data)).1 f g hg
        obtain ⟨t, ht, x, hx, hin⟩ := dat hf' v (by rcases hs with h | h | h <;> simp [h.1])
        obtain ⟨u, hu, y, hy, hin'⟩ := dat hg' v hv
        rw [hx] at hy; cases hy
        by_contra hc
        rw [hf] at ht
        rw [Bool.not_eq_true] at hc
        rw [hc] at hu
        exact apart true t ht u hu x hin hin')
      rw [hown0] at this; cases this
    rcases Nat.lt_or_eq_of_le hle with hlt | rfl
    · exfalso
      have hrl : r < m0.data.length := lt_trans hlt (List.getElem?_eq_some_iff.1 hj2).1
      have e : m0.data[r]? = some m0.data[r] := List.getElem?_eq_getElem _
      obtain ⟨p', hp', -⟩ := Cutting.forall₂_get h2.corners (List.getElem?_eq_getElem (show r < m0.faces.length by omega))
      have := hbefore r hlt (p', m0.data[r]) (by rw [List.getElem?_zip_eq_some]; exact ⟨hp', e⟩)
      have ho : Mix.owner m0.data r = m0.data[r].fromLeft := by simp [Mix.owner, e]
      rw [hrown] at ho
      simp [← ho] at this
    · exact hrr
  subst hborder
  constructor
  · obtain ⟨m, hm⟩ := Mesh.finalized_exists m0.faces
    obtain ⟨reps, hr, hj⟩ := key m hm
    refine ⟨m, hm, .inr ⟨[], rfl, .inr ⟨Mix.tag m0.data, .none, ⟨_, fun _ => .none, [], .init, rfl, by simp, by simp, rfl⟩, .inr ⟨reps, hr, j0, hj, hnone⟩⟩⟩⟩
  · rintro out w ⟨m, edges, tags1, tags2, w1, w2, hm, hedges, hloc, ⟨reps, hr, t, ht, -⟩, -⟩
    cases (show ok [] = ok edges from hedges)
    obtain rfl := no_edges hloc
    obtain ⟨reps', hr', hj⟩ := key m hm
    rw [hr] at hr'
    cases hr'
    rw [ht j0 hj] at hnone
    cases hnone

/-! ## Two tetrahedra with a common face -/

theorem double_convex (c : Bool) : ConvexSet fun x => doubleSets c x ∨ Surface (doubleOrig c) x := by
  cases c
  · have e : ∀ x, (lowerInside x ∨ Surface lowerFaces x) ↔ (Side.tetraInside (mirror x) ∨ Surface Side.tetraFaces (mirror x)) := by
      intro x
      unfold lowerInside lowerFaces
      rw [mirror_surface]
    intro x y z hx hy hz
    refine (e z).2 (tetra_convexSet (mirror x) (mirror y) (mirror z) ((e x).1 hx) ((e y).1 hy) ?_)
    obtain ⟨s, t, h1, h2, h3, rfl⟩ := hz
    refine ⟨s, t, h1, h2, h3, ?_⟩
    apply FaceFace.p3_ext <;> simp only [mirror] <;> ring
  · exact tetra_convexSet

/-- All Boolean operations of the two tetrahedra return, in every execution, with the right result. -/
example : (∃ bb w, Mix.Built (someEnv doubleOrig) (Gives (Corefine.exactEnv doubleOrig)) (doubleSolid true) (doubleSolid false) bb w) ∧
    (∀ m0 border, Gives (Corefine.exactEnv doubleOrig) (doubleSolid true).boundary (doubleSolid false).boundary m0 border → ¬ Mix.Fails (someEnv doubleOrig) (doubleSolid true).boundary (doubleSolid false).boundary m0 border) ∧
    ∀ bb w, Mix.Built (someEnv doubleOrig) (Gives (Corefine.exactEnv doubleOrig)) (doubleSolid true) (doubleSolid false) bb w →
      ∃ r, bb.run .union false = ok r ∧ Denotes r (fun x => x ∈ onSets .union {x | Side.tetraInside x} {x | lowerInside x}) (fun x => Surface Side.tetraFaces x ∨ Surface lowerFaces x) := by
  obtain ⟨h1, h2, h3⟩ := C77_convex (χ := doubleSets) (doubleSolid_is true) (doubleSolid_is false) (C74_consistent _) (conforming_circle double_complex) double_manifold (C70_consistent fun b => (double_complexes b).proper) double_convex
  exact ⟨h2, h1 rfl rfl, fun bb w h => h3 bb w h .union false⟩

/-- In every execution for the two tetrahedra, the faces left without a tag are not on the surface of the other one. -/
example {m0 : Soup P3 (MixedData Unit)} {border : List (Nat × Nat)} (hm0 : Gives (Corefine.exactEnv doubleOrig) (doubleSolid true).boundary (doubleSolid false).boundary m0 border) {m : Mesh.Mesh} (hm : Mesh.Finalized m0.faces m)
    {edges : List (List Nat × Option (List Local.Entry))} (hedges : Mix.edgeInputs (someEnv doubleOrig) m0.faces m (Mix.pts m0.points) border = ok edges) {tags1 : Nat → Tag} {w1 : Global.Warnings}
    (hr : Local.Result (Mix.env m0.faces m border (Mix.owner m0.data)) edges (Mix.tag m0.data) tags1 w1) {i : Nat} {f : Tri Nat} (hf : m0.faces[i]? = some f) (hu : tags1 i = .unknown) :
    ¬ Surface (doubleOrig (!Mix.owner m0.data i)) (middle (tri (Mix.pts m0.points) f)) :=
  (C76_never_on_boundary (χ := doubleSets) (doubleSolid_is true) (doubleSolid_is false) rfl rfl (C74_consistent _) (conforming_circle double_complex) double_manifold (C70_consistent fun b => (double_complexes b).proper) hm0 hm hedges hr hf hu).1

/-! ## The beams and a tetrahedron between them -/

/-- A tetrahedron, one face of which has the origin as its centroid. -/
def pebble : List (Tri P3) := Space.tetra ⟨-1, -1, -1⟩ ⟨1, 0, -1⟩ ⟨-1, 1, 0⟩ ⟨0, -1, 1⟩
def pebbleRegion : Region P3 Unit := ⟨.boundaryDefined, ⟨[⟨-1, -1, -1⟩, ⟨1, 0, -1⟩, ⟨-1, 1, 0⟩, ⟨0, -1, 1⟩], [⟨1, 2, 3⟩, ⟨0, 3, 2⟩, ⟨0, 1, 3⟩, ⟨0, 2, 1⟩], List.replicate 4 ()⟩⟩

theorem pebble_det : 0 < det4 ⟨-1, -1, -1⟩ ⟨1, 0, -1⟩ ⟨-1, 1, 0⟩ ⟨0, -1, 1⟩ := by decide +kernel

theorem pebble_solid : IsSolid pebbleRegion pebble (Within pebble) where
  inv := by simp [RegionInv, pebbleRegion]
  wf := ⟨rfl, by decide⟩
  corners := by simp [HasCorners, pebbleRegion, pebble, Space.tetra]
  complex := tetra_complex pebble_det
  once := tetra_once pebble_det.ne'
  bounds := tetra_bound pebble_det
  kind := by simp [KindSays, pebbleRegion, pebble, Space.tetra]

theorem pebble_apart (x : P3) (h : Surface beams x) : ¬ Surface pebble x := by
  intro h'
  have hp := closed_of_surface (tetra_convex pebble_det) h'
  have p1 := tetra_positive pebble_det (f := ⟨⟨-1, -2, 0⟩, 7⟩) (by decide +kernel) (by decide +kernel) (by decide +kernel) (by decide +kernel) hp
  have p2 := tetra_positive pebble_det (f := ⟨⟨0, -1, -2⟩, 7⟩) (by decide +kernel) (by decide +kernel) (by decide +kernel) (by decide +kernel) hp
  have p3 := tetra_positive pebble_det (f := ⟨⟨-2, 0, -1⟩, 7⟩) (by decide +kernel) (by decide +kernel) (by decide +kernel) (by decide +kernel) hp
  simp only [Side.Aff.eval, dot] at p1 p2 p3
  rcases surface_append.1 h with h | h
  · rcases surface_append.1 h with h | h
    · have q := tetra_positive det1 (f := ⟨⟨1, 2, 0⟩, -7⟩) (by decide +kernel) (by decide +kernel) (by decide +kernel) (by decide +kernel) (closed_of_surface conv1 h)
      simp only [Side.Aff.eval, dot] at q
      linarith
    · have q := tetra_positive det2 (f := ⟨⟨0, 1, 2⟩, -7⟩) (by decide +kernel) (by decide +kernel) (by decide +kernel) (by decide +kernel) (closed_of_surface conv2 h)
      simp only [Side.Aff.eval, dot] at q
      linarith
  · have q := tetra_positive det3 (f := ⟨⟨2, 0, 1⟩, -7⟩) (by decide +kernel) (by decide +kernel) (by decide +kernel) (by decide +kernel) (closed_of_surface conv3 h)
    simp only [Side.Aff.eval, dot] at q
    linarith

/-- **The classification does not always return.** There are solids with surfaces apart from each other, for which mixed faces exist, and whatever the threads do and whatever CGAL returns as long as it is right: the classification throws, and
Boolean operations of the two solids have no result. -/
theorem C77_full_claim_false : ∃ (a b : Region P3 Unit) (orig : Bool → List (Tri P3)) (χ : Bool → P3 → Prop), IsSolid a (orig true) (χ true) ∧ IsSolid b (orig false) (χ false) ∧ a.kind = .boundaryDefined ∧ b.kind = .boundaryDefined ∧
    (∀ x, Surface (orig true) x → ¬ Surface (orig false) x) ∧ NoFourOnCircle orig ∧ ManifoldWhereCoinciding orig ∧ (∃ E : Env, E.Valid orig) ∧ (∃ E' : Mix.Env, E'.Valid orig) ∧
    ∀ E : Env, E.Valid orig → ∀ E' : Mix.Env, E'.Valid orig → (∃ m0 border, Gives E a.boundary b.boundary m0 border) ∧
      (∀ m0 border, Gives E a.boundary b.boundary m0 border → Mix.Fails E' a.boundary b.boundary m0 border) ∧ ¬ ∃ bb w, Mix.Built E' (Gives E) a b bb w := by
  let orig : Bool → List (Tri P3) := fun c => if c then beams else pebble
  let χ : Bool → P3 → Prop := fun c => if c then beamsInside else Within pebble
  have ha : IsSolid beamsRegion (orig true) (χ true) := beams_solid
  have hb : IsSolid pebbleRegion (orig false) (χ false) := pebble_solid
  have hd : ∀ x, Surface (orig true) x → ¬ Surface (orig false) x := pebble_apart
  have hW : Complex (orig true ++ orig false) := complex_append ha.complex hb.complex hd
  have hman : ManifoldWhereCoinciding orig := by
    rintro c t ht ⟨u, hu, hm⟩
    exfalso
    have h1 := in_a t
    have h2 := in_corner ((match_mem hm t.a).1 (by simp [Tri.toList]))
    cases c
    · exact hd t.a ⟨u, hu, h2⟩ ⟨t, ht, h1⟩
    · exact hd t.a ⟨t, ht, h1⟩ ⟨u, hu, h2⟩
  have fails : ∀ {E : Env}, E.Valid orig → ∀ {E' : Mix.Env}, E'.Valid orig → ∀ {m0 border}, Gives E beamsRegion.boundary pebbleRegion.boundary m0 border →
      Mix.Fails E' beamsRegion.boundary pebbleRegion.boundary m0 border ∧ ∀ out w, ¬ Mix.Result E' beamsRegion.boundary pebbleRegion.boundary m0 border out w := by
    intro E hE E' hE' m0 border hm0
    refine apart_fails (orig := orig) (χ := χ) ha hb rfl rfl hE hE' hd (t0 := ⟨⟨1, 0, -1⟩, ⟨-1, 1, 0⟩, ⟨0, -1, 1⟩⟩) rfl ?_ hm0
    have : middle ⟨⟨1, 0, -1⟩, ⟨-1, 1, 0⟩, ⟨0, -1, 1⟩⟩ = (⟨0, 0, 0⟩ : P3) := by decide +kernel
    rw [this]
    exact beams_tied
  refine ⟨beamsRegion, pebbleRegion, orig, χ, ha, hb, rfl, rfl, hd, conforming_circle hW, hman, ⟨_, C74_consistent _⟩, ⟨_, C70_consistent fun c => (solid_both ha hb c).complex.proper⟩, ?_⟩
  intro E hE E' hE'
  refine ⟨C73_conforming (solid_operands ha hb) hE hW, fun m0 border hm0 => (fails hE hE' hm0).1, ?_⟩
  rintro ⟨bb, w, h⟩
  unfold Mix.Built at h
  rw [if_neg (by decide)] at h
  obtain ⟨m0, border, hm0, hr, -⟩ := h
  exact (fails hE hE' hm0).2 _ _ hr

end Kigumi.Props

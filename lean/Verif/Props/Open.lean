import Verif.Proofs.Sheets
import Verif.Props.Crossing

/-! # C93: open meshes in a convex set -/
namespace Kigumi.Props
open Kigumi Outcome Geo Spec.Triangles Spec.Side FaceFace Space
open Kigumi.Spec (SameTri HasCorners operandTris truth onSets RegionInv)
open Kigumi.Corefine (Env Gives construct Operands both)
variable {D : Type} {E : Env} {E' : Mix.Env} {orig : Bool → List (Tri P3)} {χ : Bool → P3 → Prop} {a b : Region P3 D} {K : P3 → Prop}

theorem open_operands (ha : IsSolidIn K a (orig true) (χ true)) (hb : IsSolidIn K b (orig false) (χ false)) : Operands orig (both a.boundary b.boundary) where
  corners c := by cases c; exacts [hb.corners, ha.corners]
  complex c := by cases c; exacts [hb.complex, ha.complex]
  once c := by cases c; exacts [hb.once, ha.once]
  data c := by cases c; exacts [hb.wf.1, ha.wf.1]

/-- **Boolean operations of open meshes.** The operands are meshes in an open convex set `K`, which they cut into the parts `χ true` and `χ false` and the rest. Faces of different operands may have points outside of `K` in common,
but only single ones, and no segments. Whatever the threads do and whatever constrained Delaunay triangulations CGAL gives, if the constructor of the builder returns, there is no warning, no operation throws, and its result is a mesh that cuts `K` into the result of
the operation on the two sets and the rest, apart from points of the two surfaces. -/
theorem C93_boolean_partial (hK : Zone K) (ha : IsSolidIn K a (orig true) (χ true)) (hb : IsSolidIn K b (orig false) (χ false)) (hmeet : MeetIn K orig) (hE : E.Valid orig) (hg : NoFourOnCircle orig)
    (hman : ManifoldWhereCoinciding orig) (hE' : E'.Valid orig) {bb : Builder P3 D} {w : Global.Warnings} (h : Mix.Built E' (Gives E) a b bb w) (op : Op) (pf : Bool) :
    w = .none ∧ ∃ r, bb.run op pf = ok r ∧ DenotesIn K r (fun x => x ∈ onSets op {x | χ true x} {x | χ false x}) (fun x => Surface (orig true) x ∨ Surface (orig false) x) :=
  boolean_in hK (fun _ _ _ _ hm => by
    obtain ⟨cut, ts, h1, h2⟩ := Corefine.gives_laid (s := both a.boundary b.boundary) (open_operands ha hb) hE hm
    exact ⟨ts, Cutting.laid_corefined h1 (Cutting.agree_of h1 hg) hman h2, clear_of_laid h1 h2 hmeet⟩) ha hb hE' h op pf

/-- **Sides of points after a Boolean operation of open meshes.** For every point of `K` off the two surfaces for which `bounded_side` of the result returns, it returns ON_BOUNDED_SIDE exactly if the point is in the result of the
operation on the two sets, and ON_UNBOUNDED_SIDE otherwise. -/
theorem C93_side_partial (hK : Zone K) (ha : IsSolidIn K a (orig true) (χ true)) (hb : IsSolidIn K b (orig false) (χ false)) (hmeet : MeetIn K orig) (hE : E.Valid orig) (hg : NoFourOnCircle orig)
    (hman : ManifoldWhereCoinciding orig) (hE' : E'.Valid orig) {bb : Builder P3 D} {w : Global.Warnings} (h : Mix.Built E' (Gives E) a b bb w) {op : Op} {pf : Bool} {r : Region P3 D} (hr : bb.run op pf = ok r) :
    ∃ ts, HasCorners r.boundary.points r.boundary.faces ts ∧ ∀ F : Side.Env, F.Valid ts → ∀ p, K p → ¬ Surface (orig true) p → ¬ Surface (orig false) p →
      ∀ s, Side.boundedSide F r p = ok s → (s = .bounded ↔ p ∈ onSets op {x | χ true x} {x | χ false x}) ∧ (s = .unbounded ↔ p ∉ onSets op {x | χ true x} {x | χ false x}) := by
  obtain ⟨-, r', h1, ts, χ', hs, hsub, hagree⟩ := C93_boolean_partial hK ha hb hmeet hE hg hman hE' h op pf
  rw [hr] at h1; cases h1
  refine ⟨ts, hs.corners, fun F hF p hpK hp1 hp2 s hside => ?_⟩
  have hp : ¬ (Surface (orig true) p ∨ Surface (orig false) p) := by rintro (h | h); exacts [hp1 h, hp2 h]
  have hag : χ' p ↔ p ∈ onSets op {x | χ true x} {x | χ false x} := hagree p hpK hp
  rw [← hag]
  have hoff : ¬ Surface ts p := fun h => hp (hsub p h)
  have hk := hs.kind
  have hinv := hs.inv
  unfold RegionInv at hinv
  cases hkind : r.kind with
  | empty =>
    rw [(C12_empty_full p).1 hkind] at hside
    rw [hkind] at hk
    cases hside
    simp [hk p hpK]
  | full =>
    rw [(C12_empty_full p).2 hkind] at hside
    rw [hkind] at hk
    cases hside
    simp [hk p hpK]
  | boundaryDefined =>
    rw [hkind] at hinv
    have hb := boundary_in ⟨hkind, hinv, hs.corners⟩ hF hs.complex.proper hK hs.within hs.bounds (thin_of_complex hs.complex hs.once) hpK hside
    have hi := sound_in ⟨hkind, hinv, hs.corners⟩ hF hs.complex.proper hK hs.within hs.bounds hpK hoff
    cases s with
    | boundary => exact absurd (hb.1 rfl) hoff
    | bounded => simpa using hi.1 hside
    | unbounded => simpa using hi.2 hside

/-! ## Single triangles -/

/-- The mesh of a single triangle. -/
def panel (t : Tri P3) : Region P3 Unit := ⟨.boundaryDefined, ⟨[t.a, t.b, t.c], [⟨0, 1, 2⟩], [()]⟩⟩

/-- The triangle cuts the convex set. -/
structure Panel (K : P3 → Prop) (t : Tri P3) : Prop where
  proper : Proper t
  within : ∀ x, Inner t x → K x
  all : ∀ x, K x → det4 t.a t.b t.c x = 0 → In t x

theorem Panel.is (hK : Zone K) {t : Tri P3} (h : Panel K t) : IsSolidIn K (panel t) [t] (fun x => det4 t.a t.b t.c x < 0) where
  inv := by simp [RegionInv, panel]
  wf := ⟨rfl, by simp [panel, Tri.toList]⟩
  corners := by simp [HasCorners, panel]
  complex := Corefine.complex_single h.proper
  once := by
    intro i j u v hi hj _
    have k : ∀ {i : Nat} {u : Tri P3}, [t][i]? = some u → i = 0 := fun {i} {u} h => by
      rcases i with _ | i
      · rfl
      · simp at h
    rw [k hi, k hj]
  within := by
    intro u hu x hx
    rw [List.mem_singleton.1 hu] at hx
    exact h.within x hx
  bounds := by
    have := sheet_bounds hK h.proper (by simpa only [Side.eval_plane] using h.all)
    simpa only [Side.eval_plane] using this
  kind := by simp [KindIn, panel]

/-- The side of every point off the plane of a single triangle is found. -/
theorem panel_side {t : Tri P3} {F : Side.Env} (hF : F.Valid [t]) {p : P3} (hp : det4 t.a t.b t.c p ≠ 0) : ∃ s, Side.sideOf F (panel t).boundary p = ok s ∧ s ≠ .boundary := by
  have hp' := hp
  rw [← Side.eval_plane] at hp'
  have hr := Side.sideOf_rounds hF (soup := (panel t).boundary) (by simp [HasCorners, panel]) (by simp [panel]) p
  have off : ¬ Surface [t] p := by
    rintro ⟨u, hu, hin⟩
    rw [List.mem_singleton.1 hu] at hin
    exact hp' (Side.plane_in hin)
  have hne : p ≠ Side.target t := fun e => hp' (Side.plane_in (e ▸ centroid_in t))
  generalize hs : Side.sideOf F (panel t).boundary p = o at hr ⊢
  cases hr with
  | found _ _ s h =>
    refine ⟨s, rfl, ?_⟩
    rintro rfl
    generalize ho : (ok (some Side.Oriented.boundary) : Outcome (Option Side.Oriented)) = o at h
    cases h with
    | start h => exact hne h
    | surface _ h => exact off h
    | nearest _ _ i x u _ hu _ =>
      have e : u = t := List.mem_singleton.1 (List.mem_of_getElem? hu)
      subst e
      have : Side.Oriented.of (sgn (det4 u.a u.b u.c p)) = .boundary := by injection ho with h; injection h with h; exact h.symm
      revert this
      rcases lt_or_gt_of_ne hp with h | h
      · simp [Side.Oriented.of, sgn, h]
      · simp [Side.Oriented.of, sgn, not_lt.2 h.le, h.ne']
    | nothing => cases ho
    | tie => cases ho
  | failed _ _ m h =>
    cases h with
    | nothing _ _ hn =>
      refine absurd ⟨t, rfl, fun z => ⟨?_, ?_⟩⟩ (hn 0 (Side.target t))
      · rintro ⟨hz, s, -, rfl⟩
        have h0 := Side.plane_in hz
        have h1 := Side.plane_in (centroid_in t)
        have key : (1 - s) * (Side.plane t).eval p = 0 := by
          have e : (Side.plane t).eval ⟨p.x + s * ((Side.target t).x - p.x), p.y + s * ((Side.target t).y - p.y), p.z + s * ((Side.target t).z - p.z)⟩ = (1 - s) * (Side.plane t).eval p + s * (Side.plane t).eval (Side.target t) := by
            simp only [Side.Aff.eval, dot]; ring
          rw [h0, show (Side.plane t).eval (Side.target t) = 0 from h1] at e
          linarith
        have hs : s = 1 := by
          rcases mul_eq_zero.1 key with h | h
          · linarith
          · exact absurd h hp'
        subst hs
        apply p3_ext <;> ring
      · rintro rfl
        exact ⟨centroid_in t, 1, zero_le_one, by apply p3_ext <;> ring⟩
  | next _ _ _ h hr =>
    cases h with
    | tie _ _ i j x y hij hi hj =>
      obtain ⟨u, hu, -⟩ := hi
      obtain ⟨v, hv, -⟩ := hj
      have k : ∀ {i : Nat} {u : Tri P3}, [t][i]? = some u → i = 0 := fun {i} {u} h => by
        rcases i with _ | i
        · rfl
        · simp at h
      exact absurd ((k hu).trans (k hv).symm) hij

/-- The classification of the pieces of two triangles returns. -/
theorem panels_return (hK : Zone K) {t u : Tri P3} (ht : Panel K t) (hu : Panel K u) (hno : NoOverlap (both [t] [u])) (hE : E.Valid (both [t] [u])) (hE' : E'.Valid (both [t] [u])) : ∃ bb w, Mix.Built E' (Gives E) (panel t) (panel u) bb w := by
  have sol : ∀ c, IsSolidIn K (both (panel t) (panel u) c) (both [t] [u] c) (both (fun x => det4 t.a t.b t.c x < 0) (fun x => det4 u.a u.b u.c x < 0) c) := by
    intro c; cases c; exacts [hu.is hK, ht.is hK]
  have hops := open_operands (χ := both (fun x => det4 t.a t.b t.c x < 0) (fun x => det4 u.a u.b u.c x < 0)) (orig := both [t] [u]) (sol true) (sol false)
  obtain ⟨m0, border, hm0⟩ := C78_mixed hops hE
  obtain ⟨cut, ts, h1, h2⟩ := Corefine.gives_laid hops hE hm0
  have hgen := Cutting.agree_of h1 (Crossing.noFour hno)
  have hcor := Cutting.laid_corefined h1 hgen (Crossing.manifold hno (sol true).complex.proper) h2
  obtain ⟨out, w, hr⟩ := mixed_returns (left := (panel t).boundary) (right := (panel u).boundary) hcor hK (fun c => (sol c).within) (fun c => (sol c).bounds) hE' h2.used (by
    intro i hi _ hnone
    have hf := List.getElem?_eq_getElem hi
    generalize m0.faces[i] = f at hf
    have hm := (operand_mem h2.data h2.corners (b := Mix.owner m0.data i)).2 ⟨i, f, hf, rfl, rfl⟩
    rw [h2.tris] at hm
    obtain ⟨v, hv, hp⟩ := List.mem_flatMap.1 hm
    have hpr := (h1.tri _ v hv).complex.proper _ hp
    have hc := inner_centre (tri (Mix.pts m0.points) f)
    have hcK : K (centre (tri (Mix.pts m0.points) f)) :=
      (cut_in hcor.toCutInto hK (fun c => (sol c).within) (fun c => (sol c).bounds)).within _ (List.mem_of_getElem? (corner_tri h2.corners hf)) _ hc
    have off : ∀ z ∈ both [t] [u] (!Mix.owner m0.data i), ¬ In z (centre (tri (Mix.pts m0.points) f)) := by
      intro z hz hin
      obtain ⟨r, hr, hrin⟩ := (h1.tri _ z hz).cover _ hin
      have hmr : Match (tri (Mix.pts m0.points) f) r := inner_common hpr hc (Cutting.inCommon_iff.2 (Cutting.com_pieces h1 hgen hv hz hp hr (inner_in hc) hrin))
      have h3 : ∀ x, In (tri (Mix.pts m0.points) f) x → In v x := (h1.tri _ v hv).inside _ hp
      have h4 : ∀ x, In (tri (Mix.pts m0.points) f) x → In z x := fun x hx => (h1.tri _ z hz).inside _ hr x (in_match hmr hx)
      cases ho : Mix.owner m0.data i <;> rw [ho] at hv hz
      · exact hno z hz v hv _ hpr fun x hx => ⟨h4 x hx, h3 x hx⟩
      · exact hno v hv z hz _ hpr fun x hx => ⟨h3 x hx, h4 x hx⟩
    unfold Mix.sideTag at hnone
    rw [hf] at hnone
    simp only [centroid_middle, middle_centre] at hnone
    cases ho : Mix.owner m0.data i <;> rw [ho] at off hnone
    · obtain ⟨s, hs, hsb⟩ := panel_side (hE'.side true) (p := centre (tri (Mix.pts m0.points) f)) fun h0 => off t (by simp [both]) (ht.all _ hcK h0)
      simp only [Bool.not_false, Bool.false_eq_true, if_false, hs] at hnone
      cases s <;> simp_all
    · obtain ⟨s, hs, hsb⟩ := panel_side (hE'.side false) (p := centre (tri (Mix.pts m0.points) f)) fun h0 => off u (by simp [both]) (hu.all _ hcK h0)
      simp only [Bool.not_true, if_true, hs] at hnone
      cases s <;> simp_all)
  refine ⟨⟨.boundaryDefined, .boundaryDefined, out⟩, w, ?_⟩
  unfold Mix.Built
  rw [if_neg (by simp [panel, Region.isEmptyOrFull, Region.isEmpty, Region.isFull])]
  exact ⟨_, _, hm0, hr, rfl, rfl⟩

/-- **Any two triangles that cut a convex set**, without an overlap, and with no segment outside of it in common: there is an execution, and every execution gives the right result, without a warning. -/
theorem C93_panels_partial (hK : Zone K) {t u : Tri P3} (ht : Panel K t) (hu : Panel K u) (hno : NoOverlap (both [t] [u])) (hmeet : MeetIn K (both [t] [u])) (hE : E.Valid (both [t] [u])) (hE' : E'.Valid (both [t] [u])) :
    (∃ bb w, Mix.Built E' (Gives E) (panel t) (panel u) bb w) ∧ ∀ bb w, Mix.Built E' (Gives E) (panel t) (panel u) bb w → w = .none ∧ ∀ op pf, ∃ r, bb.run op pf = ok r ∧
      DenotesIn K r (fun x => x ∈ onSets op {x | det4 t.a t.b t.c x < 0} {x | det4 u.a u.b u.c x < 0}) (fun x => In t x ∨ In u x) := by
  refine ⟨panels_return hK ht hu hno hE hE', fun bb w h => ?_⟩
  have key := fun op pf => C93_boolean_partial (χ := both (fun x => det4 t.a t.b t.c x < 0) (fun x => det4 u.a u.b u.c x < 0)) (orig := both [t] [u]) hK (ht.is hK) (hu.is hK) hmeet hE (Crossing.noFour hno)
    (Crossing.manifold hno fun v hv => by rw [List.mem_singleton.1 hv]; exact ht.proper) hE' h op pf
  refine ⟨(key .union false).1, fun op pf => ?_⟩
  obtain ⟨-, r, hr, hd⟩ := key op pf
  simp only [both, Surface, if_true, Bool.false_eq_true, if_false, List.mem_singleton, exists_eq_left] at hd
  exact ⟨r, hr, hd⟩

/-! ## Two triangles through each other, in a tetrahedron -/

/-- The interior of a tetrahedron. -/
def nook (x : P3) : Prop := 0 < x.x ∧ 0 < x.y ∧ 0 < x.z ∧ x.x + x.y + x.z < 4

theorem nook_zone : Zone nook where
  convex := by
    rintro x y _ ⟨h1, h2, h3, h4⟩ ⟨k1, k2, k3, k4⟩ ⟨s, t, one, s0, t0, rfl⟩
    obtain rfl : t = 1 - s := by linarith
    have pos : ∀ a b : ℚ, 0 < a → 0 < b → 0 < s * a + (1 - s) * b := by
      intro a b ha hb
      rcases eq_or_lt_of_le s0 with h | h
      · rw [← h]; linarith
      · have := mul_pos h ha
        have := mul_nonneg t0 hb.le
        linarith
    have := pos (4 - (x.x + x.y + x.z)) (4 - (y.x + y.y + y.z)) (by linarith) (by linarith)
    exact ⟨pos _ _ h1 k1, pos _ _ h2 k2, pos _ _ h3 k3, by simp only; linarith⟩
  near := by
    rintro x ⟨h1, h2, h3, h4⟩
    obtain ⟨e, he, e1, e2, e3, e4⟩ : ∃ e : ℚ, 0 < e ∧ e < x.x ∧ e < x.y ∧ e < x.z ∧ 3 * e < 4 - (x.x + x.y + x.z) := by
      refine ⟨min (min x.x x.y) (min x.z (4 - (x.x + x.y + x.z))) / 4, ?_, ?_, ?_, ?_, ?_⟩ <;>
        have m1 := min_le_left (min x.x x.y) (min x.z (4 - (x.x + x.y + x.z))) <;> have m2 := min_le_right (min x.x x.y) (min x.z (4 - (x.x + x.y + x.z))) <;> have m3 := min_le_left x.x x.y <;>
        have m4 := min_le_right x.x x.y <;> have m5 := min_le_left x.z (4 - (x.x + x.y + x.z)) <;> have m6 := min_le_right x.z (4 - (x.x + x.y + x.z)) <;>
        have m7 : 0 < min (min x.x x.y) (min x.z (4 - (x.x + x.y + x.z))) := lt_min (lt_min h1 h2) (lt_min h3 (by linarith)) <;> linarith
    refine ⟨e, he, ?_⟩
    rintro y ⟨n1, n2, n3, n4, n5, n6⟩
    exact ⟨by linarith, by linarith, by linarith, by linarith⟩

/-- Half of the tetrahedron is on its one side. -/
def wall : Tri P3 := ⟨⟨0, 0, 0⟩, ⟨0, 0, 4⟩, ⟨2, 2, 0⟩⟩
def roof : Tri P3 := ⟨⟨4, 0, 0⟩, ⟨0, 4, 0⟩, ⟨0, 0, 2⟩⟩

theorem wall_det (x : P3) : det4 wall.a wall.b wall.c x = 8 * (x.y - x.x) := by simp only [wall, det4, dot, cross, sub]; ring
theorem roof_det (x : P3) : det4 roof.a roof.b roof.c x = 8 * (x.x + x.y + 2 * x.z - 4) := by simp only [roof, det4, dot, cross, sub]; ring

theorem wall_panel : Panel nook wall where
  proper := by unfold Proper; decide +kernel
  within := by
    rintro x ⟨u, v, w, one, rfl, hu, hv, hw⟩
    simp only [Weight, if_true] at hu hv hw
    simp only [nook, wall, combo]
    exact ⟨by linarith, by linarith, by linarith, by linarith⟩
  all := by
    rintro x ⟨h1, h2, h3, h4⟩ h
    rw [wall_det] at h
    exact ⟨1 - x.z / 4 - x.x / 2, x.z / 4, x.x / 2, by ring, by apply p3_ext <;> simp only [wall, combo] <;> linarith, by linarith, by linarith, by linarith⟩

theorem roof_panel : Panel nook roof where
  proper := by unfold Proper; decide +kernel
  within := by
    rintro x ⟨u, v, w, one, rfl, hu, hv, hw⟩
    simp only [Weight, if_true] at hu hv hw
    simp only [nook, roof, combo]
    exact ⟨by linarith, by linarith, by linarith, by linarith⟩
  all := by
    rintro x ⟨h1, h2, h3, h4⟩ h
    rw [roof_det] at h
    exact ⟨x.x / 4, x.y / 4, x.z / 2, by linarith, by apply p3_ext <;> simp only [roof, combo] <;> linarith, by linarith, by linarith, by linarith⟩

/-- They meet in a segment from an edge of the tetrahedron to another one. -/
theorem wall_roof : MeetIn nook (both [wall] [roof]) := by
  intro t ht u hu x y hne hx hy hx' hy'
  obtain rfl := List.mem_singleton.1 ht
  obtain rfl := List.mem_singleton.1 hu
  have key : ∀ z, In wall z → In roof z → z.x = z.y ∧ z.z = 2 - z.x ∧ 0 ≤ z.x ∧ z.x ≤ 2 := by
    intro z h h'
    have e1 := (Side.eval_plane wall z).symm.trans (Side.plane_in h)
    have e2 := (Side.eval_plane roof z).symm.trans (Side.plane_in h')
    rw [wall_det] at e1
    rw [roof_det] at e2
    obtain ⟨u, v, w, one, rfl, hu, hv, hw⟩ := h
    simp only [wall, combo] at e1 e2
    refine ⟨rfl, ?_, ?_, ?_⟩ <;> simp only [wall, combo] <;> linarith
  obtain ⟨a1, a2, a3, a4⟩ := key x hx hx'
  obtain ⟨b1, b2, b3, b4⟩ := key y hy hy'
  have hxy : x.x ≠ y.x := fun e => hne (p3_ext e (by linarith) (by linarith))
  rcases lt_or_gt_of_ne hxy with h | h <;> exact ⟨by simp only; linarith, by simp only; linarith, by simp only; linarith, by simp only; linarith⟩

example : ∃ bb w, Mix.Built (someEnv (both [wall] [roof])) (Gives (Corefine.exactEnv (both [wall] [roof]))) (panel wall) (panel roof) bb w ∧
    ∃ r, bb.run .intersection false = ok r ∧ DenotesIn nook r (fun x => x.y < x.x ∧ x.x + x.y + 2 * x.z < 4) (fun x => In wall x ∨ In roof x) := by
  obtain ⟨⟨bb, w, h⟩, hall⟩ := C93_panels_partial nook_zone wall_panel roof_panel (Crossing.of_normals (by decide +kernel)) wall_roof (C74_consistent _) (C70_consistent (orig := both [wall] [roof]) (by
    intro c v hv
    cases c
    · rw [List.mem_singleton.1 hv]; exact roof_panel.proper
    · rw [List.mem_singleton.1 hv]; exact wall_panel.proper))
  obtain ⟨r, hr, hd⟩ := (hall bb w h).2 .intersection false
  refine ⟨bb, w, h, r, hr, ?_⟩
  have e : (fun x => x ∈ onSets .intersection {x | det4 wall.a wall.b wall.c x < 0} {x | det4 roof.a roof.b roof.c x < 0}) = fun x : P3 => x.y < x.x ∧ x.x + x.y + 2 * x.z < 4 := by
    funext x
    simp only [wall_det, roof_det]
    refine propext ⟨fun h => ?_, fun h => ?_⟩
    · obtain ⟨h1, h2⟩ := h
      simp only [Set.mem_setOf_eq] at h1 h2
      exact ⟨by linarith, by linarith⟩
    · exact ⟨by simp only [Set.mem_setOf_eq]; linarith, by simp only [Set.mem_setOf_eq]; linarith⟩
  rwa [e] at hd

end Kigumi.Props

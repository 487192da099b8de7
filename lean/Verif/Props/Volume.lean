import Verif.Proofs.VolumeCells
import Verif.Props.Clean
import Verif.Props.Ties

/-! # C108: volumes -/
namespace Kigumi.Props
open Kigumi Outcome Geo Spec.Triangles Spec.Side FaceFace Space
open Kigumi.Spec (SameTri HasCorners operandTris truth onSets RegionInv)
open Kigumi.Spec.Defects (uses sides Proper3)
open Kigumi.Corefine (Env Gives GivesBy construct Operands both)
open Kigumi.Side (Ok ok_of_proper near_refl near_mono)
variable {D : Type} {orig : Bool → List (Tri P3)} {χ : Bool → P3 → Prop} {a b : Region P3 D}

/-! ## The apex does not matter -/

/-- Sums over the sides of a closed surface of what changes its sign with the direction. -/
theorem sides_sum {es : List (P3 × P3)} (h : ∀ p q, es.count (p, q) = es.count (q, p)) {g : P3 → P3 → ℚ} (hg : ∀ p q, g q p = -g p q) : (es.map fun e => g e.1 e.2).sum = 0 := by
  have hp : es.Perm (es.map Prod.swap) := by
    refine List.perm_iff_count.2 fun e => ?_
    have := List.count_map_of_injective es Prod.swap Prod.swap_injective e.swap
    rw [Prod.swap_swap] at this
    rw [this]
    exact h e.1 e.2
  have e1 : (es.map fun e => g e.1 e.2).sum = ((es.map Prod.swap).map fun e => g e.1 e.2).sum := (hp.map _).sum_eq
  have e2 : ∀ l : List (P3 × P3), ((l.map Prod.swap).map fun e => g e.1 e.2).sum = -(l.map fun e => g e.1 e.2).sum := by
    intro l
    induction l with
    | nil => simp
    | cons e l ih =>
      simp only [List.map_cons, List.sum_cons, ih, Prod.fst_swap, Prod.snd_swap, hg e.1 e.2]
      ring
  rw [e2] at e1
  linarith

theorem proper_proper3 {t : Tri P3} (h : Proper t) : Proper3 t := by
  obtain ⟨h1, h2, h3⟩ := proper_distinct h
  exact ⟨h1, h2, h3.symm⟩

/-- **The volume of a solid does not depend on the apex** of the tetrahedra that are summed up. -/
theorem C108_apex {ts : List (Tri P3)} {χ : P3 → Prop} {r : Region P3 D} (h : IsSolid r ts χ) (o o' : P3) : volume o r = volume o' r := by
  rw [volume_corners h.corners, volume_corners h.corners]
  let g : P3 → P3 → ℚ := fun p q => (o'.x - o.x) * (p.y * q.z - p.z * q.y) + (o'.y - o.y) * (p.z * q.x - p.x * q.z) + (o'.z - o.z) * (p.x * q.y - p.y * q.x)
  have hs := sides_sum (es := (ts.filter (fun f => decide (Proper3 f))).flatMap sides) (C92_closed h.complex h.once h.bounds) (g := g) (fun p q => by simp only [g]; ring)
  rw [List.filter_eq_self.2 fun t ht => decide_eq_true (proper_proper3 (h.complex.proper t ht))] at hs
  have e : ∀ l : List (Tri P3), enclosed o l = enclosed o' l + ((l.flatMap sides).map fun e => g e.1 e.2).sum := by
    intro l
    induction l with
    | nil => simp [enclosed]
    | cons t l ih =>
      simp only [enclosed] at ih
      simp only [enclosed, List.map_cons, List.sum_cons, List.flatMap_cons, List.map_append, List.sum_append, ih, sides, List.map_nil, List.sum_nil, g, cone, outward]
      ring
  rw [e, hs, add_zero]

/-- **Volumes of convex solids are positive.** There is a point on the inner side of all faces. -/
theorem C108_positive {ts : List (Tri P3)} {χ : P3 → Prop} {r : Region P3 D} (h : IsSolid r ts χ) (hne : ts ≠ []) {x : P3} (hx : Within ts x) (o : P3) : 0 < volume o r := by
  rw [C108_apex h o x, volume_corners h.corners]
  have pos : ∀ t ∈ ts, 0 < cone x t := by
    intro t ht
    have := hx t ht
    have e : (Side.plane t).eval x = -cone x t := by simp only [Side.plane, Side.Aff.eval, cone, dot, outward, normal, cross, sub]; ring
    linarith
  unfold enclosed
  refine List.sum_pos _ (fun v hv => ?_) (by simpa using hne)
  obtain ⟨t, ht, rfl⟩ := List.mem_map.1 hv
  exact pos t ht

/-! ## Volumes belong to sets -/

/-- The same order in all planes. -/
def lex (_ : Tri P3) (x y : P3) : Prop := x.x < y.x ∨ (x.x = y.x ∧ (x.y < y.y ∨ (x.y = y.y ∧ x.z < y.z)))

theorem lex_orders : Orders lex := by
  refine ⟨?_, ?_, ?_⟩
  · rintro t x (h | ⟨-, h | ⟨-, h⟩⟩) <;> exact lt_irrefl _ h
  · rintro t x y z (h | ⟨h, k | ⟨k, l⟩⟩) (h' | ⟨h', k' | ⟨k', l'⟩⟩)
    · exact .inl (h.trans h')
    · exact .inl (h' ▸ h)
    · exact .inl (h' ▸ h)
    · exact .inl (h ▸ h')
    · exact .inr ⟨h.trans h', .inl (k.trans k')⟩
    · exact .inr ⟨h.trans h', .inl (k' ▸ k)⟩
    · exact .inl (h ▸ h')
    · exact .inr ⟨h.trans h', .inl (k ▸ k')⟩
    · exact .inr ⟨h.trans h', .inr ⟨k.trans k', l.trans l'⟩⟩
  · intro t _ x y _ _
    rcases lt_trichotomy x.x y.x with h | h | h
    · exact .inr (.inl (.inl h))
    · rcases lt_trichotomy x.y y.y with k | k | k
      · exact .inr (.inl (.inr ⟨h, .inl k⟩))
      · rcases lt_trichotomy x.z y.z with l | l | l
        · exact .inr (.inl (.inr ⟨h, .inr ⟨k, l⟩⟩))
        · exact .inl (p3_ext h k l)
        · exact .inr (.inr (.inr ⟨h.symm, .inr ⟨k.symm, l⟩⟩))
      · exact .inr (.inr (.inr ⟨h.symm, .inl k⟩))
    · exact .inr (.inr (.inl h))

/-- Any two surfaces have a common refinement. -/
theorem cut_exists {op : Bool → List (Tri P3)} {s : Bool → Soup P3 D} (h : Operands op s) : ∃ (m : Soup P3 (MixedData D)) (ts : List (Tri P3)) (border : List (Nat × Nat)), CutInto op m ts border := by
  have hE := C74_consistent op
  obtain ⟨m, border, hm⟩ := C81_mixed lex_orders h hE
  obtain ⟨cut, ts, h1, h2, h3⟩ := Corefine.gives_laid_by h hE hm
  have hs : SplitCircles lex op := by
    intro t _ u _ k _ _ w x y z _ _ _ _ _ _ l1 _ _ l4 _ _
    exact absurd (lex_orders.trans t _ _ _ l1 l4) (lex_orders.irrefl _ _)
  exact ⟨m, ts, border, Cutting.laid_cutInto h1 (Cutting.settled_ties lex_orders hs _ h1 h3) h2⟩

/-- **The volume is determined by the set.** Two solids that are the same set apart from points of some surface have the same volume, whatever their boundaries look like. -/
theorem C108_set (ha : IsSolid a (orig true) (χ true)) (hb : IsSolid b (orig false) (χ false)) {X : List (Tri P3)} (hX : ∀ t ∈ X, Proper t) (hag : ∀ x, ¬ Surface X x → (χ true x ↔ χ false x)) (o : P3) : volume o a = volume o b := by
  obtain ⟨m, ts, border, hcut⟩ := cut_exists (s := both a.boundary b.boundary) (solid_operands ha hb)
  have hsol := solid_both ha hb
  have hc := cut_in hcut zone_whole (fun _ => within_whole _) (χ := χ) fun c => (hsol c).bounds.whole
  have hW : Split Whole ts := ⟨hc.zone, hc.complex, hc.within⟩
  have hvol : ∀ c, enclosed o (orig c) = ∑ w, cone o ((arr ts hW).tri w) * (ind (lower (part_operand ts m.data c) (hc.bounds c) ((arr ts hW).behind w)) - ind (lower (part_operand ts m.data c) (hc.bounds c) ((arr ts hW).front w))) := by
    intro c
    obtain ⟨src, hr⟩ := hcut.refines c
    rw [← enclosed_refines hr (hsol c).complex.proper (part_complex hc.complex (part_operand ts m.data c)) (hc.once c) o]
    exact enclosed_bounds o (bounds_of_region hW (part_operand ts m.data c) (hc.once c) (hc.bounds c))
  have okX : ∀ t ∈ X, Ok t := fun t ht => ok_of_proper (hX t ht)
  have okW : ∀ t ∈ ts, Ok t := fun t ht => ok_of_proper (hc.complex.proper t ht)
  have same : ∀ k : Cell Whole ts, lower (part_operand ts m.data true) (hc.bounds true) k = lower (part_operand ts m.data false) (hc.bounds false) k := by
    intro k
    obtain ⟨x, hx, rfl⟩ := cellOf_surj k
    rw [Bool.eq_iff_iff, lower_cell, lower_cell]
    obtain ⟨e, he, hfree⟩ := ball okW hx.2
    obtain ⟨y, h1, -, h2⟩ := off_near okX x he
    have hseg : ∀ c z, OnSegment x y z → ¬ Surface (orig c) z := by
      intro c z hz hs
      obtain ⟨src, hr⟩ := hcut.refines c
      obtain ⟨t, ht, hin⟩ := (refines_surface hr z).1 hs
      obtain ⟨u, hu, hm⟩ := part_operand ts m.data c t ht
      exact hfree x y (near_refl he.le x) h1 z hz ⟨u, hu, in_match (match_symm hm) hin⟩
    exact ((hsol true).bounds.const x y (hseg true)).trans ((hag y h2).trans ((hsol false).bounds.const x y (hseg false)).symm)
  rw [volume_corners ha.corners, volume_corners hb.corners, hvol true, hvol false]
  exact Finset.sum_congr rfl fun w _ => by rw [same, same]

/-- Two regions that denote the same set have the same volume. -/
theorem C108_denotes {r r' : Region P3 D} {A S : P3 → Prop} {X : List (Tri P3)} (hX : ∀ t ∈ X, Proper t) (hS : ∀ x, S x → Surface X x) (h : Denotes r A S) (h' : Denotes r' A S) (o : P3) : volume o r = volume o r' := by
  obtain ⟨ts, χ1, s1, -, a1⟩ := h
  obtain ⟨us, χ2, s2, -, a2⟩ := h'
  exact C108_set (orig := both ts us) (χ := fun c => if c then χ1 else χ2) s1 s2 hX (fun x hx => (a1 x fun h => hx (hS x h)).trans (a2 x fun h => hx (hS x h)).symm) o

/-! ## Boolean operations -/

theorem ind_truth (op : Op) (x y : Bool) : ind (truth op x y) = ind (truth op false false) + (ind (truth op true false) - ind (truth op false false)) * ind x + (ind (truth op false true) - ind (truth op false false)) * ind y +
    (ind (truth op true true) - ind (truth op true false) - ind (truth op false true) + ind (truth op false false)) * ind (truth .intersection x y) := by
  have e : ∀ x y, ind (truth .intersection x y) = ind x * ind y := by decide +kernel
  rw [e]
  have t : ind true = 1 := rfl
  have f : ind false = 0 := rfl
  cases x <;> cases y <;> simp only [t, f] <;> ring

/-- **The volume of the result of any operation** is a combination of the volumes of the operands and of the intersection; the coefficients are read off the truth table. -/
theorem C108_volume {cut : Soup P3 D → Soup P3 D → Soup P3 (MixedData D) → List (Nat × Nat) → Prop}
    (hcut : a.kind = .boundaryDefined → b.kind = .boundaryDefined → ∀ m0 border, cut a.boundary b.boundary m0 border → ∃ ts, Corefined orig m0 ts border)
    (ha : IsSolid a (orig true) (χ true)) (hb : IsSolid b (orig false) (χ false)) {E : Mix.Env} (hE : E.Valid orig) {bb : Builder P3 D} {w : Global.Warnings} (h : Mix.Built E cut a b bb w) {op : Op} {pf pf' : Bool}
    {r k : Region P3 D} (hr : bb.run op pf = ok r) (hk : bb.run .intersection pf' = ok k) (o : P3) :
    volume o r = (ind (truth op true false) - ind (truth op false false)) * volume o a + (ind (truth op false true) - ind (truth op false false)) * volume o b +
      (ind (truth op true true) - ind (truth op true false) - ind (truth op false true) + ind (truth op false false)) * volume o k := by
  obtain ⟨n, v, p, q, h1, h2, h3⟩ := volumes_in zone_whole (fun ka kb m0 border h => (hcut ka kb m0 border h).imp fun _ h => ⟨h, clear_whole _ _ _ _⟩) (isSolidIn_whole.2 ha) (isSolidIn_whole.2 hb) hE h o
  rw [h1, h2, h3 _ _ _ hr, h3 _ _ _ hk, Finset.mul_sum, Finset.mul_sum, Finset.mul_sum, ← Finset.sum_add_distrib, ← Finset.sum_add_distrib]
  refine Finset.sum_congr rfl fun i _ => ?_
  rw [ind_truth op (p i).1, ind_truth op (q i).1]
  ring

section
variable {E : Env} {E' : Mix.Env} (ha : IsSolid a (orig true) (χ true)) (hb : IsSolid b (orig false) (χ false)) (hE : E.Valid orig) (hE' : E'.Valid orig) (hg : NoFourOnCircle orig) (hman : ManifoldWhereCoinciding orig)
include ha hb hE hE' hg hman

/-- **Inclusion and exclusion**, under the conditions of C73: whatever the threads do and whatever constrained Delaunay triangulations CGAL gives, also if the operations are executed separately. -/
theorem C108_inclusion_exclusion {bb bb' : Builder P3 D} {w w' : Global.Warnings} (h : Mix.Built E' (Gives E) a b bb w) (h' : Mix.Built E' (Gives E) a b bb' w') {pf pf' : Bool} {u k : Region P3 D} (hu : bb.run .union pf = ok u)
    (hk : bb'.run .intersection pf' = ok k) (o : P3) : volume o u + volume o k = volume o a + volume o b := by
  obtain ⟨-, k1, hk1, d1⟩ := C73_boolean ha hb hE hg hman hE' h .intersection pf'
  obtain ⟨-, k2, hk2, d2⟩ := C73_boolean ha hb hE hg hman hE' h' .intersection pf'
  rw [hk] at hk2; cases hk2
  have e := C108_denotes (X := orig true ++ orig false) (fun t ht => (List.mem_append.1 ht).elim (ha.complex.proper t) (hb.complex.proper t)) (fun x hx => by
    rcases hx with ⟨t, ht, hin⟩ | ⟨t, ht, hin⟩
    · exact ⟨t, List.mem_append_left _ ht, hin⟩
    · exact ⟨t, List.mem_append_right _ ht, hin⟩) d1 d2 o
  have := C108_volume (fun _ _ _ _ hm => C73_corefined (s := both a.boundary b.boundary) (solid_operands ha hb) hE hg hman hm) ha hb hE' h hu hk1 o
  simp only [truth, Spec.table, Op.union, ind] at this
  rw [← e, this]
  simp

/-- **Differences**: what is cut off and what remains make up the whole. -/
theorem C108_difference {bb : Builder P3 D} {w : Global.Warnings} (h : Mix.Built E' (Gives E) a b bb w) {pf pf' : Bool} {d k : Region P3 D} (hd : bb.run .difference pf = ok d)
    (hk : bb.run .intersection pf' = ok k) (o : P3) : volume o d + volume o k = volume o a := by
  have := C108_volume (fun _ _ _ _ hm => C73_corefined (s := both a.boundary b.boundary) (solid_operands ha hb) hE hg hman hm) ha hb hE' h hd hk o
  simp only [truth, Spec.table, Op.difference, ind] at this
  rw [this]
  simp

/-- **Symmetric differences** are what the union has and the intersection has not. -/
theorem C108_symmetric {bb : Builder P3 D} {w : Global.Warnings} (h : Mix.Built E' (Gives E) a b bb w) {pf pf' pf'' : Bool} {s u k : Region P3 D} (hs : bb.run .symmetricDifference pf = ok s) (hu : bb.run .union pf' = ok u)
    (hk : bb.run .intersection pf'' = ok k) (o : P3) : volume o s + volume o k = volume o u := by
  have hc := fun (_ : a.kind = .boundaryDefined) (_ : b.kind = .boundaryDefined) m0 border hm => C73_corefined (m := m0) (border := border) (s := both a.boundary b.boundary) (solid_operands ha hb) hE hg hman hm
  have h1 := C108_volume hc ha hb hE' h hs hk o
  have h2 := C108_volume hc ha hb hE' h hu hk o
  simp only [truth, Spec.table, Op.symmetricDifference, Op.union, ind] at h1 h2
  rw [h1, h2]
  simp
  ring

/-- **Complements** have the opposite volume; everything and nothing have none. -/
theorem C108_complement {bb : Builder P3 D} {w : Global.Warnings} (h : Mix.Built E' (Gives E) a b bb w) {pf : Bool} {f : Region P3 D} (o : P3) :
    (bb.run .F pf = ok f → volume o f = -volume o a) ∧ (bb.run .V pf = ok f → volume o f = 0) ∧ (bb.run .O pf = ok f → volume o f = 0) := by
  obtain ⟨-, k, hk, -⟩ := C73_boolean ha hb hE hg hman hE' h .intersection pf
  have hc := fun (_ : a.kind = .boundaryDefined) (_ : b.kind = .boundaryDefined) m0 border hm => C73_corefined (m := m0) (border := border) (s := both a.boundary b.boundary) (solid_operands ha hb) hE hg hman hm
  refine ⟨fun hr => ?_, fun hr => ?_, fun hr => ?_⟩ <;>
  · have := C108_volume hc ha hb hE' h hr hk o
    simp only [truth, Spec.table, ind] at this
    rw [this]
    simp

end

/-! ## Tetrahedra -/

/-- The volume of a tetrahedron. -/
theorem simplex_volume (o p q r s : P3) : volume o (simplex p q r s) = det4 p q r s := by
  simp only [volume, enclosed, simplex, cornersOf, List.map_cons, List.map_nil, List.sum_cons, List.sum_nil, cone, outward, det4, dot, cross, sub, List.getElem?_cons_zero, List.getElem?_cons_succ, Option.getD_some]
  ring

/-- **Any two tetrahedra without parallel faces**: the union and the intersection, which are always found, have together the volume of the two. -/
theorem C108_tetrahedra {p q r s p' q' r' s' : P3} (h : 0 < det4 p q r s) (h' : 0 < det4 p' q' r' s') (hpar : ∀ t ∈ Space.tetra p q r s, ∀ u ∈ Space.tetra p' q' r' s', ¬ Parallel (outward t) (outward u)) {E : Env} {E' : Mix.Env}
    (hE : E.Valid (both (Space.tetra p q r s) (Space.tetra p' q' r' s'))) (hE' : E'.Valid (both (Space.tetra p q r s) (Space.tetra p' q' r' s'))) :
    (∃ bb w, Mix.Built E' (Gives E) (simplex p q r s) (simplex p' q' r' s') bb w) ∧ ∀ bb w, Mix.Built E' (Gives E) (simplex p q r s) (simplex p' q' r' s') bb w → ∀ pf, ∃ u k, bb.run .union pf = ok u ∧ bb.run .intersection pf = ok k ∧
      ∀ o, volume o u + volume o k = det4 p q r s + det4 p' q' r' s' := by
  obtain ⟨-, h2, h3⟩ := C79_tetrahedra h h' hpar hE hE'
  refine ⟨h2, fun bb w hb pf => ?_⟩
  obtain ⟨u, hu, -⟩ := h3 bb w hb .union pf
  obtain ⟨k, hk, -⟩ := h3 bb w hb .intersection pf
  refine ⟨u, k, hu, hk, fun o => ?_⟩
  have hno := Crossing.of_normals (op := both (Space.tetra p q r s) (Space.tetra p' q' r' s')) hpar
  rw [← simplex_volume o p q r s, ← simplex_volume o p' q' r' s']
  exact C108_inclusion_exclusion (orig := both (Space.tetra p q r s) (Space.tetra p' q' r' s')) (χ := fun c => Within (both (Space.tetra p q r s) (Space.tetra p' q' r' s') c)) (simplex_is h) (simplex_is h') hE hE' (Crossing.noFour hno)
    (Crossing.manifold hno (tetra_complex h).proper) hb hb hu hk o

/-- The block and the needle through it. -/
example : ∃ bb w, Mix.Built (someEnv (both block needle)) (Gives (Corefine.exactEnv (both block needle))) (simplex ⟨0, 0, 0⟩ ⟨8, 0, 0⟩ ⟨0, 8, 0⟩ ⟨0, 0, 8⟩) (simplex ⟨1, 1, -3⟩ ⟨3, 2, -4⟩ ⟨2, 4, -3⟩ ⟨2, 2, 9⟩) bb w ∧
    ∃ u k, bb.run .union true = ok u ∧ bb.run .intersection true = ok k ∧ ∀ o, volume o u + volume o k = 512 + 62 := by
  have h : 0 < det4 ⟨0, 0, 0⟩ ⟨8, 0, 0⟩ ⟨0, 8, 0⟩ ⟨0, 0, 8⟩ := by decide +kernel
  have h' : 0 < det4 ⟨1, 1, -3⟩ ⟨3, 2, -4⟩ ⟨2, 4, -3⟩ ⟨2, 2, 9⟩ := by decide +kernel
  obtain ⟨⟨bb, w, hb⟩, h3⟩ := C108_tetrahedra h h' (by decide +kernel) (C74_consistent _) (C70_consistent (by
    intro c
    cases c
    exacts [tetra_proper h'.ne', tetra_proper h.ne']))
  obtain ⟨u, k, hu, hk, hv⟩ := h3 bb w hb true
  refine ⟨bb, w, hb, u, k, hu, hk, fun o => ?_⟩
  rw [hv o]
  decide +kernel

/-- A tetrahedron and the tetrahedron with the corners in another order, which is the space around it. -/
example : volume ⟨0, 0, 0⟩ (simplex ⟨0, 0, 0⟩ ⟨8, 0, 0⟩ ⟨0, 8, 0⟩ ⟨0, 0, 8⟩) = 512 ∧ volume ⟨5, 7, 1⟩ (simplex ⟨0, 0, 0⟩ ⟨0, 8, 0⟩ ⟨8, 0, 0⟩ ⟨0, 0, 8⟩) = -512 := by
  rw [simplex_volume, simplex_volume]; decide +kernel

/-- An open surface has no volume of its own: it depends on the apex. -/
example : enclosed ⟨0, 0, 0⟩ [⟨⟨0, 0, 1⟩, ⟨1, 0, 1⟩, ⟨0, 1, 1⟩⟩] = 1 ∧ enclosed ⟨0, 0, 1⟩ [⟨⟨0, 0, 1⟩, ⟨1, 0, 1⟩, ⟨0, 1, 1⟩⟩] = 0 := by decide +kernel

end Kigumi.Props

import Verif.Proofs.PiecesMeet
import Verif.Proofs.Ties

/-! # Constrained Delaunay triangulations are unique if no four vertices are on a circle, or if ties are broken by an order -/
namespace Kigumi.Cutting
open Kigumi Geo Spec.Triangles Spec.Side FaceFace Space
open Kigumi.Spec (SameTri)
open Kigumi.Side (Aff plane Ok eval_seg in_iff sides weightA weightB weightC eval_weightA eval_weightB eval_weightC eval_plane eval_plane' eval_neg ok_of_proper onSegment_self left_end right_end onSegment_swap in_a in_b in_c plane_in same_plane exists_eps miss_near seg_near near_refl near_mono)
variable {t p r : Tri P3} {V : P3 → Prop} {S : P3 → P3 → Prop} {ps ps' : List (Tri P3)}

/-- An inner point is not between corners. -/
theorem inner_apart (ht : Ok p) {x c d : P3} (h : Inner p x) (hc : c ∈ p.toList) (hd : d ∈ p.toList) (hx : OnSegment c d x) : False := by
  have e1 : IsEdge p p.a p.b := by simp [IsEdge]
  have e2 : IsEdge p p.b p.c := by simp [IsEdge]
  have e3 : IsEdge p p.c p.a := by simp [IsEdge]
  have k1 := fun k => inner_edge ht h e1 k
  have k2 := fun k => inner_edge ht h e2 k
  have k3 := fun k => inner_edge ht h e3 k
  have hs : ∀ {a b : P3}, OnSegment a a x → OnSegment a b x := fun {a b} k => by rw [onSegment_self k]; exact left_end a b
  simp only [Tri.toList, List.mem_cons, List.not_mem_nil, or_false] at hc hd
  rcases hc with rfl | rfl | rfl <;> rcases hd with rfl | rfl | rfl
  exacts [k1 (hs hx), k1 hx, k3 (onSegment_swap hx), k1 (onSegment_swap hx), k2 (hs hx), k2 hx, k3 hx, k2 (onSegment_swap hx), k3 (hs hx)]

/-- No constraint is in the interior of a triangle of the triangulation. -/
theorem inner_free (T : Triangulates t V S ps) (hp : p ∈ ps) {x c d : P3} (h : Inner p x) (hs : S c d) (hx : OnSegment c d x) : False := by
  obtain ⟨p0, hp0, c', hc', d', hd', -, -, o3⟩ := T.segment c d x hs hx
  have in0 : In p0 x := in_convex p0 x c' d' (in_corner hc') (in_corner hd') o3
  have hm := inner_common (T.complex.proper p hp) h (T.complex.meet p hp p0 hp0 x (inner_in h) in0)
  obtain rfl := once_match T.once hp hp0 hm
  exact inner_apart (ok_of_proper (T.complex.proper p hp)) h hc' hd' o3

/-- The corners of a triangle of the triangulation are visible from its interior. -/
theorem sees_corner (T : Triangulates t V S ps) (hp : p ∈ ps) {y v : P3} (hy : Inner p y) (hv : In p v) : Sees S y v := by
  intro x hx hne c d hs hcd
  obtain ⟨s, r, hsr, s0, r0, ex⟩ := hx
  have hs0 : 0 < s := by
    refine lt_of_le_of_ne s0 ?_
    rintro rfl
    apply hne
    have : r = 1 := by linarith
    rw [ex, this]
    apply p3_ext <;> simp
  have ex' : x = seg (1 - s) s v y := by
    rw [ex]
    have : r = 1 - s := by linarith
    rw [this]
    apply p3_ext <;> simp only [seg] <;> ring
  have xi : Inner p x := by rw [ex']; exact inner_seg hv hy hs0 (by linarith)
  exact inner_free T hp xi hs hcd

/-- Two triangulations of one triangle: triangles with a common inner point have their corners on one circle. -/
theorem unique_meet (T : Triangulates t V S ps) (T' : Triangulates t V S ps') (ht : Ok t) (hp : p ∈ ps) :
    ∃ r ∈ ps', (∃ y, Inner p y ∧ Inner r y) ∧ ∃ o d, (∀ v ∈ p.toList, dist2 o v = d) ∧ ∀ v ∈ r.toList, dist2 o v = d := by
  have okp := ok_of_proper (T.complex.proper p hp)
  have ci := inner_centre p
  obtain ⟨r, hr, hrc⟩ := T'.cover (centre p) (T.inside p hp _ (inner_in ci))
  have okr := ok_of_proper (T'.complex.proper r hr)
  have hin : ∃ y, Inner p y ∧ Inner r y := by
    obtain ⟨e, he, hn⟩ := exists_eps (fun (f : Aff) e => ∀ y, Near e y (centre p) → 0 < f.eval y) (fun f e e' _ hle hP y hy => hP y (near_mono hle hy)) [weightA p, weightB p, weightC p]
      (fun f hf => Kigumi.Side.eval_near f (inner_pos okp ci f hf))
    obtain ⟨k, k0, k1, hk⟩ := seg_near he (centre p) (centre r)
    have hir := inner_seg hrc (inner_centre r) k0 k1
    have hpp : ∀ x, (plane t).eval x = 0 → (plane p).eval x = 0 := by
      obtain ⟨c, hc, e⟩ := same_plane okp ht (fun z hz => plane_in (T.inside p hp z hz))
      intro x hx
      rw [e, mul_eq_zero] at hx
      exact hx.resolve_left hc
    have hz : (plane p).eval (seg (1 - k) k (centre p) (centre r)) = 0 := by
      rw [eval_seg _ (by ring), hpp _ (plane_in (T.inside p hp _ (inner_in ci))), hpp _ (plane_in (T'.inside r hr _ (inner_in (inner_centre r))))]; ring
    have hip : In p (seg (1 - k) k (centre p) (centre r)) := by
      rw [in_iff okp]
      intro f hf
      simp only [sides, List.mem_cons, List.not_mem_nil, or_false] at hf
      rcases hf with rfl | rfl | hf
      · exact hz.ge
      · rw [eval_neg, hz]; simp
      · exact (hn f (by simpa using hf) _ hk).le
    have a1 := inner_seg (k := 1 / 2) hip ci (by norm_num) (by norm_num)
    have a2 := inner_seg (k := 1 / 2) hrc hir (by norm_num) (by norm_num)
    refine ⟨_, a1, ?_⟩
    convert a2 using 1
    apply p3_ext <;> simp only [seg] <;> ring
  obtain ⟨y, yp, yr⟩ := hin
  obtain ⟨o, o1, o2⟩ := circumcentre okp
  obtain ⟨o', o1', o2'⟩ := circumcentre okr
  have dp : ∀ v ∈ r.toList, dist2 o p.a ≤ dist2 o v := fun v hv => T.delaunay p hp v (T'.corner r hr v hv) y yp (sees_corner T' hr yr (in_corner hv)) o o1 o2
  have dr : ∀ v ∈ p.toList, dist2 o' r.a ≤ dist2 o' v := fun v hv => T'.delaunay r hr v (T.corner p hp v hv) y yr (sees_corner T hp yp (in_corner hv)) o' o1' o2'
  have onp : ∀ v ∈ p.toList, dist2 o v = dist2 o p.a := by
    intro v hv
    simp only [Tri.toList, List.mem_cons, List.not_mem_nil, or_false] at hv
    rcases hv with rfl | rfl | rfl
    · rfl
    · exact o1.symm
    · exact (o1.trans o2).symm
  have onr : ∀ v ∈ r.toList, dist2 o' v = dist2 o' r.a := by
    intro v hv
    simp only [Tri.toList, List.mem_cons, List.not_mem_nil, or_false] at hv
    rcases hv with rfl | rfl | rfl
    · rfl
    · exact o1'.symm
    · exact (o1'.trans o2').symm
  let g := radical o o' (dist2 o' r.a - dist2 o p.a)
  have gp : ∀ v ∈ p.toList, g.eval v ≤ 0 := fun v hv => by
    simp only [g, radical_eval]
    linarith [onp v hv, dr v hv]
  have gr : ∀ v ∈ r.toList, g.neg.eval v ≤ 0 := fun v hv => by
    rw [eval_neg]
    simp only [g, radical_eval]
    linarith [onr v hv, dp v hv]
  have g0 : g.eval (centre p) = 0 := by
    have a1 := hull_eval gr (in_hull hrc)
    have a2 := hull_eval gp (in_hull (inner_in ci))
    rw [eval_neg] at a1
    linarith
  have ge : g.eval (centre p) = (g.eval p.a + g.eval p.b + g.eval p.c) / 3 := by simp only [Aff.eval, centre, combo, dot]; ring
  have ga := gp p.a (by simp [Tri.toList])
  have gb := gp p.b (by simp [Tri.toList])
  have gc := gp p.c (by simp [Tri.toList])
  have zero : ∀ v ∈ p.toList, g.eval v = 0 := by
    intro v hv
    simp only [Tri.toList, List.mem_cons, List.not_mem_nil, or_false] at hv
    rcases hv with rfl | rfl | rfl <;> linarith
  refine ⟨r, hr, ⟨y, yp, yr⟩, o', dist2 o' r.a, fun v hv => ?_, onr⟩
  have := zero v hv
  simp only [g, radical_eval] at this
  linarith [onp v hv]

/-- Triangles with the same corners and the same orientation. -/
theorem same_of_oriented {n : P3} (hp : Proper p) (hm : Match p r) (h1 : ∃ k > 0, outward p = ⟨k * n.x, k * n.y, k * n.z⟩) (h2 : ∃ k > 0, outward r = ⟨k * n.x, k * n.y, k * n.z⟩) : SameTri p r := by
  rcases hm with hm | hm
  · exact hm
  exfalso
  obtain ⟨k, k0, e⟩ := h1
  obtain ⟨k', k0', e'⟩ := h2
  have hf : outward r = ⟨-(outward p).x, -(outward p).y, -(outward p).z⟩ := by
    obtain ⟨a, b, c⟩ := p
    unfold SameTri at hm
    simp only [Tri.flip, Tri.rot] at hm
    rcases hm with rfl | rfl | rfl <;> simp only [outward, Spec.P3.mk.injEq] <;> refine ⟨?_, ?_, ?_⟩ <;> ring
  rw [e, e'] at hf
  simp only [Spec.P3.mk.injEq] at hf
  obtain ⟨f1, f2, f3⟩ := hf
  have hk : k' + k ≠ 0 := by positivity
  apply hp
  rw [e]
  have z : ∀ {w : ℚ}, k' * w = -(k * w) → k * w = 0 := by
    intro w hw
    have : (k' + k) * w = 0 := by linarith
    rcases mul_eq_zero.1 this with h | h
    · exact absurd h hk
    · rw [h, mul_zero]
  rw [z f1, z f2, z f3]

/-- **Constrained Delaunay triangulations of a triangle are unique** if no four vertices are on a circle. -/
theorem unique_triangles (T : Triangulates t V S ps) (T' : Triangulates t V S ps') (ht : Proper t)
    (hg : ∀ o w x y z, V w ∨ w ∈ t.toList → V x ∨ x ∈ t.toList → V y ∨ y ∈ t.toList → V z ∨ z ∈ t.toList → dist2 o w = dist2 o x → dist2 o x = dist2 o y → dist2 o y = dist2 o z → w = x ∨ w = y ∨ w = z ∨ x = y ∨ x = z ∨ y = z)
    (hp : p ∈ ps) : ∃ r ∈ ps', SameTri p r := by
  obtain ⟨r, hr, -, o, d, ep, er⟩ := unique_meet T T' (ok_of_proper ht) hp
  refine ⟨r, hr, same_of_oriented (T.complex.proper p hp) ?_ (T.oriented p hp) (T'.oriented r hr)⟩
  obtain ⟨d1, d2, d3⟩ := proper_distinct (T.complex.proper p hp)
  have ka := ep p.a (by simp [Tri.toList])
  have kb := ep p.b (by simp [Tri.toList])
  have kc := ep p.c (by simp [Tri.toList])
  have mem : ∀ v ∈ r.toList, v ∈ p.toList := by
    intro v hv
    have hh := hg o p.a p.b p.c v (T.corner p hp _ (by simp [Tri.toList])) (T.corner p hp _ (by simp [Tri.toList])) (T.corner p hp _ (by simp [Tri.toList])) (T'.corner r hr v hv)
      (by linarith) (by linarith) (by linarith [er v hv])
    simp only [Tri.toList, List.mem_cons, List.not_mem_nil, or_false]
    rcases hh with e | e | e | e | e | e
    · exact absurd e d1
    · exact absurd e.symm d3
    · exact Or.inl e.symm
    · exact absurd e d2
    · exact Or.inr (Or.inl e.symm)
    · exact Or.inr (Or.inr e.symm)
  exact match_symm (match_of_mem (proper_distinct (T'.complex.proper r hr)) (mem _ (by simp [Tri.toList])) (mem _ (by simp [Tri.toList])) (mem _ (by simp [Tri.toList])))

/-- **… or if ties are broken by an order.** -/
theorem unique_ties {lt : P3 → P3 → Prop} (T : Triangulates t V S ps) (T' : Triangulates t V S ps') (ht : Proper t)
    (irr : ∀ x, ¬ lt x x) (tr : ∀ x y z, lt x y → lt y z → lt x z) (tot : ∀ x y, LiesIn t x → LiesIn t y → x = y ∨ lt x y ∨ lt y x)
    (B : TiesBy lt t V S ps) (B' : TiesBy lt t V S ps') (hp : p ∈ ps) : ∃ r ∈ ps', SameTri p r := by
  obtain ⟨r, hr, ⟨y, yp, yr⟩, o, d, ep, er⟩ := unique_meet T T' (ok_of_proper ht) hp
  refine ⟨r, hr, same_of_oriented (T.complex.proper p hp) ?_ (T.oriented p hp) (T'.oriented r hr)⟩
  have pp := T.complex.proper p hp
  have pr := T'.complex.proper r hr
  have inp : ∀ v ∈ p.toList, LiesIn t v := fun v hv => inPlane_of (plane_in (T.inside p hp v (in_corner hv)))
  have inr : ∀ v ∈ r.toList, LiesIn t v := fun v hv => inPlane_of (plane_in (T'.inside r hr v (in_corner hv)))
  have cop : ∀ v, dist2 o v = d → Cocircular p.a p.b p.c v := fun v hv =>
    ⟨o, by rw [ep p.a (by simp [Tri.toList]), ep p.b (by simp [Tri.toList])], by rw [ep p.b (by simp [Tri.toList]), ep p.c (by simp [Tri.toList])], by rw [ep p.c (by simp [Tri.toList]), hv]⟩
  have cor : ∀ v, dist2 o v = d → Cocircular r.a r.b r.c v := fun v hv =>
    ⟨o, by rw [er r.a (by simp [Tri.toList]), er r.b (by simp [Tri.toList])], by rw [er r.b (by simp [Tri.toList]), er r.c (by simp [Tri.toList])], by rw [er r.c (by simp [Tri.toList]), hv]⟩
  exact tie_unique (lt := lt) (S := LiesIn t) irr tr tot pp pr inp inr ep er
    (fun v hv hn => B p hp v (T'.corner r hr v hv) hn y yp (sees_corner T' hr yr (in_corner hv)) (cop v (er v hv)))
    (fun v hv hn => B' r hr v (T.corner p hp v hv) hn y yr (sees_corner T hp yp (in_corner hv)) (cor v (ep v hv))) yp yr

end Kigumi.Cutting

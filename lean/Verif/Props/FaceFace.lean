import Verif.Proofs.FaceFaceCycle
import Verif.Props.Defects

/-!
# Intersection of two triangles (C33, C34, C35, C64)
-/
namespace Kigumi.FaceFace
open Kigumi Outcome Geo Region Spec.Triangles Polygon

theorem normal_ne {a b c : P3} (h : ¬ Spec.Defects.Collinear a b c) : dot (normal a b c) (normal a b c) ≠ 0 := by
  intro h0
  apply h
  rw [← Props.collinear_iff]
  unfold Defects.collinear
  rw [decide_eq_true_eq]
  obtain ⟨x, y, z⟩ := dot_self_zero h0
  exact p3_ext x y z

theorem sign_sgn (x : ℚ) : Sign x (sgn x) := by
  rcases lt_trichotomy x 0 with h | h | h
  · exact Or.inr (Or.inr ⟨h, sgn_minus_one.2 h⟩)
  · exact Or.inr (Or.inl ⟨h, by rw [h]; rfl⟩)
  · exact Or.inl ⟨h, sgn_one.2 h⟩

/-! ## C35 -/

/-- A query for the orientation of four points. -/
abbrev Query := Nat × Nat × Nat × Nat

/-- Several queries one after the other. -/
def queries (pts : List P3) : List Query → M (List Int)
  | [] => pure []
  | (a, b, c, d) :: qs => do
    let o ← orientation4 pts a b c d
    let os ← queries pts qs
    return o :: os

/-- **C35.** Starting from an empty cache, every query of every sequence of queries returns the orientation of the four points in the order asked. -/
theorem C35_orientation (pts : List P3) : ∀ (qs : List Query), (∀ a b c d, (a, b, c, d) ∈ qs → a < pts.length ∧ b < pts.length ∧ c < pts.length ∧ d < pts.length) →
    ∃ os cache, queries pts qs [] = ok (os, cache) ∧ List.Forall₂ (fun (x : Query) o => ∀ p q r s, pts[x.1]? = some p → pts[x.2.1]? = some q → pts[x.2.2.1]? = some r → pts[x.2.2.2]? = some s → Sign (det p q r s) o) qs os := by
  intro qs hqs
  have key : ∀ qs : List Query, (∀ a b c d, (a, b, c, d) ∈ qs → a < pts.length ∧ b < pts.length ∧ c < pts.length ∧ d < pts.length) →
      Computes pts (queries pts qs) (qs.map fun x => sgn (det4 (pt pts x.1) (pt pts x.2.1) (pt pts x.2.2.1) (pt pts x.2.2.2))) := by
    intro qs
    induction qs with
    | nil => intro _; exact computes_pure _
    | cons x qs ih =>
      obtain ⟨a, b, c, d⟩ := x
      intro h
      obtain ⟨ha, hb, hc, hd⟩ := h a b c d List.mem_cons_self
      exact computes_bind (orientation4_computes ha hb hc hd) (computes_bind (ih (fun a b c d hm => h a b c d (List.mem_cons_of_mem _ hm))) (computes_pure _))
  obtain ⟨cache, e, _⟩ := key qs hqs [] (valid_nil pts)
  refine ⟨_, cache, e, ?_⟩
  rw [List.forall₂_map_right_iff, List.forall₂_same]
  intro x hx p q r s h1 h2 h3 h4
  have hg : ∀ (i : Nat) (p : P3), pts[i]? = some p → pt pts i = p := by
    intro i p h; rw [pt, List.getD_eq_getElem?_getD, h]; rfl
  rw [hg _ _ h1, hg _ _ h2, hg _ _ h3, hg _ _ h4]
  have : det4 p q r s = det p q r s := by simp only [det4, det, dot, cross, sub]; ring
  rw [this]; exact sign_sgn _

/-- The same four points in three orders, one of them with a repeated point. -/
example : (queries [⟨0, 0, 0⟩, ⟨1, 0, 0⟩, ⟨0, 1, 0⟩, ⟨0, 0, 1⟩] [(0, 1, 2, 3), (1, 0, 2, 3), (2, 3, 0, 1), (0, 1, 1, 3)] []) = ok ([1, -1, 1, 0], [(⟨3, 1, 1, 0⟩, 0), (⟨3, 2, 1, 0⟩, 1)]) := by decide +kernel

/-! ## C33, C34, C64 -/

theorem codes_all : ∀ code ∈ List.range 64, hull (patCode true (code.testBit 0, code.testBit 1, code.testBit 2)) (patCode false (code.testBit 3, code.testBit 4, code.testBit 5)) = code := by
  decide +kernel

/-- The bits of the code of a pair. -/
theorem code_bits (L R : Pat) : codeOf (pairCode L R) < 64 ∧ (codeOf (pairCode L R)).testBit 0 = L.1 ∧ (codeOf (pairCode L R)).testBit 1 = L.2.1 ∧ (codeOf (pairCode L R)).testBit 2 = L.2.2 ∧
    (codeOf (pairCode L R)).testBit 3 = R.1 ∧ (codeOf (pairCode L R)).testBit 4 = R.2.1 ∧ (codeOf (pairCode L R)).testBit 5 = R.2.2 := by
  obtain ⟨x, y, z⟩ := L
  obtain ⟨x', y', z'⟩ := R
  cases x <;> cases y <;> cases z <;> cases x' <;> cases y' <;> cases z' <;> decide

theorem relint_code (L R : Pat) (a b c p q r x : P3) : (Relint 0 (codeOf (pairCode L R)) a b c x ↔ PatOpen L a b c x) ∧ (Relint 3 (codeOf (pairCode L R)) p q r x ↔ PatOpen R p q r x) := by
  obtain ⟨_, h0, h1, h2, h3, h4, h5⟩ := code_bits L R
  unfold Relint PatOpen
  rw [h0, h1, h2, h3, h4, h5]
  exact ⟨Iff.rfl, Iff.rfl⟩

theorem meetOnce_code (L R : Pat) (a b c p q r : P3) : MeetOnce (Relint 0 (codeOf (pairCode L R)) a b c) (Relint 3 (codeOf (pairCode L R)) p q r) ↔ MeetOnce (PatOpen L a b c) (PatOpen R p q r) := by
  have e1 : Relint 0 (codeOf (pairCode L R)) a b c = PatOpen L a b c := funext fun x => propext (relint_code L R a b c p q r x).1
  have e2 : Relint 3 (codeOf (pairCode L R)) p q r = PatOpen R p q r := funext fun x => propext (relint_code L R a b c p q r x).2
  rw [e1, e2]

theorem codeOf_inj {L R L' R' : Pat} (h : codeOf (pairCode L R) = codeOf (pairCode L' R')) : pairCode L R = pairCode L' R' := by
  obtain ⟨_, h0, h1, h2, h3, h4, h5⟩ := code_bits L R
  obtain ⟨_, k0, k1, k2, k3, k4, k5⟩ := code_bits L' R'
  rw [h] at h0 h1 h2 h3 h4 h5
  have e1 : L = L' := Prod.ext (h0.symm.trans k0) (Prod.ext (h1.symm.trans k1) (h2.symm.trans k2))
  have e2 : R = R' := Prod.ext (h3.symm.trans k3) (Prod.ext (h4.symm.trans k4) (h5.symm.trans k5))
  rw [e1, e2]

variable {pts : List P3} {ia ib ic ip iq ir : Nat} {a b c p q r : P3}

/-- The two triangles: ids that denote points, not collinear. -/
structure Two (pts : List P3) (ia ib ic ip iq ir : Nat) (a b c p q r : P3) : Prop where
  ha : pts[ia]? = some a
  hb : pts[ib]? = some b
  hc : pts[ic]? = some c
  hp : pts[ip]? = some p
  hq : pts[iq]? = some q
  hr : pts[ir]? = some r
  left : ¬ Spec.Defects.Collinear a b c
  right : ¬ Spec.Defects.Collinear p q r

/-- The result in terms of the pairs found. -/
theorem intersect_run (T : Two pts ia ib ic ip iq ir a b c p q r) : ∃ ws : List Hit, intersect pts ia ib ic ip iq ir = ok (ws.map codeOf) ∧ ws.Perm (allHits a b c p q r) ∧ ws.length ≤ 6 ∧
    (3 ≤ ws.length → Path (allHits a b c p q r) (AdjHit a b c p q r) ws ∧ ∀ f l, ws[0]? = some f → ws[ws.length - 1]? = some l → AdjHit a b c p q r l f) := by
  have lt : ∀ {i : Nat} {x : P3}, pts[i]? = some x → i < pts.length ∧ pt pts i = x := by
    intro i x h
    obtain ⟨h', _⟩ := List.getElem?_eq_some_iff.1 h
    exact ⟨h', by rw [pt, List.getD_eq_getElem?_getD, h]; rfl⟩
  obtain ⟨a1, a2⟩ := lt T.ha; obtain ⟨b1, b2⟩ := lt T.hb; obtain ⟨c1, c2⟩ := lt T.hc
  obtain ⟨p1, p2⟩ := lt T.hp; obtain ⟨q1, q2⟩ := lt T.hq; obtain ⟨r1, r2⟩ := lt T.hr
  obtain ⟨cache, e, _⟩ := hits_computes a1 b1 c1 p1 q1 r1 [] (valid_nil pts)
  rw [a2, b2, c2, p2, q2, r2] at e
  have hi : intersect pts ia ib ic ip iq ir = order (allHits a b c p q r) := by
    show (hits pts ia ib ic ip iq ir []).bind _ = _
    rw [e]; rfl
  rw [hi]
  have n1 := normal_ne T.left; have n2 := normal_ne T.right
  by_cases h3 : 3 ≤ (allHits a b c p q r).length
  · have C := hits_cycle n1 n2 h3
    obtain ⟨ws, r1, r2, r3, r4⟩ := order_ok C
    have hl := r3.length_eq
    exact ⟨ws, r1, r3, by rw [hl]; exact C.len6, fun _ => ⟨r2, by rw [hl]; exact r4⟩⟩
  · refine ⟨allHits a b c p q r, ?_, List.Perm.refl _, by omega, fun h => absurd h h3⟩
    unfold order; rw [if_pos (by omega)]; rfl

/-- **C33.** Something is reported exactly when the closed triangles share a point. -/
theorem C33_detection (T : Two pts ia ib ic ip iq ir a b c p q r) : ∃ l, intersect pts ia ib ic ip iq ir = ok l ∧ (l ≠ [] ↔ ∃ x, InTriangle a b c x ∧ InTriangle p q r x) := by
  obtain ⟨ws, e, hperm, _⟩ := intersect_run T
  refine ⟨_, e, ?_⟩
  rw [← allHits_nonempty (normal_ne T.left) (normal_ne T.right)]
  constructor
  · intro h h'; rw [h'] at hperm; rw [hperm.eq_nil] at h; exact h rfl
  · intro h h'; rw [List.map_eq_nil_iff] at h'; rw [h'] at hperm; exact h hperm.symm.eq_nil

/-- **C34.** A pair of simplices is reported exactly when their relative interiors meet in exactly one point, and no pair is reported twice. -/
theorem C34_corners (T : Two pts ia ib ic ip iq ir a b c p q r) : ∃ l, intersect pts ia ib ic ip iq ir = ok l ∧ l.Nodup ∧
    ∀ code, code ∈ l ↔ code < 64 ∧ MeetOnce (Relint 0 code a b c) (Relint 3 code p q r) := by
  obtain ⟨ws, e, hperm, _⟩ := intersect_run T
  have n1 := normal_ne T.left; have n2 := normal_ne T.right
  refine ⟨_, e, ?_, ?_⟩
  · refine List.Nodup.map_on ?_ (hperm.nodup_iff.2 (allHits_nodup n1 n2))
    intro x hx y hy hxy
    obtain ⟨L, R, rfl⟩ := allHits_pair (hperm.mem_iff.1 hx)
    obtain ⟨L', R', rfl⟩ := allHits_pair (hperm.mem_iff.1 hy)
    exact codeOf_inj hxy
  · intro code
    rw [List.mem_map]
    constructor
    · rintro ⟨h, hh, rfl⟩
      have hh := hperm.mem_iff.1 hh
      obtain ⟨L, R, rfl⟩ := allHits_pair hh
      exact ⟨(code_bits L R).1, (meetOnce_code L R a b c p q r).2 ((allHits_spec n1 n2 L R).1 hh)⟩
    · rintro ⟨hlt, hm⟩
      have hc := codes_all code (List.mem_range.2 hlt)
      refine ⟨pairCode (code.testBit 0, code.testBit 1, code.testBit 2) (code.testBit 3, code.testBit 4, code.testBit 5), hperm.mem_iff.2 ?_, hc⟩
      rw [allHits_spec n1 n2]
      exact hm

/-- A point with a zero weight is on the opposite edge. -/
theorem segment_of_zero {U : P3} (hU : total U = 1) (h : 0 ≤ U.x ∧ 0 ≤ U.y ∧ 0 ≤ U.z) (a b c : P3) :
    (U.x = 0 → OnSegment b c (pnt a b c U)) ∧ (U.y = 0 → OnSegment c a (pnt a b c U)) ∧ (U.z = 0 → OnSegment a b (pnt a b c U)) := by
  simp only [total] at hU
  refine ⟨fun e => ⟨U.y, U.z, by linarith, h.2.1, h.2.2, ?_⟩, fun e => ⟨U.z, U.x, by linarith, h.2.2, h.1, ?_⟩, fun e => ⟨U.x, U.y, by linarith, h.1, h.2.1, ?_⟩⟩ <;>
    apply p3_ext <;> simp only [pnt, combo, e] <;> ring

theorem zero_of_segment (hn : dot (normal a b c) (normal a b c) ≠ 0) {U : P3} (hU : total U = 1) :
    (OnSegment b c (pnt a b c U) → U.x = 0) ∧ (OnSegment c a (pnt a b c U) → U.y = 0) ∧ (OnSegment a b (pnt a b c U) → U.z = 0) := by
  simp only [total] at hU
  refine ⟨?_, ?_, ?_⟩ <;> rintro ⟨s, t, h, _, _, e⟩
  · have e' : combo U.x U.y U.z a b c = combo 0 s t a b c := by
      rw [pnt] at e; rw [e]; apply p3_ext <;> simp only [combo] <;> ring
    exact (weights_unique hn hU (by linarith) e').1
  · have e' : combo U.x U.y U.z a b c = combo t 0 s a b c := by
      rw [pnt] at e; rw [e]; apply p3_ext <;> simp only [combo] <;> ring
    exact (weights_unique hn hU (by linarith) e').2.1
  · have e' : combo U.x U.y U.z a b c = combo s t 0 a b c := by
      rw [pnt] at e; rw [e]; apply p3_ext <;> simp only [combo] <;> ring
    exact (weights_unique hn hU (by linarith) e').2.2

theorem sameEdge_iff (hn : dot (normal a b c) (normal a b c) ≠ 0) {U V : P3} (hU : total U = 1) (hV : total V = 1) (u : 0 ≤ U.x ∧ 0 ≤ U.y ∧ 0 ≤ U.z) (v : 0 ≤ V.x ∧ 0 ≤ V.y ∧ 0 ≤ V.z) :
    SameEdge a b c (pnt a b c U) (pnt a b c V) ↔ (U.x = 0 ∧ V.x = 0) ∨ (U.y = 0 ∧ V.y = 0) ∨ (U.z = 0 ∧ V.z = 0) := by
  obtain ⟨u1, u2, u3⟩ := segment_of_zero hU u a b c
  obtain ⟨v1, v2, v3⟩ := segment_of_zero hV v a b c
  obtain ⟨w1, w2, w3⟩ := zero_of_segment hn hU
  obtain ⟨x1, x2, x3⟩ := zero_of_segment hn hV
  unfold SameEdge
  constructor
  · rintro (⟨h, h'⟩ | ⟨h, h'⟩ | ⟨h, h'⟩)
    · exact Or.inr (Or.inr ⟨w3 h, x3 h'⟩)
    · exact Or.inl ⟨w1 h, x1 h'⟩
    · exact Or.inr (Or.inl ⟨w2 h, x2 h'⟩)
  · rintro (⟨h, h'⟩ | ⟨h, h'⟩ | ⟨h, h'⟩)
    · exact Or.inr (Or.inl ⟨u1 h, v1 h'⟩)
    · exact Or.inr (Or.inr ⟨u2 h, v2 h'⟩)
    · exact Or.inl ⟨u3 h, v3 h'⟩

/-- The relation between the corners in terms of points. -/
theorem adj_points (n1 : dot (normal a b c) (normal a b c) ≠ 0) (n2 : dot (normal p q r) (normal p q r) ≠ 0) {h h' : Hit} {x y : P3}
    (hh : h ∈ allHits a b c p q r) (hh' : h' ∈ allHits a b c p q r) (hx : IsCorner a b c p q r (codeOf h) x) (hy : IsCorner a b c p q r (codeOf h') y) :
    AdjHit a b c p q r h h' ↔ SameEdge a b c x y ∨ SameEdge p q r x y := by
  obtain ⟨X, hX, rfl⟩ := (corner_of n1 n2).1 hh
  obtain ⟨Y, hY, rfl⟩ := (corner_of n1 n2).1 hh'
  rw [adjHit_iff n1 n2 hX hY]
  obtain ⟨tX, px, wx, dx⟩ := extreme_facts hX
  obtain ⟨tY, py, wy, dy⟩ := extreme_facts hY
  have hin : ∀ Z, Extreme (eight a b c p q r) Z → Relint 0 (codeOf (hitOf a b c p q r Z)) a b c (pnt p q r Z) ∧ Relint 3 (codeOf (hitOf a b c p q r Z)) p q r (pnt p q r Z) := by
    intro Z hZ
    obtain ⟨t, z, w, d⟩ := extreme_facts hZ
    obtain ⟨r1, r2⟩ := relint_code (pat (wt a b c (pnt p q r Z))) (pat Z) a b c p q r (pnt p q r Z)
    exact ⟨r1.2 ((patOpen_iff n1).2 ⟨d, rfl, w⟩), r2.2 ((patOpen_iff n2).2 ⟨det_combo_first _ _ _ t _ _ _, by rw [wt_pnt n2 t], by rw [wt_pnt n2 t]; exact z⟩)⟩
  have ex : pnt p q r X = x := hx.2 _ (hin X hX).1 (hin X hX).2
  have ey : pnt p q r Y = y := hy.2 _ (hin Y hY).1 (hin Y hY).2
  rw [adj_iff tX tY, ← ex, ← ey, sameEdge_iff n2 tX tY px py]
  have hs := sameEdge_iff n1 (wt_total a b c (pnt p q r X)) (wt_total a b c (pnt p q r Y)) wx wy
  rw [pnt_wt n1 dx, pnt_wt n1 dy] at hs
  rw [hs, or_comm]

/-- **C64.** The list has every corner once and at most six entries; when there are three or more, two corners are on a common edge of one of the triangles exactly when they are consecutive, the last and the first one being consecutive too. -/
theorem C64_cyclic (T : Two pts ia ib ic ip iq ir a b c p q r) : ∃ l, intersect pts ia ib ic ip iq ir = ok l ∧ l.Nodup ∧ l.length ≤ 6 ∧
    (3 ≤ l.length → ∀ i j ci cj x y, i ≠ j → l[i]? = some ci → l[j]? = some cj → IsCorner a b c p q r ci x → IsCorner a b c p q r cj y →
      ((SameEdge a b c x y ∨ SameEdge p q r x y) ↔ j = (i + 1) % l.length ∨ i = (j + 1) % l.length)) := by
  obtain ⟨ws, e, hperm, h6, hcyc⟩ := intersect_run T
  obtain ⟨l, e', hnd, _⟩ := C34_corners T
  rw [e] at e'; cases e'
  refine ⟨_, e, hnd, by rw [List.length_map]; exact h6, ?_⟩
  rw [List.length_map]
  intro h3 i j ci cj x y hij hi hj hx hy
  have n1 := normal_ne T.left; have n2 := normal_ne T.right
  obtain ⟨P, hcl⟩ := hcyc h3
  have C := hits_cycle n1 n2 (by rw [← hperm.length_eq]; exact h3)
  rw [List.getElem?_map] at hi hj
  obtain ⟨hi', hgi, rfl⟩ := Option.map_eq_some_iff.1 hi
  obtain ⟨hj', hgj, rfl⟩ := Option.map_eq_some_iff.1 hj
  have mi := P.mem _ (List.mem_of_getElem? hgi)
  have mj := P.mem _ (List.mem_of_getElem? hgj)
  rw [← adj_points n1 n2 mi mj hx hy]
  obtain ⟨li, _⟩ := List.getElem?_eq_some_iff.1 hgi
  obtain ⟨lj, _⟩ := List.getElem?_eq_some_iff.1 hgj
  have hget : ∀ k, k < ws.length → ∃ h, ws[k]? = some h := fun k hk => ⟨_, List.getElem?_eq_getElem hk⟩
  -- consecutive corners are related
  have cons : ∀ k u v, ws[k]? = some u → ws[(k + 1) % ws.length]? = some v → AdjHit a b c p q r u v := by
    intro k u v hu hv
    obtain ⟨lk, _⟩ := List.getElem?_eq_some_iff.1 hu
    by_cases hk : k + 1 < ws.length
    · rw [Nat.mod_eq_of_lt hk] at hv; exact P.chain k u v hu hv
    · have hk : k + 1 = ws.length := by omega
      rw [hk, Nat.mod_self] at hv
      exact hcl v u hv (by rw [← hk]; exact hu)
  have inj : ∀ {k m : Nat} {h : Hit}, ws[k]? = some h → ws[m]? = some h → k = m := fun h1 h2 => get_inj P.nodup h1 h2
  constructor
  · intro hA
    -- the neighbours of the corner number i
    have hmod : (i + 1) % ws.length < ws.length := Nat.mod_lt _ (by omega)
    obtain ⟨nx, hnx⟩ := hget _ hmod
    have hp : ∃ m, m < ws.length ∧ (m + 1) % ws.length = i := by
      by_cases h0 : i = 0
      · refine ⟨ws.length - 1, by omega, ?_⟩
        rw [Nat.sub_add_cancel (by omega), Nat.mod_self, h0]
      · exact ⟨i - 1, by omega, by rw [Nat.sub_add_cancel (by omega)]; exact Nat.mod_eq_of_lt li⟩
    obtain ⟨m, hm, hmi⟩ := hp
    obtain ⟨pv, hpv⟩ := hget m hm
    have an := cons i _ _ hgi hnx
    have ap := C.symm _ _ (cons m _ _ hpv (by rw [hmi]; exact hgi))
    have d1 : (i + 1) % ws.length ≠ i := by
      by_cases h : i + 1 < ws.length
      · rw [Nat.mod_eq_of_lt h]; omega
      · have : i + 1 = ws.length := by omega
        rw [this, Nat.mod_self]; omega
    have d2 : m ≠ i := by
      rintro rfl; exact d1 hmi
    have d3 : m ≠ (i + 1) % ws.length := by
      intro e
      by_cases h : i + 1 < ws.length
      · rw [Nat.mod_eq_of_lt h] at e
        subst e
        by_cases h' : i + 1 + 1 < ws.length
        · rw [Nat.mod_eq_of_lt h'] at hmi; omega
        · have : i + 1 + 1 = ws.length := by omega
          rw [this, Nat.mod_self] at hmi; omega
      · have h' : i + 1 = ws.length := by omega
        rw [h', Nat.mod_self] at e
        subst e
        rw [Nat.mod_eq_of_lt (by omega)] at hmi; omega
    obtain ⟨u, v, _, _, _, _, _, _, _, only⟩ := C.deg _ mi
    have nn : nx ≠ hi' := by rintro rfl; exact d1 (inj hnx hgi)
    have np : pv ≠ hi' := by rintro rfl; exact d2 (inj hpv hgi)
    have nnp : nx ≠ pv := by rintro rfl; exact d3 (inj hpv hnx)
    have nj : hj' ≠ hi' := by rintro rfl; exact hij (inj hgi hgj)
    have e1 := only nx (P.mem _ (List.mem_of_getElem? hnx)) nn an
    have e2 := only pv (P.mem _ (List.mem_of_getElem? hpv)) np ap
    have e3 := only hj' mj nj hA
    have : hj' = nx ∨ hj' = pv := by
      rcases e1 with rfl | rfl <;> rcases e2 with rfl | rfl <;> rcases e3 with rfl | rfl <;>
        first | exact absurd rfl nnp | exact Or.inl rfl | exact Or.inr rfl
    rcases this with rfl | rfl
    · exact Or.inl (inj hgj hnx)
    · right; rw [inj hgj hpv, hmi]
  · rintro (h | h)
    · exact cons i _ _ hgi (by rw [← h]; exact hgj)
    · exact C.symm _ _ (cons j _ _ hgj (by rw [← h]; exact hgi))

/-- With triangles in different planes there are at most two corners. -/
theorem C64_transversal (T : Two pts ia ib ic ip iq ir a b c p q r) (h : det p a b c ≠ 0 ∨ det q a b c ≠ 0 ∨ det r a b c ≠ 0) : ∃ l, intersect pts ia ib ic ip iq ir = ok l ∧ l.length ≤ 2 := by
  obtain ⟨ws, e, hperm, _⟩ := intersect_run T
  refine ⟨_, e, ?_⟩
  rw [List.length_map]
  by_contra hc
  have n1 := normal_ne T.left; have n2 := normal_ne T.right
  obtain ⟨cs, hnd, hmap, hmem⟩ := corner_list n1 n2
  have hlen : cs.length = (allHits a b c p q r).length := by rw [← hmap, List.length_map]
  have H := corners_struct n1 n2 hnd hmem (by rw [hlen, ← hperm.length_eq]; omega)
  -- two opposite half-planes give a functional that is zero
  have hz : EE a b c p q r ∈ eight a b c p q r := by simp [eight]
  obtain ⟨X, Y, hX, hY, _, _, hXY⟩ := exists_three hnd (by rw [hlen, ← hperm.length_eq]; omega) a
  obtain ⟨Z, W, hZ, hW, hZX, hWX, hZW⟩ := exists_three hnd (by rw [hlen, ← hperm.length_eq]; omega) X
  have : ∃ Z ∈ cs, X ≠ Z ∧ Y ≠ Z := by
    by_cases e : Z = Y
    · exact ⟨W, hW, Ne.symm hWX, fun e' => hZW (e.trans e')⟩
    · exact ⟨Z, hZ, Ne.symm hZX, Ne.symm e⟩
  obtain ⟨Z, hZ, hXZ, hYZ⟩ := this
  have ho := extreme_noncollinear ((hmem X).1 hX) ((hmem Y).1 hY) ((hmem Z).1 hZ) hXY hXZ hYZ
  have ez : ∀ X ∈ cs, dot (EE a b c p q r) X = 0 := by
    intro X hX
    obtain ⟨t, _, _, d⟩ := extreme_facts ((hmem X).1 hX)
    rw [dotE t, d]
  have hw : ∀ W, dot (EE a b c p q r) W = 0 := by
    intro W
    have := cramer (EE a b c p q r) X Y Z W
    rw [ez X hX, ez Y hY, ez Z hZ] at this
    exact (mul_eq_zero.1 (by linarith)).resolve_left ho
  have e1 := hw ⟨1, 0, 0⟩; have e2 := hw ⟨0, 1, 0⟩; have e3 := hw ⟨0, 0, 1⟩
  simp only [dot, EE] at e1 e2 e3
  have hd : ∀ x, det x a b c = det4 x a b c := by intro x; simp only [det4, det, dot, cross, sub]; ring
  rw [hd, hd, hd] at h
  rcases h with h | h | h
  · exact h (by linarith)
  · exact h (by linarith)
  · exact h (by linarith)

/-! ### Examples -/

/-- A star of David: six corners, each on an edge of both triangles, in cyclic order. -/
example : intersect [⟨0, 0, 0⟩, ⟨6, 0, 0⟩, ⟨3, 6, 0⟩, ⟨0, 4, 0⟩, ⟨6, 4, 0⟩, ⟨3, -2, 0⟩] 0 1 2 3 4 5 = ok [51, 43, 45, 29, 30, 54] := by decide +kernel
/-- Two triangles that pierce each other: two corners. -/
example : intersect [⟨0, 0, 0⟩, ⟨4, 0, 0⟩, ⟨0, 4, 0⟩, ⟨1, 1, -1⟩, ⟨1, 1, 1⟩, ⟨5, 5, 0⟩] 0 1 2 3 4 5 = ok [62, 31] := by decide +kernel
/-- Triangles with a common edge: its two vertices. -/
example : intersect [⟨0, 0, 0⟩, ⟨1, 0, 0⟩, ⟨0, 1, 0⟩, ⟨0, 0, 1⟩] 0 1 2 1 0 3 = ok [17, 10] := by decide +kernel
/-- The same triangle twice. -/
example : intersect [⟨0, 0, 0⟩, ⟨1, 0, 0⟩, ⟨0, 1, 0⟩] 0 1 2 0 1 2 = ok [9, 18, 36] := by decide +kernel
/-- Disjoint triangles. -/
example : intersect [⟨0, 0, 0⟩, ⟨1, 0, 0⟩, ⟨0, 1, 0⟩, ⟨0, 0, 1⟩, ⟨1, 0, 1⟩, ⟨0, 1, 1⟩] 0 1 2 3 4 5 = ok [] := by decide +kernel
/-- The hypotheses hold for the star of David. -/
example : Two [⟨0, 0, 0⟩, ⟨6, 0, 0⟩, ⟨3, 6, 0⟩, ⟨0, 4, 0⟩, ⟨6, 4, 0⟩, ⟨3, -2, 0⟩] 0 1 2 3 4 5 ⟨0, 0, 0⟩ ⟨6, 0, 0⟩ ⟨3, 6, 0⟩ ⟨0, 4, 0⟩ ⟨6, 4, 0⟩ ⟨3, -2, 0⟩ :=
  ⟨rfl, rfl, rfl, rfl, rfl, rfl, by rw [← Props.collinear_iff]; decide +kernel, by rw [← Props.collinear_iff]; decide +kernel⟩

end Kigumi.FaceFace

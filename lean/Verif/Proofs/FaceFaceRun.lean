import Verif.Proofs.TriFace

/-! # The program computes the cases; the cache of orientations -/
namespace Kigumi.FaceFace
open Kigumi Outcome Geo Region Spec.Triangles

/-- The point with an id. -/
def pt (pts : List P3) (i : Nat) : P3 := pts.getD i ⟨0, 0, 0⟩

theorem at_pt {pts : List P3} {i : Nat} (h : i < pts.length) : at! pts i = ok (pt pts i) := by
  rw [at!_ok, pt, List.getD_eq_getElem?_getD, List.getElem?_eq_getElem h]; rfl

theorem at_exn {pts : List P3} {i : Nat} (h : ¬ i < pts.length) : at! pts i = exn "out_of_range" := by
  unfold at!; rw [List.getElem?_eq_none (by omega)]

/-- The orientation of the points with the ids of a key. -/
def keySign (pts : List P3) (k : Key) : Int := sgn (det4 (pt pts k.k0) (pt pts k.k1) (pt pts k.k2) (pt pts k.k3))

theorem keySign_swap (pts : List P3) (k : Key) (j : Nat) : keySign pts (k.swap j) = - keySign pts k := by
  unfold keySign
  rw [← sgn_neg']
  match j with
  | 0 => exact congrArg sgn (det_swap12 _ _ _ _)
  | 1 => exact congrArg sgn (det_swap23 _ _ _ _)
  | _ + 2 => exact congrArg sgn (det_swap34 _ _ _ _)

theorem sift_sign (pts : List P3) : ∀ (j : Nat) (k : Key) (s : Int), (sift j k s).2 * keySign pts (sift j k s).1 = s * keySign pts k := by
  intro j
  induction j with
  | zero => intro k s; rfl
  | succ j ih =>
    intro k s
    unfold sift; split
    · rw [ih, keySign_swap]; ring
    · rfl

theorem sort_sign (pts : List P3) (k : Key) : (sort k).2 * keySign pts (sort k).1 = keySign pts k := by
  have h : sort k = sift 3 (sift 2 (sift 1 k 1).1 (sift 1 k 1).2).1 (sift 2 (sift 1 k 1).1 (sift 1 k 1).2).2 := rfl
  rw [h, sift_sign, sift_sign, sift_sign, one_mul]

/-- The ids of a key. -/
def Key.toList (k : Key) : List Nat := [k.k0, k.k1, k.k2, k.k3]

theorem swap_perm (k : Key) (j : Nat) : (k.swap j).toList.Perm k.toList := by
  match j with
  | 0 => exact List.Perm.swap _ _ _
  | 1 => exact (List.Perm.swap _ _ _).cons _
  | _ + 2 => exact ((List.Perm.swap _ _ _).cons _).cons _

theorem sift_perm : ∀ (j : Nat) (k : Key) (s : Int), (sift j k s).1.toList.Perm k.toList := by
  intro j
  induction j with
  | zero => intro k s; exact List.Perm.refl _
  | succ j ih =>
    intro k s
    unfold sift; split
    · exact (ih _ _).trans (swap_perm k j)
    · exact List.Perm.refl _

theorem sort_perm (k : Key) : (sort k).1.toList.Perm k.toList := by
  have h : sort k = sift 3 (sift 2 (sift 1 k 1).1 (sift 1 k 1).2).1 (sift 2 (sift 1 k 1).1 (sift 1 k 1).2).2 := rfl
  rw [h]
  exact (sift_perm _ _ _).trans ((sift_perm _ _ _).trans (sift_perm _ _ _))

/-- Every entry of the cache is right. -/
def Valid (pts : List P3) (c : Cache) : Prop := ∀ k v, c.find k = some v → v = keySign pts k

theorem valid_nil (pts : List P3) : Valid pts [] := by intro k v h; cases h

theorem valid_cons {pts : List P3} {c : Cache} (hc : Valid pts c) (k : Key) : Valid pts ((k, keySign pts k) :: c) := by
  intro k' v h
  unfold Cache.find at h
  split at h
  · rename_i e; cases e; cases h; rfl
  · exact hc k' v h

/-- The computation returns the value and keeps the cache right. -/
def Computes (pts : List P3) {α : Type} (m : M α) (v : α) : Prop := ∀ c, Valid pts c → ∃ c', m c = ok (v, c') ∧ Valid pts c'

theorem computes_bind {pts : List P3} {α β : Type} {m : M α} {f : α → M β} {v : α} {w : β} (h : Computes pts m v) (h' : Computes pts (f v) w) : Computes pts (m >>= f) w := by
  intro c hc
  obtain ⟨c1, e1, hc1⟩ := h c hc
  obtain ⟨c2, e2, hc2⟩ := h' c1 hc1
  refine ⟨c2, ?_, hc2⟩
  show (m c).bind (fun x => f x.1 x.2) = _
  rw [e1]; exact e2

theorem computes_pure {pts : List P3} {α : Type} (v : α) : Computes pts (pure v : M α) v := fun c hc => ⟨c, rfl, hc⟩

theorem computes_lift {pts : List P3} {α : Type} {x : Outcome α} {v : α} (h : x = ok v) : Computes pts (lift x) v := by
  subst h; exact fun c hc => ⟨c, rfl, hc⟩

/-- **The cached orientation** is the orientation of the four points in the order asked. -/
theorem orientation4_computes {pts : List P3} {a b c d : Nat} (ha : a < pts.length) (hb : b < pts.length) (hc : c < pts.length) (hd : d < pts.length) :
    Computes pts (orientation4 pts a b c d) (sgn (det4 (pt pts a) (pt pts b) (pt pts c) (pt pts d))) := by
  intro cache hcache
  have hs := sort_sign pts ⟨a, b, c, d⟩
  have hp := sort_perm ⟨a, b, c, d⟩
  unfold orientation4
  generalize hk : sort ⟨a, b, c, d⟩ = ks at hs hp
  obtain ⟨key, parity⟩ := ks
  dsimp only at hs hp ⊢
  have hin : ∀ i ∈ key.toList, i < pts.length := by
    intro i hi
    have := hp.mem_iff.1 hi
    simp only [Key.toList, List.mem_cons, List.not_mem_nil, or_false] at this
    rcases this with rfl | rfl | rfl | rfl <;> assumption
  have hval : keySign pts ⟨a, b, c, d⟩ = sgn (det4 (pt pts a) (pt pts b) (pt pts c) (pt pts d)) := rfl
  rw [← hval, ← hs]
  cases hf : cache.find key with
  | some o =>
    have := hcache key o hf
    subst this
    exact ⟨cache, rfl, hcache⟩
  | none =>
    refine ⟨(key, keySign pts key) :: cache, ?_, valid_cons hcache key⟩
    dsimp only
    rw [at_pt (hin key.k0 (by simp [Key.toList])), at_pt (hin key.k1 (by simp [Key.toList])), at_pt (hin key.k2 (by simp [Key.toList])), at_pt (hin key.k3 (by simp [Key.toList]))]
    rfl

theorem orientation3_computes {pts : List P3} {a b c : Nat} (ha : a < pts.length) (hb : b < pts.length) (hc : c < pts.length) :
    Computes pts (orientation3 pts a b c) (coplanarOrientation (pt pts a) (pt pts b) (pt pts c)) := by
  apply computes_lift
  rw [at_pt ha, at_pt hb, at_pt hc]; rfl

theorem orientation2_computes {pts : List P3} {a b : Nat} (ha : a < pts.length) (hb : b < pts.length) :
    Computes pts (orientation2 pts a b) (compareLex (pt pts a) (pt pts b)) := by
  apply computes_lift
  rw [at_pt ha, at_pt hb]; rfl

/-- The number of an edge of a triangle. -/
inductive Three where
  | e0 | e1 | e2
  deriving DecidableEq, Repr

/-- The bits of a pattern. -/
def patCode (left : Bool) (m : Pat) : Code :=
  (if m.1 then (if left then LV0 else RV0) else 0) ||| (if m.2.1 then (if left then LV1 else RV1) else 0) ||| (if m.2.2 then (if left then LV2 else RV2) else 0)

/-- The edge number `i` and its first vertex as patterns. -/
def edgePat (i : Three) (k : Bool) : Pat :=
  match i with
  | .e0 => (true, k, false)
  | .e1 => (false, true, k)
  | .e2 => (k, false, true)

/-- The pair of codes for a pair reported by the call for the edge number `i` of a triangle. -/
def enc (left : Bool) (i : Three) (x : Bool × Pat) : Hit :=
  if left then (patCode true (edgePat i x.1), patCode false x.2) else (patCode true x.2, patCode false (edgePat i x.1))

theorem edgeVertices_pat (left : Bool) (i : Three) : ∃ v, edgeVertices (patCode left (edgePat i true)) = ok (patCode left (edgePat i false), v) := by
  cases left <;> cases i <;> exact ⟨_, rfl⟩

theorem insert_pat (left : Bool) (i : Three) (k : Bool) (m : Pat) (hm : m ≠ (false, false, false)) :
    insert (patCode left (edgePat i k)) (patCode (!left) m) = enc left i (k, m) := by
  obtain ⟨m0, m1, m2⟩ := m
  cases left <;> cases i <;> cases k <;> cases m0 <;> cases m1 <;> cases m2 <;> first | rfl | exact absurd rfl hm

theorem isLeft_pat (left : Bool) (i : Three) (k : Bool) : isLeft (patCode left (edgePat i k)) = left := by
  cases left <;> cases i <;> cases k <;> rfl

theorem dimension_edgePat (left : Bool) (i : Three) (k : Bool) : dimension (patCode left (edgePat i k)) = ok k.toNat := by
  cases left <;> cases i <;> cases k <;> rfl

theorem dimension_pat (left : Bool) (m : Pat) (hm : m ≠ (false, false, false)) : dimension (patCode left m) = ok (m.count - 1) := by
  obtain ⟨m0, m1, m2⟩ := m
  cases left <;> cases m0 <;> cases m1 <;> cases m2 <;> first | rfl | exact absurd rfl hm

theorem count_pos {m : Pat} (hm : m ≠ (false, false, false)) : 1 ≤ m.count := by
  obtain ⟨m0, m1, m2⟩ := m
  cases m0 <;> cases m1 <;> cases m2 <;> first | decide | exact absurd rfl hm

theorem emit_computes (pts : List P3) (left : Bool) (i : Three) (k : Bool) (m : Pat) (hm : m ≠ (false, false, false)) :
    Computes pts (emit (patCode left (edgePat i k)) (patCode (!left) m)) ((gEmit left k m).map (enc left i)) := by
  unfold emit
  refine computes_bind (computes_lift (dimension_edgePat left i k)) (computes_bind (computes_lift (dimension_pat (!left) m hm)) ?_)
  rw [isLeft_pat]
  have hc := count_pos hm
  unfold gEmit
  by_cases h1 : k = true ∧ m.count = 1
  · rw [if_pos h1, if_pos (by rw [h1.1, h1.2]; decide)]; exact computes_pure _
  · rw [if_neg h1, if_neg (by
      rintro ⟨e1, e2⟩; apply h1
      refine ⟨?_, by omega⟩
      cases k
      · cases e1
      · rfl)]
    by_cases h2 : k.toNat + 1 = m.count ∧ left = false
    · rw [if_pos h2, if_pos ⟨by omega, h2.2⟩]; exact computes_pure _
    · rw [if_neg h2, if_neg (by rintro ⟨e1, e2⟩; exact h2 ⟨by omega, e2⟩)]
      rw [insert_pat left i k m hm]; exact computes_pure _

/-- Pattern of the edge number `j` of the face, or of its first vertex, and the embedding of patterns of the first edge. -/
def facePat (j : Three) (x : Bool × Pat) : Bool × Pat :=
  match j with
  | .e0 => x
  | .e1 => emb1 x
  | .e2 => emb2 x

theorem edgeEdge1d_computes {pts : List P3} (left : Bool) (i j : Three) {a p q : Nat} (ha : a < pts.length) (hp : p < pts.length) (hq : q < pts.length) :
    Computes pts (edgeEdge1d pts (patCode left (edgePat i true)) a (patCode (!left) (edgePat j true)) p q)
      (((g1 left (compareLex (pt pts a) (pt pts p)) (compareLex (pt pts a) (pt pts q))).map (facePat j)).map (enc left i)) := by
  obtain ⟨v1, e1⟩ := edgeVertices_pat left i
  obtain ⟨v2, e2⟩ := edgeVertices_pat (!left) j
  unfold edgeEdge1d
  refine computes_bind (computes_lift e1) (computes_bind (computes_lift e2) (computes_bind (orientation2_computes ha hp) (computes_bind (orientation2_computes ha hq) ?_)))
  unfold g1
  rw [isLeft_pat, insert_pat left i false (edgePat j true) (by cases j <;> decide), insert_pat left i false (edgePat j false) (by cases j <;> decide)]
  split
  · exact computes_pure _
  · split
    · have : ([(false, true, true, false)].map (facePat j)).map (enc left i) = [enc left i (false, edgePat j true)] := by cases j <;> rfl
      rw [this]; exact computes_pure _
    · split
      · have : ([(false, true, false, false)].map (facePat j)).map (enc left i) = [enc left i (false, edgePat j false)] := by cases j <;> rfl
        rw [this]; exact computes_pure _
      · exact computes_pure _

theorem edgeEdge2d_computes {pts : List P3} (left : Bool) (i j : Three) {a p q : Nat} (ha : a < pts.length) (hp : p < pts.length) (hq : q < pts.length) (abp abq apq bpq : Int) :
    Computes pts (edgeEdge2d pts (patCode left (edgePat i true)) a (patCode (!left) (edgePat j true)) p q abp abq apq bpq)
      (((gEE left abp abq apq bpq (compareLex (pt pts a) (pt pts p)) (compareLex (pt pts a) (pt pts q))).map (facePat j)).map (enc left i)) := by
  obtain ⟨v1, e1⟩ := edgeVertices_pat left i
  obtain ⟨v2, e2⟩ := edgeVertices_pat (!left) j
  unfold edgeEdge2d gEE
  split
  · exact computes_pure _
  · split
    · exact edgeEdge1d_computes left i j ha hp hq
    · refine computes_bind (computes_lift e1) (computes_bind (computes_lift e2) ?_)
      dsimp only
      split
      · exact computes_pure _
      · split
        · exact computes_pure _
        · have h1 : (if apq = 0 then patCode left (edgePat i false) else patCode left (edgePat i true)) = patCode left (edgePat i (decide (apq ≠ 0))) := by
            by_cases h : apq = 0 <;> simp [h]
          have h2 : (if abp = 0 then patCode (!left) (edgePat j false) else patCode (!left) (edgePat j true)) = patCode (!left) (edgePat j (decide (abp ≠ 0))) := by
            by_cases h : abp = 0 <;> simp [h]
          rw [h1, h2]
          generalize decide (apq ≠ 0) = k
          generalize decide (abp ≠ 0) = m1
          have hmap : (gEmit left k (true, m1, false)).map (facePat j) = gEmit left k (edgePat j m1) := by
            cases j <;> cases left <;> cases k <;> cases m1 <;> rfl
          rw [hmap]
          exact emit_computes pts left i k (edgePat j m1) (by cases j <;> cases m1 <;> decide)

theorem patCode_edges (left : Bool) : faceEdges (patCode left (true, true, true)) = ok (patCode left (edgePat .e0 true), patCode left (edgePat .e1 true), patCode left (edgePat .e2 true)) := by
  cases left <;> rfl

theorem patCode_vertices (left : Bool) : faceVertices (patCode left (true, true, true)) = ok (patCode left (edgePat .e0 false), patCode left (edgePat .e1 false), patCode left (edgePat .e2 false)) := by
  cases left <;> rfl

theorem edgeFace2d_computes {pts : List P3} (left : Bool) (i : Three) {a b p q r : Nat} (ha : a < pts.length) (hb : b < pts.length) (hp : p < pts.length) (hq : q < pts.length) (hr : r < pts.length) :
    Computes pts (edgeFace2d pts (patCode left (edgePat i true)) a b (patCode (!left) (true, true, true)) p q r)
      ((g2 left (coplanarOrientation (pt pts a) (pt pts p) (pt pts q)) (coplanarOrientation (pt pts a) (pt pts q) (pt pts r)) (coplanarOrientation (pt pts a) (pt pts r) (pt pts p))
      (coplanarOrientation (pt pts b) (pt pts p) (pt pts q)) (coplanarOrientation (pt pts b) (pt pts q) (pt pts r)) (coplanarOrientation (pt pts b) (pt pts r) (pt pts p))
      (coplanarOrientation (pt pts a) (pt pts b) (pt pts p)) (coplanarOrientation (pt pts a) (pt pts b) (pt pts q)) (coplanarOrientation (pt pts a) (pt pts b) (pt pts r))
      (compareLex (pt pts a) (pt pts p)) (compareLex (pt pts a) (pt pts q)) (compareLex (pt pts a) (pt pts r))).map (enc left i)) := by
  obtain ⟨v1, e1⟩ := edgeVertices_pat left i
  unfold edgeFace2d
  refine computes_bind (computes_lift e1) ?_
  refine computes_bind (orientation3_computes ha hp hq) (computes_bind (orientation3_computes ha hq hr) (computes_bind (orientation3_computes ha hr hp) ?_))
  refine computes_bind (orientation3_computes hb hp hq) (computes_bind (orientation3_computes hb hq hr) (computes_bind (orientation3_computes hb hr hp) ?_))
  dsimp only
  rw [insert_pat left i false (true, true, true) (by decide)]
  unfold g2
  have s : ∀ x y z : Int, decide (x * y > 0 ∧ y * z > 0 ∧ z * x > 0) = sameSigns x y z := fun _ _ _ => rfl
  rw [s, s]
  have hmap : ∀ c : Bool, (if c = true then [enc left i (false, true, true, true)] else []) = (if c = true then [(false, true, true, true)] else []).map (enc left i) := by
    intro c; cases c <;> rfl
  rw [hmap]
  split
  · exact computes_pure _
  · refine computes_bind (computes_lift (patCode_edges (!left))) ?_
    dsimp only
    refine computes_bind (orientation3_computes ha hb hp) (computes_bind (orientation3_computes ha hb hq) (computes_bind (orientation3_computes ha hb hr) ?_))
    refine computes_bind (edgeEdge2d_computes left i .e0 ha hp hq _ _ _ _) (computes_bind (edgeEdge2d_computes left i .e1 ha hq hr _ _ _ _) (computes_bind (edgeEdge2d_computes left i .e2 ha hr hp _ _ _ _) ?_))
    simp only [List.map_append]
    have f0 : ∀ l : List (Bool × Pat), l.map (facePat .e0) = l := fun l => List.map_id l
    rw [f0]
    exact computes_pure _

theorem edgeFace_computes {pts : List P3} (left : Bool) (i : Three) {a b p q r : Nat} (ha : a < pts.length) (hb : b < pts.length) (hp : p < pts.length) (hq : q < pts.length) (hr : r < pts.length) :
    Computes pts (edgeFace pts (patCode left (edgePat i true)) a b (patCode (!left) (true, true, true)) p q r
        (sgn (det4 (pt pts a) (pt pts p) (pt pts q) (pt pts r))) (sgn (det4 (pt pts b) (pt pts p) (pt pts q) (pt pts r))))
      ((gEF left (pt pts a) (pt pts b) (pt pts p) (pt pts q) (pt pts r)).map (enc left i)) := by
  obtain ⟨v1, e1⟩ := edgeVertices_pat left i
  unfold edgeFace gEF
  split
  · exact computes_pure _
  · split
    · exact edgeFace2d_computes left i ha hb hp hq hr
    · refine computes_bind (orientation4_computes ha hb hp hq) (computes_bind (orientation4_computes ha hb hq hr) (computes_bind (orientation4_computes ha hb hr hp) ?_))
      unfold g3
      generalize sgn (det4 (pt pts a) (pt pts p) (pt pts q) (pt pts r)) = sa
      generalize sgn (det4 (pt pts b) (pt pts p) (pt pts q) (pt pts r)) = sb
      generalize sgn (det4 (pt pts a) (pt pts b) (pt pts p) (pt pts q)) = u
      generalize sgn (det4 (pt pts a) (pt pts b) (pt pts q) (pt pts r)) = v
      generalize sgn (det4 (pt pts a) (pt pts b) (pt pts r) (pt pts p)) = w
      split
      · exact computes_pure _
      · refine computes_bind (computes_lift e1) (computes_bind (computes_lift (patCode_edges (!left))) (computes_bind (computes_lift (patCode_vertices (!left))) ?_))
        dsimp only
        split
        · exact computes_pure _
        · have h1 : (if sa = 0 then patCode left (edgePat i false) else patCode left (edgePat i true)) = patCode left (edgePat i (decide (sa ≠ 0))) := by
            by_cases h : sa = 0 <;> simp [h]
          rw [h1]
          generalize decide (sa ≠ 0) = k
          split
          · exact emit_computes pts left i k (edgePat .e1 false) (by decide)
          · split
            · exact emit_computes pts left i k (edgePat .e2 false) (by decide)
            · split
              · exact emit_computes pts left i k (edgePat .e0 false) (by decide)
              · split
                · exact emit_computes pts left i k (edgePat .e0 true) (by decide)
                · split
                  · exact emit_computes pts left i k (edgePat .e1 true) (by decide)
                  · split
                    · exact emit_computes pts left i k (edgePat .e2 true) (by decide)
                    · exact emit_computes pts left i k (true, true, true) (by decide)

/-- The pairs found for six points. -/
def allHits (a b c p q r : P3) : List Hit :=
  (gEF true a b p q r).map (enc true .e0) ++ (gEF true b c p q r).map (enc true .e1) ++ (gEF true c a p q r).map (enc true .e2) ++
  (gEF false p q a b c).map (enc false .e0) ++ (gEF false q r a b c).map (enc false .e1) ++ (gEF false r p a b c).map (enc false .e2)

theorem hits_computes {pts : List P3} {a b c p q r : Nat} (ha : a < pts.length) (hb : b < pts.length) (hc : c < pts.length) (hp : p < pts.length) (hq : q < pts.length) (hr : r < pts.length) :
    Computes pts (hits pts a b c p q r) (allHits (pt pts a) (pt pts b) (pt pts c) (pt pts p) (pt pts q) (pt pts r)) := by
  unfold hits
  refine computes_bind (computes_lift (patCode_edges true)) (computes_bind (computes_lift (patCode_edges false)) ?_)
  dsimp only
  refine computes_bind (orientation4_computes ha hp hq hr) (computes_bind (orientation4_computes hb hp hq hr) (computes_bind (orientation4_computes hc hp hq hr) ?_))
  refine computes_bind (orientation4_computes hp ha hb hc) (computes_bind (orientation4_computes hq ha hb hc) (computes_bind (orientation4_computes hr ha hb hc) ?_))
  refine computes_bind (edgeFace_computes true .e0 ha hb hp hq hr) (computes_bind (edgeFace_computes true .e1 hb hc hp hq hr) (computes_bind (edgeFace_computes true .e2 hc ha hp hq hr) ?_))
  refine computes_bind (edgeFace_computes false .e0 hp hq ha hb hc) (computes_bind (edgeFace_computes false .e1 hq hr ha hb hc) (computes_bind (edgeFace_computes false .e2 hr hp ha hb hc) ?_))
  exact computes_pure _

end Kigumi.FaceFace

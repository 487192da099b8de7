import Verif.Proofs.Returns
import Verif.Proofs.TwoTetra

/-! # C70: Boolean operations on sets of points -/
namespace Kigumi.Props
open Kigumi Outcome Geo Spec.Triangles Spec.Side Space
open Kigumi.Spec (SameTri HasCorners operandTris truth onSets RegionInv)
variable {D : Type}

theorem solid_represents {K : P3 → Prop} {W : List (Tri P3)} (hW : Split K W) {r : Region P3 D} {ts : List (Tri P3)} {χ : P3 → Prop} (h : IsSolidIn K r ts χ) (hp : Part W ts) : Spec.Represents (arr W hW) r (lower hp h.bounds) := by
  unfold Spec.Represents
  have hk := h.kind
  have hi := h.inv
  unfold RegionInv at hi
  cases hr : r.kind <;> rw [hr] at hk hi <;> simp only [KindIn] at hk hi ⊢
  · intro c
    obtain ⟨x, hx, rfl⟩ := cellOf_surj c
    rw [← Bool.not_eq_true, lower_cell]; exact hk x hx.1
  · intro c
    obtain ⟨x, hx, rfl⟩ := cellOf_surj c
    rw [lower_cell]; exact hk x hx.1
  · exact ⟨hi, ts, h.corners, bounds_of_region hW hp h.once h.bounds⟩

theorem solid_nil_in {K : P3 → Prop} {r : Region P3 D} {ts : List (Tri P3)} {χ : P3 → Prop} (h : IsSolidIn K r ts χ) (he : r.isEmptyOrFull = true) : ts = [] := by
  have hi := h.inv
  have hc := h.corners
  unfold RegionInv at hi
  simp only [Region.isEmptyOrFull, Region.isEmpty, Region.isFull, Bool.or_eq_true, beq_iff_eq] at he
  rcases he with he | he <;> rw [he] at hi <;> simp only at hi <;> rw [hi] at hc <;> exact List.forall₂_nil_left_iff.1 hc

theorem solid_nil {r : Region P3 D} {ts : List (Tri P3)} {χ : P3 → Prop} (h : IsSolid r ts χ) (he : r.isEmptyOrFull = true) : ts = [] := solid_nil_in (isSolidIn_whole.2 h) he

/-- The triangles that the mixed faces cover have the surface of the two operands. -/
theorem corefined_surface {orig : Bool → List (Tri P3)} {m : Soup P3 (MixedData D)} {ts : List (Tri P3)} {border : List (Nat × Nat)} (h : Corefined orig m ts border) {x : P3} (hx : Surface ts x) :
    Surface (orig true) x ∨ Surface (orig false) x := by
  obtain ⟨t, ht, hin⟩ := hx
  obtain ⟨i, hi⟩ := List.mem_iff_getElem?.1 ht
  obtain ⟨f, hf, rfl⟩ := corner_face h.corners hi
  have hm := (operand_mem h.data h.corners (b := Mix.owner m.data i)).2 ⟨i, f, hf, rfl, rfl⟩
  obtain ⟨src, hr⟩ := h.refines (Mix.owner m.data i)
  have := (refines_surface hr x).2 ⟨_, hm, hin⟩
  cases ho : Mix.owner m.data i <;> rw [ho] at this
  · exact Or.inr this
  · exact Or.inl this

theorem denotes_mono {K : P3 → Prop} {r : Region P3 D} {χ S S' : P3 → Prop} (h : DenotesIn K r χ S) (hs : ∀ x, S x → S' x) : DenotesIn K r χ S' := by
  obtain ⟨ts, χ', h1, h2, h3⟩ := h
  exact ⟨ts, χ', h1, fun x hx => hs x (h2 x hx), fun x hxK hx => h3 x hxK (fun h => hx (hs x h))⟩

/-- **The classified faces.** For operands that bound sets, cut into pieces that meet only in common vertices and edges: whatever the threads do, if the classification returns, every piece has its right tag (outside of the
other operand, inside of it, coincident with the same or with the opposite orientation), and there are no warnings. -/
theorem C70_classified {orig : Bool → List (Tri P3)} {m0 out : Soup P3 (MixedData D)} {ts : List (Tri P3)} {border : List (Nat × Nat)} (h : Corefined orig m0 ts border) {χ : Bool → P3 → Prop}
    (hok : ∀ b, ∀ t ∈ orig b, Proper t) (hb : ∀ b, Spec.Side.Bounds (orig b) (χ b)) {E : Mix.Env} (hE : E.Valid orig) {soup : Bool → Soup P3 D}
    (hc : ∀ b, HasCorners (soup b).points (soup b).faces (orig b)) (hne : ∀ b, (soup b).faces ≠ []) {w : Global.Warnings} (hr : Mix.Result E (soup true) (soup false) m0 border out w) :
    Tagged out ts χ ∧ out.points = m0.points ∧ out.faces = m0.faces ∧ w = .none := by
  obtain ⟨-, h2, h3⟩ := mixed_right h hok hb hE hc hne hr
  refine ⟨h2, ?_, ?_, h3⟩
  · obtain ⟨m, edges, tags1, tags2, w1, w2, -, -, -, -, rfl, -⟩ := hr; rfl
  · obtain ⟨m, edges, tags1, tags2, w1, w2, -, -, -, -, rfl, -⟩ := hr; rfl

/-- `C70_boolean` inside of a convex set. -/
theorem boolean_in {K : P3 → Prop} (hK : Zone K) {cut : Soup P3 D → Soup P3 D → Soup P3 (MixedData D) → List (Nat × Nat) → Prop} {orig : Bool → List (Tri P3)} {χ : Bool → P3 → Prop} {a b : Region P3 D}
    (hcut : a.kind = .boundaryDefined → b.kind = .boundaryDefined → ∀ m0 border, cut a.boundary b.boundary m0 border → ∃ ts, Corefined orig m0 ts border ∧ Clear K m0.faces (Mix.pts m0.points) (Mix.owner m0.data) border)
    (ha : IsSolidIn K a (orig true) (χ true)) (hb : IsSolidIn K b (orig false) (χ false)) {E : Mix.Env} (hE : E.Valid orig) {bb : Builder P3 D} {w : Global.Warnings} (h : Mix.Built E cut a b bb w) (op : Op) (pf : Bool) :
    w = .none ∧ ∃ r, bb.run op pf = ok r ∧ DenotesIn K r (fun x => x ∈ onSets op {x | χ true x} {x | χ false x}) (fun x => Surface (orig true) x ∨ Surface (orig false) x) := by
  unfold Mix.Built at h
  split at h
  · rename_i hef
    obtain ⟨hmk, rfl⟩ := h
    refine ⟨rfl, ?_⟩
    simp only [Bool.or_eq_true] at hef
    have hW : ∃ W, Split K W ∧ Part W (orig true) ∧ Part W (orig false) ∧ ∀ x, Surface W x → Surface (orig true) x ∨ Surface (orig false) x := by
      have self : ∀ ts : List (Tri P3), Part ts ts := fun ts t ht => ⟨t, ht, match_refl t⟩
      have nil : ∀ ts : List (Tri P3), Part ts [] := fun ts t ht => by simp at ht
      rcases hef with hef | hef
      · have := solid_nil_in ha hef
        exact ⟨orig false, ⟨hK, hb.complex, hb.within⟩, this ▸ nil _, self _, fun x hx => Or.inr hx⟩
      · have := solid_nil_in hb hef
        exact ⟨orig true, ⟨hK, ha.complex, ha.within⟩, self _, this ▸ nil _, fun x hx => Or.inl hx⟩
    obtain ⟨W, hW, p1, p2, hs⟩ := hW
    obtain ⟨bb', r, h1, h2, h3, h4, h5⟩ := C05_boolean_result_correct (arr_connected hW) (fun _ _ => exn "not called") (fun k1 k2 => by
      rcases hef with hef | hef <;> simp [Region.isEmptyOrFull, Region.isEmpty, Region.isFull, k1, k2] at hef) ha.inv hb.inv ha.wf hb.wf (solid_represents hW ha p1) (solid_represents hW hb p2) op pf
    rw [hmk] at h1; cases h1
    refine ⟨r, h2, denotes_mono (denotes_of_represents hW h4 h5 h3 fun x hx => ?_) hs⟩
    exact C01_truth_is_set_operation op _ _ x _ _ (lower_cell p1 ha.bounds x hx) (lower_cell p2 hb.bounds x hx)
  · rename_i hef
    obtain ⟨m0, border, hc, hres, k1, k2⟩ := h
    simp only [Bool.or_eq_true, not_or, Bool.not_eq_true] at hef
    have kind : ∀ {r : Region P3 D}, r.isEmptyOrFull = false → r.kind = .boundaryDefined := by
      intro r hr
      cases hk : r.kind <;> simp_all [Region.isEmptyOrFull, Region.isEmpty, Region.isFull]
    have ka := kind hef.1
    have kb := kind hef.2
    obtain ⟨ts, hcor, hcl⟩ := hcut ka kb m0 border hc
    have hne : ∀ x : Bool, (if x then a.boundary else b.boundary).faces ≠ [] := by
      intro x
      have ia := ha.inv
      have ib := hb.inv
      simp only [RegionInv, ka, kb] at ia ib
      cases x <;> assumption
    obtain ⟨hcut', htag, hw⟩ := mixed_in (soup := fun x => if x then a.boundary else b.boundary) hcor hK (fun b => by cases b; exacts [hb.within, ha.within]) hcl (χ := χ) (fun b => by cases b; exacts [hb.complex.proper, ha.complex.proper])
      (fun b => by cases b; exacts [hb.bounds, ha.bounds]) hE (fun b => by cases b; exacts [hb.corners, ha.corners]) hne hres
    refine ⟨hw, ?_⟩
    have hpieces : ∀ b, operandTris ts bb.m.data b ≠ [] := by
      intro b hnil
      obtain ⟨m, edges, tags1, tags2, w1, w2, -, -, -, -, hout, -⟩ := hres
      rw [hout] at hnil
      simp only [retag_operand] at hnil
      obtain ⟨src, hr⟩ := hcor.refines b
      rw [hnil] at hr
      have : orig b ≠ [] := by
        cases b
        · have := hb.kind; rwa [kb] at this
        · have := ha.kind; rwa [ka] at this
      obtain ⟨t, ht⟩ := List.exists_mem_of_ne_nil _ this
      obtain ⟨u, hu, -⟩ := (refines_surface hr (centre t)).1 ⟨t, ht, inner_in (inner_centre t)⟩
      simp at hu
    obtain ⟨r, h1, h2⟩ := run_in hcut' htag (by rw [k1, ka]; exact hpieces true) (by rw [k2, kb]; exact hpieces false) op pf
    exact ⟨r, h1, denotes_mono h2 fun x hx => corefined_surface hcor hx⟩

/-- **The result of a Boolean operation is the operation on the sets.** `a` and `b` are the sets `χ true` and `χ false`. Whatever the threads do, if the constructor of the builder returns, no operation throws, and its result is
a region with a proper boundary, contained in the two given surfaces, which is the result of the operation on the two sets, apart from points of these surfaces. -/
theorem C70_boolean {cut : Soup P3 D → Soup P3 D → Soup P3 (MixedData D) → List (Nat × Nat) → Prop} {orig : Bool → List (Tri P3)} {χ : Bool → P3 → Prop} {a b : Region P3 D}
    (hcut : a.kind = .boundaryDefined → b.kind = .boundaryDefined → ∀ m0 border, cut a.boundary b.boundary m0 border → ∃ ts, Corefined orig m0 ts border)
    (ha : IsSolid a (orig true) (χ true)) (hb : IsSolid b (orig false) (χ false)) {E : Mix.Env} (hE : E.Valid orig) {bb : Builder P3 D} {w : Global.Warnings} (h : Mix.Built E cut a b bb w) (op : Op) (pf : Bool) :
    w = .none ∧ ∃ r, bb.run op pf = ok r ∧ Denotes r (fun x => x ∈ onSets op {x | χ true x} {x | χ false x}) (fun x => Surface (orig true) x ∨ Surface (orig false) x) := by
  obtain ⟨hw, r, hr, hd⟩ := boolean_in zone_whole (fun ka kb m0 border h => (hcut ka kb m0 border h).imp fun _ h => ⟨h, clear_whole _ _ _ _⟩) (isSolidIn_whole.2 ha) (isSolidIn_whole.2 hb) hE h op pf
  exact ⟨hw, r, hr, denotesIn_whole.1 hd⟩

/-- **Sides of points after a Boolean operation.** For every point off the two given surfaces for which `bounded_side` of the result returns, it returns ON_BOUNDED_SIDE exactly if the point is in the result of the operation on
the two sets, and ON_UNBOUNDED_SIDE otherwise. -/
theorem C70_side {cut : Soup P3 D → Soup P3 D → Soup P3 (MixedData D) → List (Nat × Nat) → Prop} {orig : Bool → List (Tri P3)} {χ : Bool → P3 → Prop} {a b : Region P3 D}
    (hcut : a.kind = .boundaryDefined → b.kind = .boundaryDefined → ∀ m0 border, cut a.boundary b.boundary m0 border → ∃ ts, Corefined orig m0 ts border)
    (ha : IsSolid a (orig true) (χ true)) (hb : IsSolid b (orig false) (χ false)) {E : Mix.Env} (hE : E.Valid orig) {bb : Builder P3 D} {w : Global.Warnings} (h : Mix.Built E cut a b bb w) {op : Op} {pf : Bool}
    {r : Region P3 D} (hr : bb.run op pf = ok r) : ∃ ts, HasCorners r.boundary.points r.boundary.faces ts ∧ ∀ E' : Side.Env, E'.Valid ts → ∀ p, ¬ Surface (orig true) p → ¬ Surface (orig false) p →
      ∀ s, Side.boundedSide E' r p = ok s → (s = .bounded ↔ p ∈ onSets op {x | χ true x} {x | χ false x}) ∧ (s = .unbounded ↔ p ∉ onSets op {x | χ true x} {x | χ false x}) := by
  obtain ⟨-, r', h1, ts, χ', hs, hsub, hagree⟩ := C70_boolean hcut ha hb hE h op pf
  rw [hr] at h1; cases h1
  refine ⟨ts, hs.corners, fun E' hE' p hp1 hp2 s hside => ?_⟩
  have hp : ¬ (Surface (orig true) p ∨ Surface (orig false) p) := by rintro (h | h); exacts [hp1 h, hp2 h]
  have hag : χ' p ↔ p ∈ onSets op {x | χ true x} {x | χ false x} := hagree p hp
  rw [← hag]
  have hinv := hs.inv
  have hk := hs.kind
  unfold RegionInv at hinv
  cases hkind : r.kind with
  | empty =>
    rw [(C12_empty_full p).1 hkind] at hside
    rw [hkind] at hk
    cases hside
    simp [hk p]
  | full =>
    rw [(C12_empty_full p).2 hkind] at hside
    rw [hkind] at hk
    cases hside
    simp [hk p]
  | boundaryDefined =>
    rw [hkind] at hinv
    exact C12_side ⟨hkind, hinv, hs.corners⟩ hE' hs.complex.proper hs.bounds (thin_of_complex hs.complex hs.once) (fun h => hp (hsub p h)) hside

/-- **The classification returns.** If, moreover, the vertices of border edges are vertices of faces, and the search for the side of no face that is not yet classified throws, there is an execution that returns. -/
theorem C70_returns {orig : Bool → List (Tri P3)} {m0 : Soup P3 (MixedData D)} {ts : List (Tri P3)} {border : List (Nat × Nat)} (h : Corefined orig m0 ts border) {χ : Bool → P3 → Prop}
    (hb : ∀ b, Spec.Side.Bounds (orig b) (χ b)) {E : Mix.Env} (hE : E.Valid orig) {left right : Soup P3 D} (hu : ∀ e ∈ border, (∃ f ∈ m0.faces, e.1 ∈ f.toList) ∧ ∃ f ∈ m0.faces, e.2 ∈ f.toList)
    (hall : ∀ i, i < m0.faces.length → Mix.tag m0.data i = .unknown → Mix.sideTag E left right m0.faces (Mix.pts m0.points) (Mix.owner m0.data) i ≠ none) :
    ∃ out w, Mix.Result E left right m0 border out w := mixed_returns h zone_whole (fun _ => within_whole _) (fun b => (hb b).whole) hE hu hall

/-- Sorting by an order that is a strict weak order on the list. -/
theorem sort_exists {lt : Radial.FaceAround → Radial.FaceAround → Bool} (es : List Radial.FaceAround) (h0 : ∀ a ∈ es, lt a a = false) (h1 : ∀ a ∈ es, ∀ b ∈ es, ∀ c ∈ es, lt a b = true → lt b c = true → lt a c = true)
    (h2 : ∀ a ∈ es, ∀ b ∈ es, ∀ c ∈ es, lt a b = false → lt b a = false → lt b c = false → lt c b = false → lt a c = false ∧ lt c a = false) : ∃ s, Radial.IsSortOf lt es s := by
  let r : {a // a ∈ es} → {a // a ∈ es} → Prop := fun a b => lt b.1 a.1 = false
  have : Std.Total r := ⟨fun a b => by
    by_contra hc
    simp only [r, not_or, Bool.not_eq_false] at hc
    have := h1 a a.2 b b.2 a a.2 hc.2 hc.1
    rw [h0 a a.2] at this; cases this⟩
  have : IsTrans _ r := ⟨fun a b c hab hbc => by
    simp only [r] at hab hbc ⊢
    by_contra hc
    rw [Bool.not_eq_false] at hc
    by_cases hab' : lt a b = true
    · have := h1 c c.2 a a.2 b b.2 hc hab'
      rw [hbc] at this; cases this
    · by_cases hbc' : lt b c = true
      · have := h1 b b.2 c c.2 a a.2 hbc' hc
        rw [hab] at this; cases this
      · rw [Bool.not_eq_true] at hab' hbc'
        have := (h2 a a.2 b b.2 c c.2 hab' hab hbc' hbc).2
        rw [hc] at this; cases this⟩
  have : DecidableRel r := fun a b => inferInstanceAs (Decidable (lt b.1 a.1 = false))
  refine ⟨(es.attach.insertionSort r).map (·.1), ?_, ?_⟩
  · have := (List.perm_insertionSort r es.attach).map (·.1)
    have e : es.attach.map (fun x => x.1) = es := by simp
    rwa [e] at this
  · rw [List.pairwise_map]
    exact List.pairwise_insertionSort r es.attach

/-- An environment for the examples. -/
noncomputable def someEnv (orig : Bool → List (Tri P3)) : Mix.Env where
  base n := let u : P3 := if n.x = 0 ∧ n.y = 0 then ⟨1, 0, 0⟩ else ⟨-n.y, n.x, 0⟩; (u, cross n u)
  sort es := by classical exact if h : ∃ s, Radial.IsSortOf Radial.radialLt es s then h.choose else es
  side b := Side.exactEnv (orig b).length

/-- **What is assumed of the environment can be had.** -/
theorem C70_consistent {orig : Bool → List (Tri P3)} (h : ∀ b, ∀ t ∈ orig b, Proper t) : (someEnv orig).Valid orig where
  base n hn := by
    refine ⟨?_, ?_, rfl⟩
    · simp only [someEnv, dot]
      split
      · rename_i h; simp [h.1]
      · ring
    · simp only [someEnv]
      split
      · simp
      · rename_i h
        intro e
        simp only [Spec.P3.mk.injEq, neg_eq_zero, and_true] at e
        exact h ⟨e.2, e.1⟩
  sort es h0 h1 h2 := by
    have := sort_exists es h0 h1 h2
    simp only [someEnv, dif_pos this]
    exact this.choose_spec
  side b := Side.exactEnv_valid (fun t ht => Side.ok_of_proper (h b t ht))

/-! ## Two tetrahedra with a common face -/

def doubleSolid (b : Bool) : Region P3 Unit :=
  if b then tetraSolid else ⟨.boundaryDefined, ⟨[⟨0, 0, 0⟩, ⟨1, 0, 0⟩, ⟨0, 1, 0⟩, ⟨0, 0, -1⟩], [⟨0, 2, 3⟩, ⟨0, 3, 1⟩, ⟨0, 1, 2⟩, ⟨1, 3, 2⟩], [(), (), (), ()]⟩⟩
def doubleSets (b : Bool) : P3 → Prop := if b then Side.tetraInside else lowerInside

theorem double_complexes (b : Bool) : Complex (doubleOrig b) := part_complex double_complex fun t ht => ⟨t, by
  cases b
  · exact List.mem_append_right _ ht
  · exact List.mem_append_left _ ht, match_refl t⟩

theorem doubleSolid_is (b : Bool) : IsSolid (doubleSolid b) (doubleOrig b) (doubleSets b) where
  inv := by cases b <;> simp [doubleSolid, tetraSolid, RegionInv]
  wf := by cases b <;> exact ⟨rfl, by decide⟩
  corners := by
    cases b
    · simp only [doubleSolid, doubleOrig, lower_eq]
      simp [HasCorners]
    · exact tetraSolid_boundary.2.2
  complex := double_complexes b
  once := double_once b
  bounds := by cases b <;> exact double_bounds _
  kind := by cases b <;> simp [doubleSolid, tetraSolid, KindSays, doubleOrig, lower_eq, Side.tetraFaces]

theorem double_side (b : Bool) : (doubleSolid b).boundary.faces.length = 4 := by cases b <;> rfl

/-- The classification of the two tetrahedra returns, … -/
theorem double_returns : ∃ out w, Mix.Result (someEnv doubleOrig) (doubleSolid true).boundary (doubleSolid false).boundary double doubleBorder out w := by
  refine C70_returns (χ := doubleSets) double_corefined (fun b => (doubleSolid_is b).bounds) (C70_consistent fun b => (double_complexes b).proper) (by decide) ?_
  show ∀ i, i < 8 → Mix.tag doubleData i = .unknown → Mix.sideTag (someEnv doubleOrig) (doubleSolid true).boundary (doubleSolid false).boundary doubleFaces (Mix.pts doublePoints) (Mix.owner doubleData) i ≠ none
  decide +kernel

/-- The union of the two tetrahedra: every execution gives a region that is the union, apart from points of the two surfaces. -/
example {bb : Builder P3 Unit} {w : Global.Warnings} (h : Mix.Built (someEnv doubleOrig) (fun _ _ m0 border => m0 = double ∧ border = doubleBorder) (doubleSolid true) (doubleSolid false) bb w) :
    w = .none ∧ ∃ r, bb.run .union false = ok r ∧ Denotes r (fun x => x ∈ onSets .union {x | Side.tetraInside x} {x | lowerInside x}) (fun x => Surface Side.tetraFaces x ∨ Surface lowerFaces x) :=
  C70_boolean (χ := doubleSets) (fun _ _ m0 border h => ⟨doubleTris, by rw [h.1, h.2]; exact double_corefined⟩) (doubleSolid_is true) (doubleSolid_is false) (C70_consistent fun b => (double_complexes b).proper) h .union false

/-- … and there is an execution. -/
example : ∃ bb w, Mix.Built (someEnv doubleOrig) (fun _ _ m0 border => m0 = double ∧ border = doubleBorder) (doubleSolid true) (doubleSolid false) bb w := by
  obtain ⟨out, w, h⟩ := double_returns
  refine ⟨⟨.boundaryDefined, .boundaryDefined, out⟩, w, ?_⟩
  unfold Mix.Built
  rw [if_neg (by decide)]
  exact ⟨_, _, ⟨rfl, rfl⟩, h, rfl, rfl⟩

/-- The tags of the faces of the two tetrahedra: both copies of the common face are marked as coincident with opposite orientation, all others are outside of the other operand. -/
example {out : Soup P3 (MixedData Unit)} {w : Global.Warnings} (h : Mix.Result (someEnv doubleOrig) (doubleSolid true).boundary (doubleSolid false).boundary double doubleBorder out w) :
    Tagged out doubleTris doubleSets ∧ w = .none := by
  obtain ⟨h1, -, -, h2⟩ := C70_classified (χ := doubleSets) (soup := fun b => (doubleSolid b).boundary) double_corefined (fun b => (double_complexes b).proper) (fun b => (doubleSolid_is b).bounds)
    (C70_consistent fun b => (double_complexes b).proper) (fun b => (doubleSolid_is b).corners) (fun b => by cases b <;> simp [doubleSolid, tetraSolid]) h
  exact ⟨h1, h2⟩

theorem double_off : ¬ Surface Side.tetraFaces ⟨1 / 4, 1 / 4, 1 / 8⟩ ∧ ¬ Surface lowerFaces ⟨1 / 4, 1 / 4, 1 / 8⟩ := by
  rw [lower_eq]
  constructor <;>
  · rintro ⟨t, ht, u, v, w, hs, e, h1, h2, h3⟩
    simp only [Side.tetraFaces, List.mem_cons, List.not_mem_nil, or_false] at ht
    rcases ht with rfl | rfl | rfl | rfl <;> simp [combo] at e <;> linarith [e.1, e.2.1, e.2.2]

/-- A point of the first tetrahedron is on the bounded side of the union, and on the unbounded side of the intersection. -/
example {bb : Builder P3 Unit} {w : Global.Warnings} (h : Mix.Built (someEnv doubleOrig) (fun _ _ m0 border => m0 = double ∧ border = doubleBorder) (doubleSolid true) (doubleSolid false) bb w)
    {r r' : Region P3 Unit} (hr : bb.run .union false = ok r) (hr' : bb.run .intersection false = ok r') : ∃ ts ts', HasCorners r.boundary.points r.boundary.faces ts ∧ HasCorners r'.boundary.points r'.boundary.faces ts' ∧
      (∀ E' : Side.Env, E'.Valid ts → ∀ s, Side.boundedSide E' r ⟨1 / 4, 1 / 4, 1 / 8⟩ = ok s → s = .bounded) ∧ ∀ E' : Side.Env, E'.Valid ts' → ∀ s, Side.boundedSide E' r' ⟨1 / 4, 1 / 4, 1 / 8⟩ = ok s → s = .unbounded := by
  have hcut : (doubleSolid true).kind = .boundaryDefined → (doubleSolid false).kind = .boundaryDefined → ∀ m0 border, (m0 = double ∧ border = doubleBorder) → ∃ ts, Corefined doubleOrig m0 ts border :=
    fun _ _ m0 border h => ⟨doubleTris, by rw [h.1, h.2]; exact double_corefined⟩
  obtain ⟨ts, h1, h2⟩ := C70_side (χ := doubleSets) hcut (doubleSolid_is true) (doubleSolid_is false) (C70_consistent fun b => (double_complexes b).proper) h hr
  obtain ⟨ts', h1', h2'⟩ := C70_side (χ := doubleSets) hcut (doubleSolid_is true) (doubleSolid_is false) (C70_consistent fun b => (double_complexes b).proper) h hr'
  refine ⟨ts, ts', h1, h1', fun E' hE' s hs => (h2 E' hE' _ double_off.1 double_off.2 s hs).1.2 ?_, fun E' hE' s hs => (h2' E' hE' _ double_off.1 double_off.2 s hs).2.2 ?_⟩
  · refine Or.inl ?_
    simp only [doubleSets, Side.tetraInside, if_true, Set.mem_setOf_eq]
    norm_num
  · rintro ⟨-, h⟩
    simp [doubleSets, lowerInside, Side.tetraInside, mirror] at h
    norm_num at h

end Kigumi.Props

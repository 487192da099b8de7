import Verif.Spec.Origin
import Verif.Props.Expressions
import Verif.Props.Ties

/-! # C86: where the faces of results come from -/
namespace Kigumi.Props
open Kigumi Outcome Geo Spec.Triangles Spec.Side FaceFace Space
open Kigumi.Spec (SameTri HasCorners operandTris truth onSets RegionInv Expr select selected)
open Kigumi.Corefine (Env Gives GivesBy construct Operands both)
variable {D : Type} {E : Env} {E' : Mix.Env} {orig : Bool → List (Tri P3)} {χ : Bool → P3 → Prop} {a b c : Region P3 D} {ord : Tri P3 → P3 → P3 → Prop} {bb : Builder P3 D} {w : Global.Warnings} {op : Op} {pf : Bool} {p t u : Tri P3} {d : D}

/-! ## Parts -/

theorem part_flip {inv : Bool} (h : PartOf p t inv) : PartOf p.flip t (!inv) := by
  obtain ⟨h1, k, hk, h2⟩ := h
  refine ⟨fun x hx => h1 x ?_, -k, ?_, ?_⟩
  · have := in_flip hx
    simpa [Tri.flip] using this
  · cases inv
    · simpa using hk
    · simpa using hk
  · rw [Cutting.outward_flip, h2]
    simp

theorem part_self (t : Tri P3) : PartOf t t false := ⟨fun _ h => h, 1, by simp, by simp⟩

theorem part_trans {i j : Bool} (h : PartOf p t i) (h' : PartOf t u j) : PartOf p u (xor i j) := by
  obtain ⟨h1, k, hk, h2⟩ := h
  obtain ⟨h1', k', hk', h2'⟩ := h'
  refine ⟨fun x hx => h1' x (h1 x hx), k * k', ?_, ?_⟩
  · cases i <;> cases j <;> simp at hk hk' ⊢
    · exact mul_pos hk hk'
    · exact mul_neg_of_pos_of_neg hk hk'
    · exact mul_neg_of_neg_of_pos hk hk'
    · exact mul_pos_of_neg_of_neg hk hk'
  · rw [h2, h2']
    simp [mul_assoc]

/-! ## The faces that are selected -/

theorem selected_zip {P : Type} {R : Tri Nat → Tri P → Prop} {fs : List (Tri Nat)} {ts : List (Tri P)} (h : List.Forall₂ R fs ts) (op : Op) (pf : Bool) : ∀ (ds : List (MixedData D)) (i : Nat) (p : Tri P) (d : D),
    ((ts.zip ds).filterMap fun x => (select op pf x.2.fromLeft x.2.tag).map fun inv => if inv then x.1.flip else x.1)[i]? = some p →
    (((fs.zip ds).filterMap fun x => (select op pf x.2.fromLeft x.2.tag).map fun inv => (if inv then x.1.flip else x.1, x.2.data)).map Prod.snd)[i]? = some d →
    ∃ (k : Nat) (t : Tri P) (md : MixedData D) (inv : Bool), ts[k]? = some t ∧ ds[k]? = some md ∧ md.data = d ∧ select op pf md.fromLeft md.tag = some inv ∧ p = if inv then t.flip else t := by
  induction h with
  | nil => simp
  | @cons f t fs ts _ _ ih =>
    intro ds i p d hp hd
    cases ds with
    | nil => simp at hp
    | cons md ds =>
      simp only [List.zip_cons_cons, List.filterMap_cons] at hp hd
      cases hs : select op pf md.fromLeft md.tag with
      | none =>
        simp only [hs, Option.map_none] at hp hd
        obtain ⟨k, t, md, inv, h1, h2, h3⟩ := ih ds i p d hp hd
        exact ⟨k + 1, t, md, inv, by simpa using h1, by simpa using h2, h3⟩
      | some inv =>
        simp only [hs, Option.map_some] at hp hd
        cases i with
        | zero =>
          simp only [List.getElem?_cons_zero, Option.some.injEq, List.map_cons] at hp hd
          exact ⟨0, t, md, inv, by simp, by simp, hd, hs, hp.symm⟩
        | succ i =>
          simp only [List.getElem?_cons_succ, List.map_cons] at hp hd
          obtain ⟨k, t, md, inv, h1, h2, h3⟩ := ih ds i p d hp hd
          exact ⟨k + 1, t, md, inv, by simpa using h1, by simpa using h2, h3⟩

/-- The faces of a result are mixed faces, or reversed ones. -/
theorem run_faces {ts : List (Tri P3)} (hc : HasCorners bb.m.points bb.m.faces ts) (hl : bb.m.data.length = bb.m.faces.length) (hr : bb.run op pf = ok c) (hf : HasFace c.boundary p d) :
    ∃ (k : Nat) (t : Tri P3) (md : MixedData D) (inv : Bool), ts[k]? = some t ∧ bb.m.data[k]? = some md ∧ md.data = d ∧ select op pf md.fromLeft md.tag = some inv ∧ p = if inv then t.flip else t := by
  obtain ⟨s, e, hcor, hdat, -⟩ := extract_corners hc hl op pf
  have hb : c.boundary = s ∨ c.boundary = Soup.empty := by
    unfold Builder.run at hr
    rw [e, ok_bind] at hr
    have fe : ∀ v : Bool, ok (fullOrEmpty v : Region P3 D) = ok c → c.boundary = Soup.empty := by
      intro v h
      cases h
      cases v <;> rfl
    split at hr
    · unfold Region.ofSoup at hr
      split at hr
      · cases hr
      · cases hr; exact .inl rfl
    right
    split at hr
    · exact fe _ hr
    split at hr
    · exact fe _ hr
    cases op <;> simp only [pure_eq] at hr
    all_goals first
      | exact fe true hr
      | exact fe false hr
      | (split at hr
         · exact fe _ hr
         · split at hr
           · exact fe _ hr
           · exact absurd hr (by simp))
      | (exact absurd hr (by simp))
  rcases hb with hb | hb
  · rw [hb] at hf
    obtain ⟨i, f, h1, h2, h3, h4, h5⟩ := hf
    obtain ⟨p', hp', e1, e2, e3⟩ := forall2_get hcor h1
    have : p' = p := by
      rw [h2] at e1; rw [h3] at e2; rw [h4] at e3
      cases p; cases p'; cases e1; cases e2; cases e3; rfl
    subst this
    rw [hdat] at h5
    exact selected_zip hc op pf bb.m.data i p' d hp' h5
  · rw [hb] at hf
    obtain ⟨i, f, h1, -⟩ := hf
    simp [Soup.empty] at h1

/-! ## The mixed faces -/

theorem hasFace_of {s : Soup P3 D} {ts : List (Tri P3)} (h : HasCorners s.points s.faces ts) {j : Nat} (ht : ts[j]? = some t) (hd : s.data[j]? = some d) : HasFace s t d := by
  obtain ⟨f, hf, h1, h2, h3⟩ := forall2_get' h ht
  exact ⟨j, f, hf, h1, h2, h3, hd⟩

/-- Mixed faces are pieces of faces of the operands and have their data. -/
theorem mixed_faces (ha : IsSolid a (orig true) (χ true)) (hb : IsSolid b (orig false) (χ false)) (hE : E.Valid orig) (h : Mix.Built E' (GivesBy ord E) a b bb w) :
    ∃ ts, HasCorners bb.m.points bb.m.faces ts ∧ bb.m.data.length = bb.m.faces.length ∧
      ∀ (i : Nat) (p : Tri P3) (md : MixedData D), ts[i]? = some p → bb.m.data[i]? = some md → ∃ t, HasFace (both a b md.fromLeft).boundary t md.data ∧ PartOf p t false := by
  unfold Mix.Built at h
  split at h
  · rename_i hef
    obtain ⟨hmk, -⟩ := h
    unfold Builder.make at hmk
    split at hmk
    · simp only [pure_eq] at hmk; cases hmk
      exact ⟨[], .nil, rfl, by simp⟩
    · rw [concatMixed_ok ha.wf hb.wf, ok_bind] at hmk
      simp only [pure_eq] at hmk; cases hmk
      have nil : ∀ {r : Region P3 D} {ts χ'}, IsSolid r ts χ' → r.isEmptyOrFull = true → r.boundary = Soup.empty := by
        intro r ts χ' hs he
        have hi := hs.inv
        unfold RegionInv at hi
        simp only [Region.isEmptyOrFull, Region.isEmpty, Region.isFull, Bool.or_eq_true, beq_iff_eq] at he
        rcases he with he | he <;> rw [he] at hi <;> exact hi
      simp only [Bool.or_eq_true] at hef
      rcases hef with hef | hef
      · have e := nil ha hef
        refine ⟨orig false, ?_, ?_, ?_⟩
        · simpa [e, Soup.empty] using hb.corners
        · simpa [e, Soup.empty] using hb.wf.1
        · intro i p md hp hd
          simp only [e, Soup.empty, List.map_nil, List.nil_append, List.getElem?_map, Option.map_eq_some_iff] at hd
          obtain ⟨d, hd, rfl⟩ := hd
          exact ⟨p, hasFace_of hb.corners hp hd, part_self p⟩
      · have e := nil hb hef
        refine ⟨orig true, ?_, ?_, ?_⟩
        · simpa [e, Soup.empty] using ha.corners
        · simpa [e, Soup.empty] using ha.wf.1
        · intro i p md hp hd
          simp only [e, Soup.empty, List.map_nil, List.append_nil, List.getElem?_map, Option.map_eq_some_iff] at hd
          obtain ⟨d, hd, rfl⟩ := hd
          exact ⟨p, hasFace_of ha.corners hp hd, part_self p⟩
  · obtain ⟨m0, border, hc, hres, -⟩ := h
    have ho := solid_operands ha hb
    obtain ⟨cut, ts, hcut, hlaid, -, hdat⟩ := Corefine.gives_laid_data (s := both a.boundary b.boundary) ho hE hc
    obtain ⟨m, edges, tags1, tags2, w1, w2, -, -, -, -, hout, -⟩ := hres
    rw [hout]
    refine ⟨ts, hlaid.corners, by simp only [retag_length]; exact hlaid.data, ?_⟩
    intro i p md hp hd
    simp only [retag_get, Option.map_eq_some_iff] at hd
    obtain ⟨md0, hd, rfl⟩ := hd
    obtain ⟨j, t, ht, hpt, hj⟩ := hdat i p md0 hp hd
    refine ⟨t, ?_, ?_⟩
    · have := hasFace_of (ho.corners md0.fromLeft) ht hj
      cases hl : md0.fromLeft <;> rw [hl] at this <;> exact this
    · have tri := hcut.tri _ t (List.mem_of_getElem? ht)
      obtain ⟨k, hk, e⟩ := tri.oriented p hpt
      exact ⟨tri.inside p hpt, k, by simpa using hk, e⟩

theorem select_grows (op : Op) (pf side : Bool) (tag : Tag) (inv : Bool) : select op pf side tag = some inv → (Grows op side → inv = false) ∧ (Shrinks op side → inv = true) := by
  revert pf side inv
  cases op <;> cases tag <;> decide +kernel

/-- **Where the faces of a result come from.** Whatever the threads do, whatever constrained Delaunay triangulations CGAL gives, and whether or not the classification is right: every face of the result of a Boolean operation is part of a face of an operand and carries its
data. It looks into the same direction if the result of the operation grows with that operand, and into the opposite one if it shrinks. -/
theorem C86_origin (ha : IsSolid a (orig true) (χ true)) (hb : IsSolid b (orig false) (χ false)) (hE : E.Valid orig) (h : Mix.Built E' (GivesBy ord E) a b bb w) (hr : bb.run op pf = ok c) (hf : HasFace c.boundary p d) :
    ∃ side t inv, HasFace (both a b side).boundary t d ∧ PartOf p t inv ∧ (Grows op side → inv = false) ∧ (Shrinks op side → inv = true) := by
  obtain ⟨ts, h1, h2, h3⟩ := mixed_faces ha hb hE h
  obtain ⟨k, q, md, inv, hq, hmd, rfl, hsel, rfl⟩ := run_faces h1 h2 hr hf
  obtain ⟨t, ht, hp⟩ := h3 k q md hq hmd
  refine ⟨md.fromLeft, t, inv, ht, ?_, select_grows op pf md.fromLeft md.tag inv hsel⟩
  cases inv
  · exact hp
  · exact part_flip hp

/-- The same, where the ties in triangulations may be broken in any way. -/
theorem C86_origin_any (ha : IsSolid a (orig true) (χ true)) (hb : IsSolid b (orig false) (χ false)) (hE : E.Valid orig) (h : Mix.Built E' (Gives E) a b bb w) (hr : bb.run op pf = ok c) (hf : HasFace c.boundary p d) :
    ∃ side t inv, HasFace (both a b side).boundary t d ∧ PartOf p t inv ∧ (Grows op side → inv = false) ∧ (Shrinks op side → inv = true) :=
  C86_origin ha hb hE (Corefine.gives_eq ▸ h) hr hf

/-! ## Faces of both operands -/

theorem preferred_by (ha : IsSolid a (orig true) (χ true)) (hb : IsSolid b (orig false) (χ false)) (hE : E.Valid orig) (hg : Cutting.Settled ord orig) (hman : ManifoldWhereCoinciding orig) (hE' : E'.Valid orig)
    (h : Mix.Built E' (GivesBy ord E) a b bb w) (hr : bb.run op pf = ok c) (hf : HasFace c.boundary p d) (hp : ∀ x, In p x → Surface (orig true) x ∧ Surface (orig false) x) :
    ∃ t inv, HasFace (both a b pf).boundary t d ∧ PartOf p t inv := by
  obtain ⟨ts, h1, h2, h3⟩ := mixed_faces ha hb hE h
  obtain ⟨k, q, md, inv, hq, hmd, rfl, hsel, rfl⟩ := run_faces h1 h2 hr hf
  obtain ⟨t, ht, hpt⟩ := h3 k q md hq hmd
  suffices hs : md.fromLeft = pf by
    rw [hs] at ht
    refine ⟨t, inv, ht, ?_⟩
    cases inv
    · exact hpt
    · exact part_flip hpt
  by_contra hs
  have hpq : ∀ x, In q x → Surface (orig true) x ∧ Surface (orig false) x := by
    intro x hx
    refine hp x ?_
    cases inv
    · exact hx
    · exact in_flip hx
  have hsurf := hpq (centre q) (inner_in (inner_centre q))
  unfold Mix.Built at h
  split at h
  · rename_i hef
    simp only [Bool.or_eq_true] at hef
    rcases hef with hef | hef
    · obtain ⟨u, hu, -⟩ := hsurf.1
      rw [solid_nil ha hef] at hu; simp at hu
    · obtain ⟨u, hu, -⟩ := hsurf.2
      rw [solid_nil hb hef] at hu; simp at hu
  · rename_i hef
    obtain ⟨m0, border, hc, hres, -⟩ := h
    simp only [Bool.or_eq_true, not_or, Bool.not_eq_true] at hef
    have kind : ∀ {r : Region P3 D}, r.isEmptyOrFull = false → r.kind = .boundaryDefined := by
      intro r hr
      cases hk : r.kind <;> simp_all [Region.isEmptyOrFull, Region.isEmpty, Region.isFull]
    have hne : ∀ x : Bool, (both a.boundary b.boundary x).faces ≠ [] := by
      intro x
      have ia := ha.inv
      have ib := hb.inv
      simp only [RegionInv, kind hef.1, kind hef.2] at ia ib
      cases x <;> assumption
    have ho := solid_operands ha hb
    obtain ⟨ts', hcor⟩ := Corefine.gives_corefined (s := both a.boundary b.boundary) ho hE hg hman hc
    obtain ⟨hcut, htag, -⟩ := mixed_right (soup := both a.boundary b.boundary) hcor (χ := χ) (fun b => (ho.complex b).proper) (fun b => by cases b; exacts [hb.bounds, ha.bounds]) hE' ho.corners hne hres
    have hts : ts' = ts := by
      refine List.ext_getElem? fun i => ?_
      cases hi : bb.m.faces[i]? with
      | none =>
        have := List.getElem?_eq_none_iff.1 hi
        rw [List.getElem?_eq_none (by rw [← hcut.corners.length_eq]; exact this), List.getElem?_eq_none (by rw [← h1.length_eq]; exact this)]
      | some f => rw [corner_tri hcut.corners hi, corner_tri h1 hi]
    subst hts
    have hmem : (q, md) ∈ ts'.zip bb.m.data := List.mem_of_getElem? (List.getElem?_zip_eq_some.2 ⟨hq, hmd⟩)
    have hright := htag _ hmem
    have hno : ∀ u ∈ operandTris ts' bb.m.data (!md.fromLeft), ¬ Match q u := by
      unfold select at hsel
      simp only at hright
      cases htg : md.tag <;> rw [htg] at hright hsel
      all_goals first
        | exact hright.1
        | exact hright.elim
        | (simp [hs] at hsel)
    obtain ⟨src, href⟩ := hcor.refines (!md.fromLeft)
    have hor : Surface (orig (!md.fromLeft)) (centre q) := by cases md.fromLeft; exacts [hsurf.1, hsurf.2]
    obtain ⟨u, hu, hin⟩ := (refines_surface href _).1 hor
    have hu' : u ∈ operandTris ts' bb.m.data (!md.fromLeft) := by
      obtain ⟨m, edges, tags1, tags2, w1, w2, -, -, -, -, hout, -⟩ := hres
      rw [hout]
      simp only [retag_operand]
      exact hu
    have hut : u ∈ ts' := by
      simp only [operandTris, List.mem_map] at hu'
      obtain ⟨x, hx, rfl⟩ := hu'
      exact (List.of_mem_zip (List.mem_filter.1 hx).1).1
    have hqt := List.mem_of_getElem? hq
    exact hno u hu' (inner_common (hcut.complex.proper q hqt) (inner_centre q) (hcut.complex.meet q hqt u hut _ (inner_in (inner_centre q)) hin))

/-- **Faces of both operands** have the data of the preferred one: where no four corners of a common part of faces are on a circle. -/
theorem C86_preferred (ha : IsSolid a (orig true) (χ true)) (hb : IsSolid b (orig false) (χ false)) (hE : E.Valid orig) (hg : NoFourOnCircle orig) (hman : ManifoldWhereCoinciding orig) (hE' : E'.Valid orig)
    (h : Mix.Built E' (Gives E) a b bb w) (hr : bb.run op pf = ok c) (hf : HasFace c.boundary p d) (hp : ∀ x, In p x → Surface (orig true) x ∧ Surface (orig false) x) :
    ∃ t inv, HasFace (both a b pf).boundary t d ∧ PartOf p t inv :=
  preferred_by ha hb hE (Cutting.settled_noFour hg) hman hE' (Corefine.gives_eq ▸ h) hr hf hp

/-- The same, where triangulations break ties by orders of points. -/
theorem C86_preferred_ties (ho : Orders ord) (hs : SplitCircles ord orig) (ha : IsSolid a (orig true) (χ true)) (hb : IsSolid b (orig false) (χ false)) (hE : E.Valid orig) (hman : ManifoldWhereCoinciding orig) (hE' : E'.Valid orig)
    (h : Mix.Built E' (GivesBy ord E) a b bb w) (hr : bb.run op pf = ok c) (hf : HasFace c.boundary p d) (hp : ∀ x, In p x → Surface (orig true) x ∧ Surface (orig false) x) :
    ∃ t inv, HasFace (both a b pf).boundary t d ∧ PartOf p t inv :=
  preferred_by ha hb hE (Cutting.settled_ties ho hs) hman hE' h hr hf hp

/-! ## Expressions -/

/-- **Where the faces of the result of an expression come from.** They are parts of faces of the operands and carry their data. -/
theorem C86_expression {reg : Nat → Region P3 D} {tris : Nat → List (Tri P3)} {χ : Nat → P3 → Prop} {e : Expr} (h : Separate reg tris χ e.leaves) {r : Region P3 D} (he : Evaluates reg e r) (hf : HasFace r.boundary p d) :
    ∃ i ∈ e.leaves, ∃ t inv, HasFace (reg i).boundary t d ∧ PartOf p t inv := by
  induction he generalizing p with
  | leaf i => exact ⟨i, by simp [Expr.leaves], p, false, hf, part_self p⟩
  | @node op pf l r a b c E E' bb w h1 h2 hE hbb hr ih1 ih2 =>
    obtain ⟨ts, χ1, s1, -⟩ := C85_expression (separate_left h) h1
    obtain ⟨us, χ2, s2, -⟩ := C85_expression (separate_right h) h2
    obtain ⟨e1, -⟩ := hE (both ts us) s1.corners s2.corners
    obtain ⟨side, t, inv, ht, hp, -⟩ := C86_origin_any (orig := both ts us) (χ := fun b => if b then χ1 else χ2) s1 s2 e1 hbb hr hf
    cases side
    · obtain ⟨i, hi, u, j, hu, hq⟩ := ih2 (separate_right h) ht
      exact ⟨i, List.mem_append_right _ hi, u, _, hu, part_trans hp hq⟩
    · obtain ⟨i, hi, u, j, hu, hq⟩ := ih1 (separate_left h) ht
      exact ⟨i, List.mem_append_left _ hi, u, _, hu, part_trans hp hq⟩

/-! ## Examples -/

/-- A solid whose faces have data. -/
def labelled (r : Region P3 Unit) (ds : List D) : Region P3 D := ⟨.boundaryDefined, ⟨r.boundary.points, r.boundary.faces, ds⟩⟩

theorem labelled_is {r : Region P3 Unit} {ts : List (Tri P3)} {χ : P3 → Prop} (h : IsSolid r ts χ) (hk : r.kind = .boundaryDefined) {ds : List D} (hd : ds.length = r.boundary.faces.length) : IsSolid (labelled r ds) ts χ where
  inv := by
    have := h.inv
    simp only [RegionInv, hk] at this
    exact this
  wf := ⟨hd, h.wf.2⟩
  corners := h.corners
  complex := h.complex
  once := h.once
  bounds := h.bounds
  kind := by have := h.kind; rw [hk] at this; exact this

/-- The corner of a cube and a needle through it, with named faces. -/
def labelledBlock : Region P3 String := labelled (threeSolids 0) ["slope", "x = 0", "y = 0", "z = 0"]
def labelledNeedle : Region P3 String := labelled (threeSolids 1) ["a", "b", "c", "d"]

/-- The hole that the needle makes: the difference exists, its faces are parts of faces of the block, or of faces of the needle, the other way round, and have their names. -/
example {E : Env} {E' : Mix.Env} (hE : E.Valid (both block needle)) (hE' : E'.Valid (both block needle)) : ∃ bb w c, Mix.Built E' (Gives E) labelledBlock labelledNeedle bb w ∧ bb.run .difference true = ok c ∧
    Denotes c (fun x => x ∈ onSets .difference {x | Within block x} {x | Within needle x}) (fun x => Surface block x ∨ Surface needle x) ∧
    ∀ p d, HasFace c.boundary p d → ∃ t, (HasFace labelledBlock.boundary t d ∧ PartOf p t false) ∨ (HasFace labelledNeedle.boundary t d ∧ PartOf p t true) := by
  obtain ⟨h1, h2, -⟩ := three_dets
  have ha : IsSolid labelledBlock block (Within block) := labelled_is (simplex_is h1) rfl rfl
  have hb : IsSolid labelledNeedle needle (Within needle) := labelled_is (simplex_is h2) rfl rfl
  obtain ⟨-, ⟨bb, w, hbb⟩, hall⟩ := C79_convex (orig := both block needle) (χ := both (Within block) (Within needle)) ha hb hE hE' (three_separate.apart 0 (by simp) 1 (by simp) (by simp)) (fun c => by
    cases c
    exacts [within_convexSet (tetra_convex h2), within_convexSet (tetra_convex h1)])
  obtain ⟨c, hc, hden⟩ := hall bb w hbb .difference true
  refine ⟨bb, w, c, hbb, hc, hden, fun p d hf => ?_⟩
  obtain ⟨side, t, inv, ht, hp, hg, hs⟩ := C86_origin_any (orig := both block needle) (χ := both (Within block) (Within needle)) ha hb hE hbb hc hf
  cases side
  · have := hs (by decide); subst this
    exact ⟨t, .inr ⟨ht, hp⟩⟩
  · have := hg (by decide); subst this
    exact ⟨t, .inl ⟨ht, hp⟩⟩

/-- The face that two tetrahedra have in common: if the second one is preferred, a face there has the name of its face, also in the result of the operation that returns the first one. -/
example {E : Env} {E' : Mix.Env} (hE : E.Valid doubleOrig) (hE' : E'.Valid doubleOrig) {bb : Builder P3 String} {w : Global.Warnings} {c : Region P3 String}
    (h : Mix.Built E' (Gives E) (labelled (doubleSolid true) ["a", "b", "c", "d"]) (labelled (doubleSolid false) ["e", "f", "g", "h"]) bb w) (hr : bb.run .I false = ok c) {p : Tri P3} {d : String}
    (hf : HasFace c.boundary p d) (hp : ∀ x, In p x → Surface (doubleOrig true) x ∧ Surface (doubleOrig false) x) : d ∈ ["e", "f", "g", "h"] := by
  obtain ⟨t, inv, ⟨i, f, -, -, -, -, hd⟩, -⟩ := C86_preferred (χ := doubleSets) (labelled_is (doubleSolid_is true) rfl (ds := ["a", "b", "c", "d"]) rfl) (labelled_is (doubleSolid_is false) rfl (ds := ["e", "f", "g", "h"]) rfl) hE (conforming_circle double_complex) double_manifold hE' h hr hf hp
  exact List.mem_of_getElem? hd

/-- Parts of triangles. -/
example : PartOf ⟨⟨0, 0, 0⟩, ⟨0, 1, 0⟩, ⟨1, 0, 0⟩⟩ ⟨⟨0, 0, 0⟩, ⟨2, 0, 0⟩, ⟨0, 2, 0⟩⟩ true := by
  refine ⟨?_, -1/4, by norm_num, by simp [outward]; norm_num⟩
  rintro x ⟨w0, w1, w2, h, rfl, h0, h1, h2⟩
  refine ⟨1 - w2 / 2 - w1 / 2, w2 / 2, w1 / 2, by ring, ?_, by linarith, by linarith, by linarith⟩
  simp [combo]

example : Grows .union true ∧ Grows .union false ∧ Grows .difference true ∧ Shrinks .difference false ∧ ¬ Grows .symmetricDifference true ∧ ¬ Shrinks .symmetricDifference true ∧ ¬ Grows .I false := by decide

end Kigumi.Props

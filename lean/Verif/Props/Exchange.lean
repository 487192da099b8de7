import Verif.Props.ReproducibleFiles
import Verif.Proofs.Duality

/-! # C114: exchanged operands -/
namespace Kigumi.Props
open Kigumi Outcome Geo Spec.Triangles Spec.Side FaceFace Space
open Kigumi.Spec (SameTri HasCorners operandTris RegionInv select truth onSets swapOperands)
open Kigumi.Corefine (Env Gives GivesBy Operands both)
open Kigumi.Cutting (Cuts Laid)
variable {D : Type} {ord : Tri P3 → P3 → P3 → Prop} {E F : Env} {E' F' : Mix.Env} {orig : Bool → List (Tri P3)} {χ : Bool → P3 → Prop} {a b c c' : Region P3 D} {bb bb' : Builder P3 D} {w w' : Global.Warnings} {op op' : Op} {pf : Bool} {p t u : Tri P3} {d : D}

/-- The other operand first. -/
def opp {α : Type} (f : Bool → α) (x : Bool) : α := f (!x)

theorem opp_opp {α : Type} (f : Bool → α) : opp (opp f) = f := by funext x; simp [opp]

theorem opp_both {α : Type} (l r : α) : opp (both l r) = both r l := by funext x; cases x <;> rfl

theorem cuts_opp {cut : Bool → Tri P3 → List (Tri P3)} (h : Cuts (opp orig) cut) : Cuts orig (opp cut) where
  complex x := by cases x; exacts [h.complex true, h.complex false]
  once x := by cases x; exacts [h.once true, h.once false]
  tri x t ht := by cases x; exacts [h.tri true t ht, h.tri false t ht]

theorem ties_opp {cut : Bool → Tri P3 → List (Tri P3)} (h : Cutting.TiesCut ord (opp orig) cut) : Cutting.TiesCut ord orig (opp cut) := by
  intro x t ht
  cases x
  exacts [h true t ht, h false t ht]

theorem manifold_opp (h : ManifoldWhereCoinciding orig) : ManifoldWhereCoinciding (opp orig) := by
  intro x t ht hc
  cases x
  exacts [h true t ht hc, h false t ht hc]

theorem noFour_opp (h : NoFourVertices orig) : NoFourVertices (opp orig) := by
  intro x t ht
  cases x
  exacts [h true t ht, h false t ht]

theorem operand_swap (ts : List (Tri P3)) (m : Soup P3 (MixedData D)) (x : Bool) : operandTris ts (swapOperands m).data x = operandTris ts m.data (!x) := by
  unfold operandTris swapOperands
  simp only [List.zip_map_right, List.filter_map, List.map_map]
  have : ((fun y : Tri P3 × MixedData D => y.2.fromLeft == x) ∘ Prod.map id fun d : MixedData D => (⟨!d.fromLeft, d.tag, d.data⟩ : MixedData D)) = fun y => y.2.fromLeft == !x := by
    funext y
    simp only [Function.comp, Prod.map]
    cases y.2.fromLeft <;> cases x <;> rfl
  rw [this]
  rfl

theorem swap_get {m : Soup P3 (MixedData D)} {i : Nat} {md : MixedData D} (h : (swapOperands m).data[i]? = some md) : m.data[i]? = some ⟨!md.fromLeft, md.tag, md.data⟩ := by
  simp only [swapOperands, List.getElem?_map, Option.map_eq_some_iff] at h
  obtain ⟨md0, h, rfl⟩ := h
  simpa using h

theorem made_opp {s : Bool → Soup P3 D} {m : Soup P3 (MixedData D)} {ts : List (Tri P3)} {cut : Bool → Tri P3 → List (Tri P3)} (h : Made ord (opp orig) (opp s) m ts cut) : Made ord orig s (swapOperands m) ts (opp cut) where
  cuts := cuts_opp h.cuts
  ties := ties_opp h.ties
  corners := h.corners
  data := by simpa [swapOperands] using h.data
  tris x := by
    rw [operand_swap, h.tris]
    simp [opp]
  from_ i p md hp hd := by
    obtain ⟨j, t, h1, h2, h3⟩ := h.from_ i p _ hp (swap_get hd)
    simp only [opp, Bool.not_not] at h1 h3
    exact ⟨j, t, h1, h2, h3⟩
  once x := by rw [operand_swap]; exact h.once _

theorem tagged_opp {m : Soup P3 (MixedData D)} {ts : List (Tri P3)} (h : Tagged m ts (opp χ)) : Tagged (swapOperands m) ts χ := by
  rintro ⟨q, md⟩ hx
  obtain ⟨i, hi⟩ := List.mem_iff_getElem?.1 hx
  obtain ⟨h1, h2⟩ := List.getElem?_zip_eq_some.1 hi
  have hm : (q, (⟨!md.fromLeft, md.tag, md.data⟩ : MixedData D)) ∈ ts.zip m.data := List.mem_of_getElem? (List.getElem?_zip_eq_some.2 ⟨h1, swap_get h2⟩)
  have := h _ hm
  simp only [opp, Bool.not_not] at this
  simp only [operand_swap, Bool.not_not]
  exact this

/-- Two classified soups that were made of the same operands have the same selected faces. -/
theorem made_there {s : Bool → Soup P3 D} {ts ts' : List (Tri P3)} {cut cut' : Bool → Tri P3 → List (Tri P3)} (hg : OneWay ord orig) (m : Made ord orig s bb.m ts cut) (htag : Tagged bb.m ts χ) (m' : Made ord orig s bb'.m ts' cut') (hcx' : Complex ts') (htag' : Tagged bb'.m ts' χ)
    (hr : bb.run op pf = ok c) (hr' : bb'.run op pf = ok c') (hf : HasFace c.boundary p d) : ∃ p', HasFace c'.boundary p' d ∧ SameTri p p' := by
  obtain ⟨k, q, md, inv, hq, hmd, rfl, hsel, rfl⟩ := run_faces m.corners m.data hr hf
  obtain ⟨k', r, md', hr1, hmd', hs, hl, hdat⟩ := made_same m m' hg hq hmd
  have hm1 : (q, md) ∈ ts.zip bb.m.data := List.mem_of_getElem? (List.getElem?_zip_eq_some.2 ⟨hq, hmd⟩)
  have hm2 : (r, md') ∈ ts'.zip bb'.m.data := List.mem_of_getElem? (List.getElem?_zip_eq_some.2 ⟨hr1, hmd'⟩)
  have t1 := htag _ hm1
  have t2 := htag' _ hm2
  simp only at t1 t2
  rw [hl] at t2
  have t1' := right_congr hs (made_tri m m' hg _) (made_tri m' m hg _) t1
  have et : md'.tag = md.tag := right_unique (hcx'.proper r (List.mem_of_getElem? hr1)) (m'.once _) t2 t1'
  refine ⟨if inv then r.flip else r, hdat ▸ run_has m'.corners m'.data hr' hr1 hmd' (by rw [hl, et]; exact hsel), ?_⟩
  cases inv
  · exact hs
  · exact sameTri_flip hs

theorem trivial_boundary {ts : List (Tri P3)} {ψ : P3 → Prop} (hs : IsSolid a ts ψ) (he : a.isEmptyOrFull = true) : a.boundary = Soup.empty := by
  have hi := hs.inv
  unfold RegionInv at hi
  simp only [Region.isEmptyOrFull, Region.isEmpty, Region.isFull, Bool.or_eq_true, beq_iff_eq] at he
  rcases he with he | he <;> rw [he] at hi <;> exact hi

/-- The builder with exchanged operands. -/
def swapped (bb : Builder P3 D) : Builder P3 D := ⟨bb.secondKind, bb.firstKind, swapOperands bb.m⟩

theorem make_swap {mix : Soup P3 D → Soup P3 D → Outcome (Soup P3 (MixedData D))} {ts us : List (Tri P3)} {φ ψ : P3 → Prop} (ha : IsSolid a ts φ) (hb : IsSolid b us ψ) (hef : (a.isEmptyOrFull || b.isEmptyOrFull) = true) (h : Builder.make mix a b = ok bb) (h' : Builder.make mix b a = ok bb') : swapped bb' = bb := by
  unfold Builder.make at h h'
  cases h1 : a.isEmptyOrFull <;> cases h2 : b.isEmptyOrFull
  · simp [h1, h2] at hef
  · simp only [h1, h2, Bool.false_and, Bool.and_false, Bool.or_true, Bool.true_or, Bool.false_eq_true, if_false, if_true, concatMixed_ok ha.wf hb.wf, concatMixed_ok hb.wf ha.wf, ok_bind, pure_eq] at h h'
    cases h; cases h'
    have e := trivial_boundary hb h2
    have k1 : a.isEmpty = false ∧ a.isFull = false := by simpa [Region.isEmptyOrFull] using h1
    have k2 : b.isFull = !b.isEmpty := by
      cases hk : b.kind <;> simp_all [Region.isEmptyOrFull, Region.isEmpty, Region.isFull]
    simp only [swapped, swapOperands, e, Soup.empty, k1, k2]
    cases b.isEmpty <;> simp [Function.comp_def]
  · simp only [h1, h2, Bool.false_and, Bool.and_false, Bool.or_true, Bool.true_or, Bool.false_eq_true, if_false, if_true, concatMixed_ok ha.wf hb.wf, concatMixed_ok hb.wf ha.wf, ok_bind, pure_eq] at h h'
    cases h; cases h'
    have e := trivial_boundary ha h1
    have k1 : b.isEmpty = false ∧ b.isFull = false := by simpa [Region.isEmptyOrFull] using h2
    have k2 : a.isFull = !a.isEmpty := by
      cases hk : a.kind <;> simp_all [Region.isEmptyOrFull, Region.isEmpty, Region.isFull]
    simp only [swapped, swapOperands, e, Soup.empty, k1, k2]
    cases a.isEmpty <;> simp [Function.comp_def]
  · simp only [h1, h2, Bool.and_true, if_true, pure_eq] at h h'
    cases h; cases h'
    rfl

theorem swap_swap (op : Op) : Spec.Op.swap (Spec.Op.swap op) = op := by cases op <;> rfl

theorem truth_swap (op : Op) (x y : Bool) : truth (Spec.Op.swap op) x y = truth op y x := by cases op <;> cases x <;> cases y <;> rfl

theorem onSets_swap (op : Op) (A B : Set P3) : onSets (Spec.Op.swap op) B A = onSets op A B := by
  classical
  ext x
  rw [← C01_truth_is_set_operation (Spec.Op.swap op) B A x (decide (x ∈ B)) (decide (x ∈ A)) (by simp) (by simp), ← C01_truth_is_set_operation op A B x (decide (x ∈ A)) (decide (x ∈ B)) (by simp) (by simp), truth_swap]

theorem exchange_same (ha : IsSolid a (orig true) (χ true)) (hb : IsSolid b (orig false) (χ false)) (hE : E.Valid orig) (hF : F.Valid (opp orig)) (hg : OneWay ord orig) (hset : Cutting.Settled ord orig) (hset' : Cutting.Settled ord (opp orig)) (hman : ManifoldWhereCoinciding orig)
    (hE' : E'.Valid orig) (hF' : F'.Valid (opp orig)) (h : Mix.Built E' (GivesBy ord E) a b bb w) (h' : Mix.Built F' (GivesBy ord F) b a bb' w') (op : Op) (pf : Bool) :
    ∃ c c', bb.run op pf = ok c ∧ bb'.run (Spec.Op.swap op) (!pf) = ok c' ∧ c.kind = c'.kind ∧ SameFaces c.boundary c'.boundary := by
  obtain ⟨-, c, hr, hden⟩ := boolean_by ha hb hE hset hman hE' h op pf
  obtain ⟨-, c', hr', hden'⟩ := boolean_by (orig := opp orig) (χ := opp χ) hb ha hF hset' (manifold_opp hman) hF' h' (Spec.Op.swap op) (!pf)
  have hrs : (swapped bb').run op pf = ok c' := by
    have := run_swap bb' (Spec.Op.swap op) (!pf)
    rw [swap_swap, Bool.not_not, hr'] at this
    exact this
  have hW : ∀ t ∈ orig true ++ orig false, Proper t := fun t ht => (List.mem_append.1 ht).elim (ha.complex.proper t) (hb.complex.proper t)
  have hreg' := C97_regularizes hden' hW fun _ hx => surface_append.2 (Or.symm hx)
  have hsets : (fun x => x ∈ onSets (Spec.Op.swap op) {x | opp χ true x} {x | opp χ false x}) = fun x => x ∈ onSets op {x | χ true x} {x | χ false x} := by
    rw [← onSets_swap op]
    rfl
  rw [hsets] at hreg'
  obtain ⟨k1, k2, -⟩ := C97_same (C97_regularizes hden hW fun _ hx => surface_append.2 hx) hreg' fun _ => Iff.rfl
  have hk : c.kind = c'.kind := by
    simp only [Region.isEmpty, Region.isFull] at k1 k2
    cases e : c.kind <;> cases e' : c'.kind <;> simp_all
  obtain ⟨rs, ψ, hc, -⟩ := hden
  obtain ⟨rs', ψ', hc', -⟩ := hden'
  refine ⟨c, c', hr, hr', hk, ?_⟩
  by_cases hef : (a.isEmptyOrFull || b.isEmptyOrFull) = true
  · unfold Mix.Built at h h'
    rw [if_pos hef] at h
    rw [if_pos (by rw [Bool.or_comm]; exact hef)] at h'
    rw [make_swap ha hb hef h.1 h'.1, hr] at hrs
    cases hrs
    exact ⟨fun p d hf => ⟨p, hf, .inl rfl⟩, fun p d hf => ⟨p, hf, .inl rfl⟩, rfl⟩
  obtain ⟨ts, cut, m, hcx, htag⟩ := built_made ha hb hE hset hman hE' h hef
  obtain ⟨ts', cut', m', hcx', htag'⟩ := built_made (orig := opp orig) (χ := opp χ) hb ha hF hset' (manifold_opp hman) hF' h' (by rw [Bool.or_comm]; exact hef)
  rw [← opp_both] at m'
  have m'' : Made ord orig (both a.boundary b.boundary) (swapped bb').m ts' (opp cut') := made_opp m'
  have htag'' : Tagged (swapped bb').m ts' χ := tagged_opp htag'
  have t := fun p d hf => made_there (p := p) (d := d) hg m htag m'' hcx' htag'' hr hrs hf
  have t' := fun p d hf => made_there (p := p) (d := d) hg m'' htag'' m hcx htag hrs hr hf
  exact ⟨t, t', le_antisymm (faces_le hc hc' t) (faces_le hc' hc t')⟩

/-- **Exchanged operands.** Two executions, one with the operands exchanged, with an operator that does the same for exchanged arguments and with the other preference, give regions of the same kind with the same faces and the same data. -/
theorem C114_exchange (ha : IsSolid a (orig true) (χ true)) (hb : IsSolid b (orig false) (χ false)) (hE : E.Valid orig) (hF : F.Valid (both (orig false) (orig true))) (hg : NoFourVertices orig) (hman : ManifoldWhereCoinciding orig) (hE' : E'.Valid orig) (hF' : F'.Valid (both (orig false) (orig true)))
    (h : Mix.Built E' (Gives E) a b bb w) (h' : Mix.Built F' (Gives F) b a bb' w') (hop : ∀ x y, truth op' x y = truth op y x) (pf : Bool) :
    ∃ c c', bb.run op pf = ok c ∧ bb'.run op' (!pf) = ok c' ∧ c.kind = c'.kind ∧ SameFaces c.boundary c'.boundary := by
  have e : both (orig false) (orig true) = opp orig := by funext x; cases x <;> rfl
  rw [e] at hF hF'
  obtain rfl : Spec.Op.swap op = op' := truth_inj (funext fun x => funext fun y => by rw [truth_swap, hop])
  exact exchange_same (ord := fun _ _ _ => False) ha hb hE hF (oneWay_noFour hg) (Cutting.settled_noFour (noFour_of_vertices hg)) (Cutting.settled_noFour (noFour_of_vertices (noFour_opp hg))) hman hE' hF' (Corefine.gives_eq ▸ h) (Corefine.gives_eq ▸ h') op pf

/-! ## The preference -/

theorem shape_of {s s' : Soup P3 D} (h : SameFaces s s') : SameShape s s' where
  there p d hf := by obtain ⟨p', h1, h2⟩ := h.there p d hf; exact ⟨p', d, h1, h2⟩
  back p d hf := by obtain ⟨p', h1, h2⟩ := h.back p d hf; exact ⟨p', d, h1, h2⟩
  count := h.count

theorem shape_trans {s s' s'' : Soup P3 D} (h : SameShape s s') (h' : SameShape s' s'') : SameShape s s'' where
  there p d hf := by
    obtain ⟨p', d', h1, h2⟩ := h.there p d hf
    obtain ⟨p'', d'', h3, h4⟩ := h'.there p' d' h1
    exact ⟨p'', d'', h3, sameTri_trans h2 h4⟩
  back p d hf := by
    obtain ⟨p', d', h1, h2⟩ := h'.back p d hf
    obtain ⟨p'', d'', h3, h4⟩ := h.back p' d' h1
    exact ⟨p'', d'', h3, sameTri_trans h2 h4⟩
  count := h.count.trans h'.count

theorem shape_unit {s s' : Soup P3 Unit} (h : SameShape s s') : SameFaces s s' where
  there p d hf := by obtain ⟨p', d', h1, h2⟩ := h.there p d hf; exact ⟨p', h1, h2⟩
  back p d hf := by obtain ⟨p', d', h1, h2⟩ := h.back p d hf; exact ⟨p', h1, h2⟩
  count := h.count

theorem shape_le {rs rs' : List (Tri P3)} {ψ ψ' : P3 → Prop} (hc : IsSolid c rs ψ) (hc' : IsSolid c' rs' ψ') (h : ∀ p d, HasFace c.boundary p d → ∃ p' d', HasFace c'.boundary p' d' ∧ SameTri p p') : c.boundary.faces.length ≤ c'.boundary.faces.length := by
  rw [hc.corners.length_eq, hc'.corners.length_eq]
  refine once_le hc.once fun p hp => ?_
  obtain ⟨i, hi⟩ := List.mem_iff_getElem?.1 hp
  have hlt : i < c.boundary.data.length := by
    rw [hc.wf.1, hc.corners.length_eq]
    exact (List.getElem?_eq_some_iff.1 hi).1
  obtain ⟨r, d', ⟨j, f, hf, h1, h2, h3, -⟩, hs⟩ := h p _ (hasFace_of hc.corners hi (List.getElem?_eq_getElem hlt))
  obtain ⟨r', hr', e1, e2, e3⟩ := forall2_get hc'.corners hf
  obtain rfl : r' = r := by
    rw [h1] at e1; rw [h2] at e2; rw [h3] at e3
    cases r; cases r'; cases e1; cases e2; cases e3; rfl
  exact ⟨r', List.mem_of_getElem? hr', hs⟩

/-- Coincident faces have partners in the other operand. -/
structure Partnered (m : Soup P3 (MixedData D)) (ts : List (Tri P3)) : Prop where
  corners : HasCorners m.points m.faces ts
  data : m.data.length = m.faces.length
  same : ∀ (i : Nat) (p : Tri P3) (md : MixedData D), ts[i]? = some p → m.data[i]? = some md → md.tag = .coplanar → ∃ (j : Nat) (r : Tri P3) (md' : MixedData D), ts[j]? = some r ∧ m.data[j]? = some md' ∧ md'.fromLeft = !md.fromLeft ∧ md'.tag = .coplanar ∧ SameTri p r
  flip : ∀ (i : Nat) (p : Tri P3) (md : MixedData D), ts[i]? = some p → m.data[i]? = some md → md.tag = .opposite → ∃ (j : Nat) (r : Tri P3) (md' : MixedData D), ts[j]? = some r ∧ m.data[j]? = some md' ∧ md'.fromLeft = !md.fromLeft ∧ md'.tag = .opposite ∧ SameTri p.flip r

theorem flip_flip (p : Tri P3) : p.flip.flip = p := rfl

theorem built_partnered (ha : IsSolid a (orig true) (χ true)) (hb : IsSolid b (orig false) (χ false)) (hE : E.Valid orig) (hset : Cutting.Settled ord orig) (hman : ManifoldWhereCoinciding orig) (hE' : E'.Valid orig) (h : Mix.Built E' (GivesBy ord E) a b bb w) : ∃ ts, Partnered bb.m ts := by
  by_cases hef : (a.isEmptyOrFull || b.isEmptyOrFull) = true
  · obtain ⟨ts, h1, h2, -⟩ := mixed_faces ha hb hE h
    unfold Mix.Built at h
    rw [if_pos hef] at h
    obtain ⟨h, -⟩ := h
    have key : ∀ (i : Nat) (md : MixedData D), bb.m.data[i]? = some md → md.tag = .interior ∨ md.tag = .exterior := by
      intro i md hmd
      unfold Builder.make at h
      split at h
      · simp only [pure_eq] at h
        cases h
        simp [Soup.empty] at hmd
      · rw [concatMixed_ok ha.wf hb.wf, ok_bind] at h
        simp only [pure_eq] at h
        cases h
        have := List.mem_of_getElem? hmd
        simp only [List.mem_append, List.mem_map] at this
        rcases this with ⟨d, -, rfl⟩ | ⟨d, -, rfl⟩ <;> dsimp only <;> split <;> simp
    refine ⟨ts, h1, h2, fun i p md _ hmd ht => ?_, fun i p md _ hmd ht => ?_⟩ <;> rcases key i md hmd with e | e <;> rw [ht] at e <;> cases e
  · obtain ⟨ts, cut, m, hcx, htag⟩ := built_made ha hb hE hset hman hE' h hef
    have tag_of : ∀ {i : Nat} {q : Tri P3} {md : MixedData D}, ts[i]? = some q → bb.m.data[i]? = some md → RightTag q (operandTris ts bb.m.data (!md.fromLeft)) (χ (!md.fromLeft)) md.tag := by
      intro i q md h1 h2
      have hm : (q, md) ∈ ts.zip bb.m.data := List.mem_of_getElem? (List.getElem?_zip_eq_some.2 ⟨h1, h2⟩)
      exact htag _ hm
    refine ⟨ts, m.corners, m.data, fun i p md hp hmd ht => ?_, fun i p md hp hmd ht => ?_⟩
    · have hR := tag_of hp hmd
      rw [ht] at hR
      obtain ⟨u, hu, hs⟩ := hR
      obtain ⟨j, md', k1, k2, k3⟩ := Cutting.mem_operand.1 hu
      refine ⟨j, u, md', k1, k2, k3, ?_, hs⟩
      have hR' := tag_of k1 k2
      rw [k3, Bool.not_not] at hR'
      exact right_unique (g' := .coplanar) (hcx.proper u (List.mem_of_getElem? k1)) (m.once _) hR' ⟨p, Cutting.mem_operand.2 ⟨i, md, hp, hmd, rfl⟩, sameTri_symm hs⟩
    · have hR := tag_of hp hmd
      rw [ht] at hR
      obtain ⟨u, hu, hs⟩ := hR
      obtain ⟨j, md', k1, k2, k3⟩ := Cutting.mem_operand.1 hu
      refine ⟨j, u, md', k1, k2, k3, ?_, hs⟩
      have hR' := tag_of k1 k2
      rw [k3, Bool.not_not] at hR'
      exact right_unique (g' := .opposite) (hcx.proper u (List.mem_of_getElem? k1)) (m.once _) hR' ⟨p, Cutting.mem_operand.2 ⟨i, md, hp, hmd, rfl⟩, sameTri_flip (sameTri_symm hs)⟩

theorem preference_there {ts : List (Tri P3)} (m : Partnered bb.m ts) (hr : bb.run op pf = ok c) (hr' : bb.run op (!pf) = ok c') (hf : HasFace c.boundary p d) : ∃ p' d', HasFace c'.boundary p' d' ∧ SameTri p p' := by
  obtain ⟨k, q, md, inv, hq, hmd, rfl, hsel, rfl⟩ := run_faces m.corners m.data hr hf
  cases ht : md.tag with
  | unknown => rw [ht] at hsel; simp [select, Spec.sides] at hsel
  | interior =>
    have : select op (!pf) md.fromLeft md.tag = some inv := by rw [← hsel, ht]; simp [select]
    exact ⟨_, _, run_has m.corners m.data hr' hq hmd this, .inl rfl⟩
  | exterior =>
    have : select op (!pf) md.fromLeft md.tag = some inv := by rw [← hsel, ht]; simp [select]
    exact ⟨_, _, run_has m.corners m.data hr' hq hmd this, .inl rfl⟩
  | coplanar =>
    obtain ⟨j, r, md', h1, h2, h3, h4, h5⟩ := m.same k q md hq hmd ht
    have : select op (!pf) md'.fromLeft md'.tag = some inv := by
      rw [← hsel, h3, h4, ht]
      cases md.fromLeft <;> cases pf <;> simp [select, Spec.sides]
    refine ⟨_, _, run_has m.corners m.data hr' h1 h2 this, ?_⟩
    cases inv
    exacts [h5, sameTri_flip h5]
  | opposite =>
    obtain ⟨j, r, md', h1, h2, h3, h4, h5⟩ := m.flip k q md hq hmd ht
    have : select op (!pf) md'.fromLeft md'.tag = some !inv := by
      rw [h3, h4]
      rw [ht] at hsel
      revert hsel
      cases md.fromLeft <;> cases pf <;> cases inv <;> cases op <;> decide
    refine ⟨_, _, run_has m.corners m.data hr' h1 h2 this, ?_⟩
    cases inv
    exacts [sameTri_flip h5, h5]

/-- **Which operand is preferred decides only about data.** The two results of an execution have the same kind and the same faces. -/
theorem C114_preference (ha : IsSolid a (orig true) (χ true)) (hb : IsSolid b (orig false) (χ false)) (hE : E.Valid orig) (hg : NoFourOnCircle orig) (hman : ManifoldWhereCoinciding orig) (hE' : E'.Valid orig) (h : Mix.Built E' (Gives E) a b bb w) (op : Op) (pf : Bool) :
    ∃ c c', bb.run op pf = ok c ∧ bb.run op (!pf) = ok c' ∧ c.kind = c'.kind ∧ SameShape c.boundary c'.boundary := by
  have hset : Cutting.Settled (fun _ _ _ => False) orig := Cutting.settled_noFour hg
  replace h : Mix.Built E' (GivesBy (fun _ _ _ => False) E) a b bb w := Corefine.gives_eq ▸ h
  obtain ⟨-, c, hr, hden⟩ := boolean_by ha hb hE hset hman hE' h op pf
  obtain ⟨-, c', hr', hden'⟩ := boolean_by ha hb hE hset hman hE' h op (!pf)
  have hW : ∀ t ∈ orig true ++ orig false, Proper t := fun t ht => (List.mem_append.1 ht).elim (ha.complex.proper t) (hb.complex.proper t)
  obtain ⟨k1, k2, -⟩ := C97_same (C97_regularizes hden hW fun _ hx => surface_append.2 hx) (C97_regularizes hden' hW fun _ hx => surface_append.2 hx) fun _ => Iff.rfl
  have hk : c.kind = c'.kind := by
    simp only [Region.isEmpty, Region.isFull] at k1 k2
    cases e : c.kind <;> cases e' : c'.kind <;> simp_all
  obtain ⟨rs, ψ, hc, -⟩ := hden
  obtain ⟨rs', ψ', hc', -⟩ := hden'
  obtain ⟨ts, m⟩ := built_partnered ha hb hE hset hman hE' h
  have t := fun p d hf => preference_there (p := p) (d := d) m hr hr' hf
  have t' := fun p d hf => preference_there (p := p) (d := d) (pf := !pf) (c' := c) m hr' (by rw [Bool.not_not]; exact hr) hf
  exact ⟨c, c', hr, hr', hk, t, t', le_antisymm (shape_le hc hc' t) (shape_le hc' hc t')⟩

/-- Exchanged operands, with whatever preferences. -/
theorem C114_exchange_shape (ha : IsSolid a (orig true) (χ true)) (hb : IsSolid b (orig false) (χ false)) (hE : E.Valid orig) (hF : F.Valid (both (orig false) (orig true))) (hg : NoFourVertices orig) (hman : ManifoldWhereCoinciding orig) (hE' : E'.Valid orig) (hF' : F'.Valid (both (orig false) (orig true)))
    (h : Mix.Built E' (Gives E) a b bb w) (h' : Mix.Built F' (Gives F) b a bb' w') (hop : ∀ x y, truth op' x y = truth op y x) (pf pf' : Bool) :
    ∃ c c', bb.run op pf = ok c ∧ bb'.run op' pf' = ok c' ∧ c.kind = c'.kind ∧ SameShape c.boundary c'.boundary := by
  obtain ⟨c, c', h1, h2, h3, h4⟩ := C114_exchange ha hb hE hF hg hman hE' hF' h h' hop pf
  by_cases e : pf' = !pf
  · subst e
    exact ⟨c, c', h1, h2, h3, shape_of h4⟩
  · obtain rfl : pf' = pf := by cases pf <;> cases pf' <;> simp_all
    have eo : both (orig false) (orig true) = opp orig := by funext x; cases x <;> rfl
    rw [eo] at hF hF'
    obtain ⟨d, d', k1, k2, k3, k4⟩ := C114_preference (orig := opp orig) (χ := opp χ) hb ha hF (noFour_of_vertices (noFour_opp hg)) (manifold_opp hman) hF' h' op' (!pf')
    rw [h2] at k1
    cases k1
    rw [Bool.not_not] at k2
    exact ⟨c, d', h1, k2, h3.trans k3, shape_trans (shape_of h4) k4⟩

/-- **Union, intersection and symmetric difference commute**, as do all operators for which the order of the arguments does not matter: executions for operands in either order, with whatever preferences, give regions of the same kind with the same faces. -/
theorem C114_commutes (ha : IsSolid a (orig true) (χ true)) (hb : IsSolid b (orig false) (χ false)) (hE : E.Valid orig) (hF : F.Valid (both (orig false) (orig true))) (hg : NoFourVertices orig) (hman : ManifoldWhereCoinciding orig) (hE' : E'.Valid orig) (hF' : F'.Valid (both (orig false) (orig true)))
    (h : Mix.Built E' (Gives E) a b bb w) (h' : Mix.Built F' (Gives F) b a bb' w') (hop : op = .union ∨ op = .intersection ∨ op = .symmetricDifference) (pf pf' : Bool) :
    ∃ c c', bb.run op pf = ok c ∧ bb'.run op pf' = ok c' ∧ c.kind = c'.kind ∧ SameShape c.boundary c'.boundary :=
  C114_exchange_shape ha hb hE hF hg hman hE' hF' h h' (by rcases hop with rfl | rfl | rfl <;> decide) pf pf'

/-- Two tetrahedra with a common face, united in either order. -/
example {E F : Env} {E' F' : Mix.Env} (hE : E.Valid doubleOrig) (hF : F.Valid (both (doubleOrig false) (doubleOrig true))) (hE' : E'.Valid doubleOrig) (hF' : F'.Valid (both (doubleOrig false) (doubleOrig true))) {bb bb' : Builder P3 Unit} {w w' : Global.Warnings}
    (h : Mix.Built E' (Gives E) (doubleSolid true) (doubleSolid false) bb w) (h' : Mix.Built F' (Gives F) (doubleSolid false) (doubleSolid true) bb' w') :
    ∃ c c', bb.run .union true = ok c ∧ bb'.run .union true = ok c' ∧ c.kind = c'.kind ∧ SameFaces c.boundary c'.boundary := by
  obtain ⟨c, c', h1, h2, h3, h4⟩ := C114_commutes (χ := doubleSets) (doubleSolid_is true) (doubleSolid_is false) hE hF (conforming_vertices double_complex) double_manifold hE' hF' h h' (.inl rfl) true true
  exact ⟨c, c', h1, h2, h3, shape_unit h4⟩

/-- The operator for the difference of exchanged operands. -/
example : ∀ x y, truth .M x y = truth .difference y x := by decide

/-- Differences do not commute. -/
example : ¬ ∀ x y, truth .difference x y = truth .difference y x := by decide

/-! ## The program -/
section
open Kigumi.Spec.Cli (last HasFormat)
open Kigumi.Spec.Files (Accepted)
open Kigumi.IO (Host Numbers Pt RawRegion Byte)
open Kigumi.Cli (World Name Options main)
open Kigumi.Program

/-- **The order of the operands on the command line.** Two runs of the program have read the same regions in different order, and have been asked for operations that differ in the order of their arguments. If both end with status 0 and no four vertices of a face are on a circle,
whoever reads the two `.kigumi` files successfully gets regions of the same kind with the same faces. -/
theorem C114_program {h h' : Host} {N : Numbers} {E F : Cli.Env Byte Pt Unit (Builder P3 Unit)} (hE : Library h N E) (hF : Library h' N F) {rest rest' : List Name} {w w' u u' : World Byte} (hm : main E ("boolean".toList :: rest) w = (w', ok 0))
    (hm' : main F ("boolean".toList :: rest') u = (u', ok 0)) {o o' : Options} (ho : E.parseBoolean rest = ok o) (ho' : F.parseBoolean rest' = ok o') {a b a' b' : Region Pt Unit} (ha : Cli.Reads E w.files o.first a) (hb : Cli.Reads E w.files o.second b)
    (hb' : Cli.Reads F u.files o'.first b') (ha' : Cli.Reads F u.files o'.second a') (hpa : places a' = places a) (hpb : places b' = places b) (hsa : IsSolid (places a) (orig true) (χ true)) (hsb : IsSolid (places b) (orig false) (χ false)) (hg : NoFourVertices orig)
    (hman : ManifoldWhereCoinciding orig) {g g' : Name} {f f' : Bool → Bool → Bool} (hl : last o g = some f) (hl' : last o' g' = some f') (hff : ∀ x y, f' x y = f y x) (hf : HasFormat g .kigumi) (hf' : HasFormat g' .kigumi) {c c' : List Byte} (hc : w'.files g = some c)
    (hc' : u'.files g' = some c') {raw raw' : RawRegion Unit} (hr : Accepted N c raw) (hr' : Accepted N c' raw') :
    (regionOf raw).kind = (regionOf raw').kind ∧ SameFaces (places (regionOf raw)).boundary (places (regionOf raw')).boundary := by
  have eo : both (orig false) (orig true) = opp orig := by funext x; cases x <;> rfl
  obtain ⟨op, bb, v, r, e, hB, hrun, hread⟩ := written_run hE hm ho ha hb hsa hsb (noFour_of_vertices hg) hman hl hf hc
  obtain ⟨op', bb', v', r', e', hB', hrun', hread'⟩ := written_run (orig := opp orig) (χ := opp χ) hF hm' ho' hb' ha' (hpb ▸ hsb) (hpa ▸ hsa) (noFour_of_vertices (noFour_opp hg)) (manifold_opp hman) hl' hf' hc'
  rw [hpa, hpb] at hB'
  obtain ⟨E0, E1, hv, hbb⟩ := hB
  obtain ⟨F0, F1, hv', hbb'⟩ := hB'
  obtain ⟨v1, v2⟩ := hv orig hsa.corners hsb.corners
  obtain ⟨v1', v2'⟩ := hv' (both (orig false) (orig true)) hsb.corners hsa.corners
  obtain ⟨s, s', hs, hs', hk, hsame⟩ := C114_exchange_shape (op := op) (op' := op') hsa hsb v1 v1' hg hman v2 v2' hbb hbb' (by subst e e'; exact hff) true true
  rw [hrun] at hs; rw [hrun'] at hs'
  cases hs; cases hs'
  obtain rfl := hread raw hr
  obtain rfl := hread' raw' hr'
  exact ⟨hk, shape_unit hsame⟩

end

end Kigumi.Props

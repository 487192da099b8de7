import Verif.Proofs.Duality
/-! Helper lemmas: Boolean operations with an empty or full operand. -/
namespace Kigumi
open Spec Outcome
variable {P D : Type}

theorem selected_uniform {points : List P} {faces : List (Tri Nat)} {ds : List D}
    (hlen : ds.length = faces.length) (left : Bool) (t : Tag) (op : Op) (pf : Bool) :
    (selected (⟨points, faces, ds.map fun d => ⟨left, t, d⟩⟩ : Soup P (MixedData D)) op pf).map Prod.snd =
      match select op pf left t with
      | none => []
      | some _ => ds := by
  unfold selected
  simp only
  induction faces generalizing ds with
  | nil =>
    have : ds = [] := List.length_eq_zero_iff.1 (by simpa using hlen)
    subst this
    cases select op pf left t <;> simp
  | cons f faces ih =>
    cases ds with
    | nil => simp at hlen
    | cons d ds =>
      have := @ih ds (by simpa using hlen)
      simp only [List.map_cons, List.zip_cons_cons, List.filterMap_cons]
      revert this
      cases select op pf left t with
      | none => simp
      | some inv => simp

theorem outTris_uniform {ts : List (Tri P)} {ds : List D} (hlen : ds.length = ts.length) (left : Bool) (t : Tag)
    (op : Op) (pf : Bool) :
    outTris ts (ds.map fun d => (⟨left, t, d⟩ : MixedData D)) op pf =
      match select op pf left t with
      | none => []
      | some inv => if inv then ts.map Tri.flip else ts := by
  unfold outTris
  induction ts generalizing ds with
  | nil =>
    cases select op pf left t with
    | none => simp
    | some inv => cases inv <;> simp
  | cons f ts ih =>
    cases ds with
    | nil => simp at hlen
    | cons d ds =>
      have := @ih ds (by simpa using hlen)
      simp only [List.map_cons, List.zip_cons_cons, List.filterMap_cons]
      revert this
      cases select op pf left t with
      | none => simp
      | some inv => cases inv <;> simp

/-- Corner coordinates exist for every well-formed soup. -/
theorem exists_corners {s : Soup P D} (h : s.WF) : ∃ ts, HasCorners s.points s.faces ts := by
  have key : ∀ fs : List (Tri Nat), (∀ f ∈ fs, ∀ v ∈ f.toList, v < s.points.length) →
      ∃ ts, HasCorners s.points fs ts := by
    intro fs
    induction fs with
    | nil => intro _; exact ⟨[], .nil⟩
    | cons f fs ih =>
      intro hf
      obtain ⟨ts, hts⟩ := ih (fun g hg => hf g (List.mem_cons_of_mem _ hg))
      have h1 := hf f List.mem_cons_self
      simp only [Tri.toList, List.mem_cons, List.not_mem_nil, or_false, forall_eq_or_imp, forall_eq] at h1
      exact ⟨⟨s.points[f.a]'h1.1, s.points[f.b]'h1.2.1, s.points[f.c]'h1.2.2⟩ :: ts,
        .cons ⟨List.getElem?_eq_getElem _, List.getElem?_eq_getElem _, List.getElem?_eq_getElem _⟩ hts⟩
  exact key _ h.2

theorem hasCorners_unique {points : List P} {faces : List (Tri Nat)} {ts ts' : List (Tri P)}
    (h : HasCorners points faces ts) (h' : HasCorners points faces ts') : ts = ts' := by
  induction h generalizing ts' with
  | nil => cases h'; rfl
  | cons hc _ ih =>
    cases h' with
    | cons hc' h' =>
      obtain ⟨a1, a2, a3⟩ := hc
      obtain ⟨b1, b2, b3⟩ := hc'
      rw [a1] at b1; rw [a2] at b2; rw [a3] at b3
      rename_i t _ _ _ t' _
      have : t = t' := by
        cases t; cases t'; simp_all
      rw [this, ih h']

theorem single_run {s : Soup P D} (hs : s.WF) (hne : s.faces ≠ []) (left : Bool) (t : Tag) (k1 k2 : Kind) (op : Op)
    (pf lo hi : Bool)
    (hsel : select op pf left t = if lo = hi then none else some (!hi))
    (hsp : lo = hi → ∀ soup : Soup P D, soup.faces.length = 0 →
      (if soup.faces.length ≠ 0 then Region.ofSoup soup
       else if k1 = .empty ∨ k2 = .empty then
         (ok (fullOrEmpty (applyOp op (k1 != .empty) (k2 != .empty))) : Outcome (Region P D))
       else if k1 = .full ∨ k2 = .full then
         ok (fullOrEmpty (applyOp op (k1 == .full) (k2 == .full)))
       else .exn "") = ok (fullOrEmpty hi))
    (hk : k1 = .empty ∨ k2 = .empty ∨ k1 = .full ∨ k2 = .full) :
    ∃ r, (⟨k1, k2, ⟨s.points, s.faces, s.data.map fun d => ⟨left, t, d⟩⟩⟩ : Builder P D).run op pf = ok r ∧
      SingleResult s lo hi r := by
  obtain ⟨ts, hts⟩ := exists_corners hs
  obtain ⟨s', e, hc, hdat, _⟩ := extract_corners
    (m := (⟨s.points, s.faces, s.data.map fun d => ⟨left, t, d⟩⟩ : Soup P (MixedData D))) hts (by simp [hs.1]) op pf
  have hl : s.data.length = ts.length := by rw [hs.1]; exact hts.length_eq
  rw [outTris_uniform hl] at hc
  rw [selected_uniform hs.1] at hdat
  rw [hsel] at hc hdat
  unfold Builder.run
  simp only
  rw [e, ok_bind]
  by_cases hlo : lo = hi
  · rw [if_pos hlo] at hc hdat
    have h0 : s'.faces.length = 0 := hc.length_eq
    have := hsp hlo s' h0
    simp only [h0, ne_eq, not_true, if_false] at this ⊢
    refine ⟨fullOrEmpty hi, ?_, by simp [SingleResult, hlo]⟩
    by_cases h1 : k1 = .empty ∨ k2 = .empty
    · rw [if_pos h1] at this ⊢; exact this
    · rw [if_neg h1] at this ⊢
      have h2 : k1 = .full ∨ k2 = .full := by tauto
      rw [if_pos h2] at this ⊢; exact this
  · rw [if_neg hlo] at hc hdat
    simp only at hc hdat
    have hne' : s'.faces.length ≠ 0 := by
      have h1 := hc.length_eq
      have h2 := hts.length_eq
      have h3 : s.faces.length ≠ 0 := by simpa using hne
      rw [h1]
      cases hi <;> simp <;> intro h <;> simp_all
    rw [if_pos hne']
    refine ⟨⟨.boundaryDefined, s'⟩, by simp only [Region.ofSoup, if_neg hne'], ?_⟩
    simp only [SingleResult, if_neg hlo]
    refine ⟨trivial, hdat, ?_⟩
    intro ts' hts'
    rw [hasCorners_unique hts' hts]
    cases hi <;> simpa using hc

theorem special_make_run {mix : Soup P D → Soup P D → Outcome (Soup P (MixedData D))} (op : Op) (pf : Bool) :
    (∀ (v w : Bool), ∃ bb, Builder.make mix (fullOrEmpty v : Region P D) (fullOrEmpty w) = ok bb ∧
      bb.run op pf = ok (fullOrEmpty (truth op v w))) ∧
    (∀ (v : Bool) (s : Soup P D), s.WF → s.faces ≠ [] → ∃ bb r,
      Builder.make mix (fullOrEmpty v) ⟨.boundaryDefined, s⟩ = ok bb ∧ bb.run op pf = ok r ∧
        SingleResult s (truth op v false) (truth op v true) r) ∧
    (∀ (v : Bool) (s : Soup P D), s.WF → s.faces ≠ [] → ∃ bb r,
      Builder.make mix ⟨.boundaryDefined, s⟩ (fullOrEmpty v) = ok bb ∧ bb.run op pf = ok r ∧
        SingleResult s (truth op false v) (truth op true v) r) := by
  have wfe : ∀ v, (fullOrEmpty v : Region P D).boundary.WF := by
    intro v; cases v <;> simp [fullOrEmpty, Region.fullRegion, Region.emptyRegion, Soup.empty, Soup.WF]
  refine ⟨?_, ?_, ?_⟩
  · intro v w
    refine ⟨⟨(fullOrEmpty v : Region P D).kind, (fullOrEmpty w : Region P D).kind, Soup.empty⟩, ?_, ?_⟩
    · cases v <;> cases w <;> rfl
    · cases v <;> cases w <;> cases op <;> rfl
  · intro v s hs hne
    have em : Builder.make mix (fullOrEmpty v) ⟨.boundaryDefined, s⟩ =
        ok ⟨(fullOrEmpty v : Region P D).kind, .boundaryDefined,
          ⟨s.points, s.faces, s.data.map fun d => ⟨false, if v then .interior else .exterior, d⟩⟩⟩ := by
      have hc := concatMixed_ok (a := (fullOrEmpty v : Region P D)) (b := ⟨.boundaryDefined, s⟩) (wfe v) hs
      unfold Builder.make
      rw [hc]
      cases v <;> rfl
    obtain ⟨r, er, hr⟩ := single_run hs hne false (if v then .interior else .exterior)
      (fullOrEmpty v : Region P D).kind .boundaryDefined op pf (truth op v false) (truth op v true)
      (by cases v <;> cases op <;> cases pf <;> rfl)
      (by
        intro heq soup h0
        simp only [h0, ne_eq, not_true, if_false]
        revert heq
        cases v <;> cases op <;> intro heq <;> first | rfl | exact absurd heq (by decide))
      (by cases v <;> simp [fullOrEmpty, Region.fullRegion, Region.emptyRegion])
    exact ⟨_, r, em, er, hr⟩
  · intro v s hs hne
    have em : Builder.make mix ⟨.boundaryDefined, s⟩ (fullOrEmpty v) =
        ok ⟨.boundaryDefined, (fullOrEmpty v : Region P D).kind,
          ⟨s.points, s.faces, s.data.map fun d => ⟨true, if v then .interior else .exterior, d⟩⟩⟩ := by
      have hc := concatMixed_ok (b := (fullOrEmpty v : Region P D)) (a := ⟨.boundaryDefined, s⟩) hs (wfe v)
      unfold Builder.make
      rw [hc]
      cases v <;> simp [fullOrEmpty, Region.fullRegion, Region.emptyRegion, Soup.empty, Region.isEmptyOrFull,
        Region.isEmpty, Region.isFull]
    obtain ⟨r, er, hr⟩ := single_run hs hne true (if v then .interior else .exterior)
      .boundaryDefined (fullOrEmpty v : Region P D).kind op pf (truth op false v) (truth op true v)
      (by cases v <;> cases op <;> cases pf <;> rfl)
      (by
        intro heq soup h0
        simp only [h0, ne_eq, not_true, if_false]
        revert heq
        cases v <;> cases op <;> intro heq <;> first | rfl | exact absurd heq (by decide))
      (by cases v <;> simp [fullOrEmpty, Region.fullRegion, Region.emptyRegion])
    exact ⟨_, r, em, er, hr⟩

end Kigumi

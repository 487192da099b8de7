import Verif.Proofs.Builder
/-! Helper lemmas: the builder's constructor, duality and operand exchange. -/
namespace Kigumi
open Spec Outcome
variable {P Cell D : Type}

theorem mapM_at {α β : Type} (l : List α) (g : α → β) (pre : List α) :
    (List.range' pre.length l.length).mapM (fun fi => do
      let d ← Outcome.at! (pre ++ l) fi
      pure (g d)) = (ok (l.map g) : Outcome (List β)) := by
  induction l generalizing pre with
  | nil => rfl
  | cons x l ih =>
    rw [List.length_cons, List.range'_succ, List.mapM_cons]
    have e : Outcome.at! (pre ++ x :: l) pre.length = ok x := by simp [at!]
    have := ih (pre ++ [x])
    simp only [List.length_append, List.length_cons, List.length_nil, Nat.zero_add, List.append_assoc,
      List.singleton_append] at this
    rw [e]
    simp only [ok_bind, pure_eq] at this ⊢
    rw [this]; rfl

theorem mapM_at_range {α β : Type} (l : List α) (g : α → β) :
    (List.range l.length).mapM (fun fi => do
      let d ← Outcome.at! l fi
      pure (g d)) = (ok (l.map g) : Outcome (List β)) := by
  have := mapM_at l g []
  simpa [List.range_eq_range'] using this

theorem concatMixed_ok {a b : Region P D} (ha : a.boundary.WF) (hb : b.boundary.WF) :
    concatMixed a b = ok ⟨a.boundary.points ++ b.boundary.points, a.boundary.faces ++ b.boundary.faces,
      a.boundary.data.map (fun d => ⟨true, if a.isEmpty || b.isFull then .interior else .exterior, d⟩) ++
      b.boundary.data.map (fun d => ⟨false, if a.isEmpty || b.isFull then .exterior else .interior, d⟩)⟩ := by
  unfold concatMixed
  simp only
  rw [← ha.1, ← hb.1, mapM_at_range, ok_bind, mapM_at_range, ok_bind]
  split <;> rfl

theorem operandTris_all {ts : List (Tri P)} {ds : List D} (h : ts.length = ds.length) (b : Bool) (t : Tag) (l : Bool) :
    operandTris ts (ds.map fun d => (⟨b, t, d⟩ : MixedData D)) l = if b = l then ts else [] := by
  induction ts generalizing ds with
  | nil => cases b <;> cases l <;> simp [operandTris]
  | cons x ts ih =>
    cases ds with
    | nil => simp at h
    | cons d ds =>
      have := @ih ds (by simpa using h)
      simp only [operandTris, List.map_cons, List.zip_cons_cons, List.filter_cons] at this ⊢
      by_cases hbl : b = l
      · rw [if_pos hbl] at this ⊢
        rw [if_pos (by simp [hbl]), List.map_cons, this]
      · rw [if_neg hbl] at this ⊢
        rw [if_neg (by simp [hbl]), this]

theorem bounds_const [DecidableEq P] (ar : Arrangement P Cell) {χ : Cell → Bool} (b : Bool) (h : ∀ c, χ c = b) :
    Bounds ar ([] : List (Tri P)) χ := by
  refine ⟨by simp, fun w => ?_⟩
  simp [h]

/-- One operand is constant: the other's faces tagged uniformly form a classified arrangement. -/
theorem classified_single [DecidableEq P] {ar : Arrangement P Cell} {ts : List (Tri P)} {ds : List D}
    (hlen : ts.length = ds.length) (left : Bool) (χ χ' : Cell → Bool) (b : Bool) (hχ' : ∀ c, χ' c = b)
    (hb : Bounds ar ts χ) :
    let data := ds.map fun d => (⟨left, if b then .interior else .exterior, d⟩ : MixedData D)
    Bounds ar (operandTris ts data left) χ ∧ Bounds ar (operandTris ts data (!left)) χ' ∧
    ∀ x ∈ ts.zip data, TagTrue ar x.1 (operandTris ts data (!x.2.fromLeft)) χ' x.2.tag := by
  intro data
  have e1 : operandTris ts data left = ts := by rw [operandTris_all hlen]; simp
  have e2 : operandTris ts data (!left) = [] := by rw [operandTris_all hlen]; cases left <;> simp
  refine ⟨by rw [e1]; exact hb, by rw [e2]; exact bounds_const ar b hχ', ?_⟩
  intro x hx
  have hxd : x.2 ∈ data := (List.of_mem_zip (show (x.1, x.2) ∈ ts.zip data from hx)).2
  obtain ⟨d, _, rfl'⟩ := List.mem_map.1 hxd
  rw [← rfl']
  simp only
  rw [e2]
  cases b <;> simp [TagTrue, hχ']

/-- What `Builder.make` must establish. -/
def MakeOk [DecidableEq P] (ar : Arrangement P Cell) (χA χB : Cell → Bool) (bb : Builder P D) : Prop :=
  ∃ ts, bb.m.data.length = bb.m.faces.length ∧ HasCorners bb.m.points bb.m.faces ts ∧
      Bounds ar (operandTris ts bb.m.data true) χA ∧ Bounds ar (operandTris ts bb.m.data false) χB ∧
      (∀ x ∈ ts.zip bb.m.data,
        TagTrue ar x.1 (operandTris ts bb.m.data (!x.2.fromLeft)) (if x.2.fromLeft then χB else χA) x.2.tag) ∧
      KindOk bb.firstKind χA (operandTris ts bb.m.data true) ∧
      KindOk bb.secondKind χB (operandTris ts bb.m.data false)

theorem left_special [DecidableEq P] {ar : Arrangement P Cell} {a b : Region P D} {χA χB : Cell → Bool} {v : Bool}
    (ka : a.kind = if v then .full else .empty) (kb : b.kind = .boundaryDefined) (ia : a.boundary = Soup.empty)
    (wa : a.boundary.WF) (wb : b.boundary.WF) (hA : ∀ c, χA c = v)
    (hB : b.boundary.faces ≠ [] ∧ ∃ ts, HasCorners b.boundary.points b.boundary.faces ts ∧ Bounds ar ts χB) :
    ∃ m, concatMixed a b = ok m ∧ MakeOk ar χA χB ⟨a.kind, b.kind, m⟩ := by
  obtain ⟨hne, ts, hcor, hbd⟩ := hB
  have hl : ts.length = b.boundary.data.length := by rw [wb.1]; exact hcor.length_eq.symm
  have hne' : ts ≠ [] := by
    intro h; rw [h] at hcor; cases hf : b.boundary.faces with
    | nil => exact hne hf
    | cons x l => rw [hf] at hcor; cases hcor
  have hcl := classified_single (D := D) hl false χB χA v hA hbd
  have htag : (if (a.isEmpty || b.isFull) = true then Tag.exterior else .interior) =
      if v = true then .interior else .exterior := by
    cases v <;> simp [Region.isEmpty, Region.isFull, ka, kb]
  refine ⟨_, concatMixed_ok wa wb, ts, ?_⟩
  simp only [ia, Soup.empty, List.map_nil, List.nil_append, htag]
  refine ⟨by simp [wb.1], hcor, by simpa using hcl.2.1, hcl.1, ?_, ?_, ?_⟩
  · intro x hx
    have := hcl.2.2 x hx
    have hxf : x.2.fromLeft = false := by
      have hxd := (List.of_mem_zip (show (x.1, x.2) ∈ ts.zip _ from hx)).2
      obtain ⟨d, _, h⟩ := List.mem_map.1 hxd
      rw [← h]
    simpa [hxf] using this
  · rw [ka]; cases v <;> simpa [KindOk] using hA
  · rw [kb]
    simp only [KindOk]
    rw [operandTris_all hl]; simpa using hne'

theorem right_special [DecidableEq P] {ar : Arrangement P Cell} {a b : Region P D} {χA χB : Cell → Bool} {v : Bool}
    (kb : b.kind = if v then .full else .empty) (ka : a.kind = .boundaryDefined) (ib : b.boundary = Soup.empty)
    (wa : a.boundary.WF) (wb : b.boundary.WF) (hB : ∀ c, χB c = v)
    (hA : a.boundary.faces ≠ [] ∧ ∃ ts, HasCorners a.boundary.points a.boundary.faces ts ∧ Bounds ar ts χA) :
    ∃ m, concatMixed a b = ok m ∧ MakeOk ar χA χB ⟨a.kind, b.kind, m⟩ := by
  obtain ⟨hne, ts, hcor, hbd⟩ := hA
  have hl : ts.length = a.boundary.data.length := by rw [wa.1]; exact hcor.length_eq.symm
  have hne' : ts ≠ [] := by
    intro h; rw [h] at hcor; cases hf : a.boundary.faces with
    | nil => exact hne hf
    | cons x l => rw [hf] at hcor; cases hcor
  have hcl := classified_single (D := D) hl true χA χB v hB hbd
  have htag : (if (a.isEmpty || b.isFull) = true then Tag.interior else .exterior) =
      if v = true then .interior else .exterior := by
    cases v <;> simp [Region.isEmpty, Region.isFull, ka, kb]
  refine ⟨_, concatMixed_ok wa wb, ts, ?_⟩
  simp only [ib, Soup.empty, List.map_nil, List.append_nil, htag]
  refine ⟨by simp [wa.1], hcor, hcl.1, by simpa using hcl.2.1, ?_, ?_, ?_⟩
  · intro x hx
    have := hcl.2.2 x hx
    have hxf : x.2.fromLeft = true := by
      have hxd := (List.of_mem_zip (show (x.1, x.2) ∈ ts.zip _ from hx)).2
      obtain ⟨d, _, h⟩ := List.mem_map.1 hxd
      rw [← h]
    simpa [hxf] using this
  · rw [ka]
    simp only [KindOk]
    rw [operandTris_all hl]; simpa using hne'
  · rw [kb]; cases v <;> simpa [KindOk] using hB

theorem run_inv {bb : Builder P D} {op : Op} {pf : Bool} {r : Region P D} (e2 : bb.run op pf = ok r) : RegionInv r := by
  revert e2
  unfold Builder.run
  cases extract bb.m op pf with
  | exn _ => simp
  | ub _ => simp
  | ok s =>
    have fe : ∀ b : Bool, RegionInv (fullOrEmpty b : Region P D) := by intro b; cases b <;> rfl
    have f1 : RegionInv (Region.fullRegion : Region P D) := rfl
    have f2 : RegionInv (Region.emptyRegion : Region P D) := rfl
    simp only [ok_bind, pure_eq]
    split
    · rename_i hne
      intro e2
      unfold Region.ofSoup at e2
      rw [if_neg hne] at e2
      cases e2
      intro h; exact hne (by simp [show s.faces = [] from h])
    · split
      · intro e2; cases e2; exact fe _
      · split
        · intro e2; cases e2; exact fe _
        · split <;> first
            | (intro e2; cases e2; exact f1)
            | (intro e2; cases e2; exact f2)
            | (split
               · intro e2; cases e2; exact fe _
               · split
                 · intro e2; cases e2; exact fe _
                 · intro e2; cases e2)
            | (intro e2; cases e2)

theorem make_run_correct [DecidableEq P] {ar : Arrangement P Cell} (hconn : ar.Connected)
    (mix : Soup P D → Soup P D → Outcome (Soup P (MixedData D))) {a b : Region P D} {χA χB : Cell → Bool}
    (hmix : a.kind = .boundaryDefined → b.kind = .boundaryDefined → ∃ m, mix a.boundary b.boundary = ok m ∧
      m.data.length = m.faces.length ∧ Classified ar m χA χB)
    (ia : RegionInv a) (ib : RegionInv b) (wa : a.boundary.WF) (wb : b.boundary.WF)
    (hA : Represents ar a χA) (hB : Represents ar b χB) (op : Op) (pf : Bool) :
    ∃ bb r, Builder.make mix a b = ok bb ∧ bb.run op pf = ok r ∧
      Represents ar r (fun c => truth op (χA c) (χB c)) ∧ RegionInv r ∧ r.boundary.WF := by
  suffices h : ∃ bb, Builder.make mix a b = ok bb ∧ MakeOk ar χA χB bb by
    obtain ⟨bb, e, ts, h1, h2, h3, h4, h5, h6, h7⟩ := h
    obtain ⟨r, e2, h8, h9⟩ := run_correct hconn h1 h2 h3 h4 h5 h6 h7 op pf
    exact ⟨bb, r, e, e2, h8, run_inv e2, h9⟩
  unfold Builder.make
  have special : ∀ v w : Bool, (∀ c, χA c = v) → (∀ c, χB c = w) → ∀ k k' : Kind,
      KindOk k χA ([] : List (Tri P)) → KindOk k' χB ([] : List (Tri P)) →
      MakeOk ar χA χB (⟨k, k', Soup.empty⟩ : Builder P D) := by
    intro v w hv hw k k' hk hk'
    exact ⟨[], rfl, List.Forall₂.nil, bounds_const ar _ hv, bounds_const ar _ hw, by simp, hk, hk'⟩
  cases ka : a.kind <;> cases kb : b.kind <;>
    simp only [Region.isEmptyOrFull, Region.isEmpty, Region.isFull, ka, kb] <;>
    simp only [RegionInv, ka, kb] at ia ib <;> simp only [Represents, ka, kb] at hA hB
  · exact ⟨_, rfl, special _ _ hA hB _ _ hA hB⟩
  · exact ⟨_, rfl, special _ _ hA hB _ _ hA hB⟩
  · obtain ⟨m, em, hm⟩ := left_special (v := false) ka kb ia wa wb hA hB
    rw [em]; rw [ka, kb] at hm; exact ⟨_, rfl, hm⟩
  · exact ⟨_, rfl, special _ _ hA hB _ _ hA hB⟩
  · exact ⟨_, rfl, special _ _ hA hB _ _ hA hB⟩
  · obtain ⟨m, em, hm⟩ := left_special (v := true) ka kb ia wa wb hA hB
    rw [em]; rw [ka, kb] at hm; exact ⟨_, rfl, hm⟩
  · obtain ⟨m, em, hm⟩ := right_special (v := false) kb ka ib wa wb hB hA
    rw [em]; rw [ka, kb] at hm; exact ⟨_, rfl, hm⟩
  · obtain ⟨m, em, hm⟩ := right_special (v := true) kb ka ib wa wb hB hA
    rw [em]; rw [ka, kb] at hm; exact ⟨_, rfl, hm⟩
  obtain ⟨m, em, hml, ts, hc, h1, h2, h3⟩ := hmix ka kb
  obtain ⟨hneA, tsA, hcA, hbA⟩ := hA
  obtain ⟨hneB, tsB, hcB, hbB⟩ := hB
  have ne : ∀ (fs : List (Tri Nat)) (ps : List P) (ts : List (Tri P)), fs ≠ [] → HasCorners ps fs ts → ts ≠ [] := by
    intro fs ps ts hf hc h
    rw [h] at hc
    cases fs with
    | nil => exact hf rfl
    | cons x l => cases hc
  rw [em]
  refine ⟨_, rfl, ts, hml, hc, h1, h2, h3, ?_, ?_⟩
  · intro h
    rw [h] at h1
    obtain ⟨⟨c, hc1⟩, ⟨d, hd1⟩⟩ := bounds_values hbA (ne _ _ _ hneA hcA)
    have := connected_const hconn (bounds_nil h1) c d
    rw [hc1, hd1] at this; cases this
  · intro h
    rw [h] at h2
    obtain ⟨⟨c, hc1⟩, ⟨d, hd1⟩⟩ := bounds_values hbB (ne _ _ _ hneB hcB)
    have := connected_const hconn (bounds_nil h2) c d
    rw [hc1, hd1] at this; cases this

end Kigumi

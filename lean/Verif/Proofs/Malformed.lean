import Verif.Proofs.Special
import Verif.Proofs.CoplanarRuns
import Verif.Proofs.Operands
import Verif.Proofs.Executions
import Verif.Props.Boolean

/-! # Faces with vertices that do not exist -/
namespace Kigumi.Malformed
open Kigumi Outcome Spec
open Kigumi.Coplanar (at!_bad at!_good)
variable {P D : Type}

/-- The corners of the face exist. -/
def Inside (points : List P) (f : Tri Nat) : Prop := f.a < points.length ∧ f.b < points.length ∧ f.c < points.length

theorem vertex_good {points : List P} {st : ExtractState P D} (hl : st.map.length = points.length) {v : Nat} (hv : v < points.length) :
    ∃ st' w, extractVertex points st v = ok (st', w) ∧ st'.map.length = points.length := by
  unfold extractVertex
  rw [at!_good (hl ▸ hv), ok_bind]
  cases h : st.map[v] with
  | some w => exact ⟨st, w, rfl, hl⟩
  | none =>
    dsimp only
    rw [at!_good hv, ok_bind]
    exact ⟨_, _, rfl, (List.length_set ..).trans hl⟩

theorem vertex_bad {points : List P} {st : ExtractState P D} (hl : st.map.length = points.length) {v : Nat} (hv : ¬ v < points.length) : extractVertex points st v = exn "out_of_range" := by
  unfold extractVertex
  rw [at!_bad (hl ▸ hv), exn_bind]

variable {m : Soup P (MixedData D)} {op : Op} {pf : Bool}

theorem not_chosen (d : MixedData D) : (!outputId (tagMask op pf d.tag) d.fromLeft && !outputInv (tagMask op pf d.tag) d.fromLeft) = true ↔ select op pf d.fromLeft d.tag = none := by
  obtain ⟨h1, h2⟩ := Props.C01_selection op pf d.fromLeft d.tag
  cases hs : select op pf d.fromLeft d.tag with
  | none =>
    rw [hs] at h1 h2
    have e1 : outputId (tagMask op pf d.tag) d.fromLeft = false := Bool.eq_false_iff.2 fun h => nomatch h1.1 h
    have e2 : outputInv (tagMask op pf d.tag) d.fromLeft = false := Bool.eq_false_iff.2 fun h => nomatch h2.1 h
    rw [e1, e2]; simp
  | some b =>
    rw [hs] at h1 h2
    cases b
    · rw [h1.2 rfl]; simp
    · rw [h2.2 rfl]; simp

theorem face_skipped {st : ExtractState P D} {fi : Nat} {d : MixedData D} (hd : m.data[fi]? = some d) (hs : select op pf d.fromLeft d.tag = none) : extractFace m op pf st fi = ok st := by
  unfold extractFace
  rw [at!_ok.2 hd, ok_bind]
  dsimp only
  rw [if_pos ((not_chosen d).2 hs)]
  rfl

theorem face_good {st : ExtractState P D} (hl : st.map.length = m.points.length) {fi : Nat} {f : Tri Nat} {d : MixedData D} (hf : m.faces[fi]? = some f) (hd : m.data[fi]? = some d)
    (hi : select op pf d.fromLeft d.tag ≠ none → Inside m.points f) : ∃ st', extractFace m op pf st fi = ok st' ∧ st'.map.length = m.points.length := by
  by_cases hs : select op pf d.fromLeft d.tag = none
  · exact ⟨st, face_skipped hd hs, hl⟩
  obtain ⟨ha, hb, hc⟩ := hi hs
  unfold extractFace
  rw [at!_ok.2 hd, ok_bind]
  dsimp only
  rw [if_neg fun h => hs ((not_chosen d).1 h), at!_ok.2 hf, ok_bind]
  obtain ⟨s1, a, e1, h1⟩ := vertex_good hl ha
  obtain ⟨s2, b, e2, h2⟩ := vertex_good h1 hb
  obtain ⟨s3, c, e3, h3⟩ := vertex_good h2 hc
  rw [e1, ok_bind]; dsimp only
  rw [e2, ok_bind]; dsimp only
  rw [e3, ok_bind]
  exact ⟨_, rfl, h3⟩

theorem face_bad {st : ExtractState P D} (hl : st.map.length = m.points.length) {fi : Nat} {f : Tri Nat} {d : MixedData D} (hf : m.faces[fi]? = some f) (hd : m.data[fi]? = some d)
    (hs : select op pf d.fromLeft d.tag ≠ none) (hi : ¬ Inside m.points f) : extractFace m op pf st fi = exn "out_of_range" := by
  unfold extractFace
  rw [at!_ok.2 hd, ok_bind]
  dsimp only
  rw [if_neg fun h => hs ((not_chosen d).1 h), at!_ok.2 hf, ok_bind]
  by_cases ha : f.a < m.points.length
  · obtain ⟨s1, a, e1, h1⟩ := vertex_good hl ha
    rw [e1, ok_bind]; dsimp only
    by_cases hb : f.b < m.points.length
    · obtain ⟨s2, b, e2, h2⟩ := vertex_good h1 hb
      rw [e2, ok_bind]; dsimp only
      rw [vertex_bad h2 fun hc => hi ⟨ha, hb, hc⟩, exn_bind]
    · rw [vertex_bad h1 hb, exn_bind]
  · rw [vertex_bad hl ha, exn_bind]

/-- What the loop needs of a face: its corners exist if it is wanted. -/
def Fine (m : Soup P (MixedData D)) (op : Op) (pf : Bool) (fi : Nat) : Prop :=
  ∃ f d, m.faces[fi]? = some f ∧ m.data[fi]? = some d ∧ (select op pf d.fromLeft d.tag ≠ none → Inside m.points f)

def Faulty (m : Soup P (MixedData D)) (op : Op) (pf : Bool) (fi : Nat) : Prop :=
  ∃ f d, m.faces[fi]? = some f ∧ m.data[fi]? = some d ∧ select op pf d.fromLeft d.tag ≠ none ∧ ¬ Inside m.points f

theorem loop_good : ∀ (l : List Nat) (st : ExtractState P D), st.map.length = m.points.length → (∀ fi ∈ l, Fine m op pf fi) → ∃ st', extractLoop m op pf st l = ok st'
  | [], st, _, _ => ⟨st, rfl⟩
  | fi :: l, st, hl, h => by
    obtain ⟨f, d, hf, hd, hi⟩ := h fi List.mem_cons_self
    obtain ⟨s1, e, h1⟩ := face_good hl hf hd hi
    rw [extractLoop, e, ok_bind]
    exact loop_good l s1 h1 fun g hg => h g (List.mem_cons_of_mem _ hg)

theorem loop_bad : ∀ (l : List Nat) (st : ExtractState P D), st.map.length = m.points.length → (∀ fi ∈ l, Fine m op pf fi ∨ Faulty m op pf fi) → (∃ fi ∈ l, Faulty m op pf fi) → extractLoop m op pf st l = exn "out_of_range"
  | [], _, _, _, h => nomatch h
  | fi :: l, st, hl, hall, h => by
    by_cases hb : Faulty m op pf fi
    · obtain ⟨f, d, hf, hd, hs, hi⟩ := hb
      rw [extractLoop, face_bad hl hf hd hs hi, exn_bind]
    · obtain ⟨f, d, hf, hd, hi⟩ := (hall fi List.mem_cons_self).resolve_right hb
      obtain ⟨s1, e, h1⟩ := face_good hl hf hd hi
      rw [extractLoop, e, ok_bind]
      obtain ⟨g, hg, hgb⟩ := h
      rcases List.mem_cons.1 hg with rfl | hg
      · exact absurd hgb hb
      · exact loop_bad l s1 h1 (fun k hk => hall k (List.mem_cons_of_mem _ hk)) ⟨g, hg, hgb⟩

theorem loop_none : ∀ (l : List Nat) (st : ExtractState P D), (∀ fi ∈ l, ∃ d, m.data[fi]? = some d ∧ select op pf d.fromLeft d.tag = none) → extractLoop m op pf st l = ok st
  | [], _, _ => rfl
  | fi :: l, st, h => by
    obtain ⟨d, hd, hs⟩ := h fi List.mem_cons_self
    rw [extractLoop, face_skipped hd hs, ok_bind]
    exact loop_none l st fun g hg => h g (List.mem_cons_of_mem _ hg)

theorem fine_or_faulty (hd : m.data.length = m.faces.length) {fi : Nat} (h : fi < m.faces.length) : Fine m op pf fi ∨ Faulty m op pf fi := by
  by_cases hx : select op pf m.data[fi].fromLeft m.data[fi].tag ≠ none → Inside m.points m.faces[fi]
  · exact .inl ⟨_, _, List.getElem?_eq_getElem h, List.getElem?_eq_getElem (hd ▸ h), hx⟩
  · obtain ⟨h1, h2⟩ := Classical.not_imp.1 hx
    exact .inr ⟨_, _, List.getElem?_eq_getElem h, List.getElem?_eq_getElem (hd ▸ h), h1, h2⟩

/-- Extraction throws iff a face that it takes has a corner that does not exist. -/
theorem extract_throws_iff (hd : m.data.length = m.faces.length) : ((∃ fi, Faulty m op pf fi) → extract m op pf = exn "out_of_range") ∧ ((¬ ∃ fi, Faulty m op pf fi) → ∃ s, extract m op pf = ok s) := by
  have hl : (⟨Soup.empty, List.replicate m.points.length none⟩ : ExtractState P D).map.length = m.points.length := List.length_replicate ..
  constructor
  · rintro ⟨fi, h⟩
    unfold extract
    rw [loop_bad _ _ hl (fun g hg => fine_or_faulty hd (List.mem_range.1 hg)) ⟨fi, ?_, h⟩, exn_bind]
    obtain ⟨f, -, hf, -⟩ := h
    exact List.mem_range.2 (List.getElem?_eq_some_iff.1 hf).1
  · intro h
    obtain ⟨st, e⟩ := loop_good (op := op) (pf := pf) (List.range m.faces.length) _ hl fun g hg => (fine_or_faulty hd (List.mem_range.1 hg)).resolve_right fun hb => h ⟨g, hb⟩
    unfold extract
    rw [e, ok_bind]
    exact ⟨_, rfl⟩

theorem extract_nothing (hd : m.data.length = m.faces.length) (h : ∀ d ∈ m.data, select op pf d.fromLeft d.tag = none) : extract m op pf = ok Soup.empty := by
  unfold extract
  rw [loop_none, ok_bind]
  · rfl
  · intro fi hfi
    have hlt : fi < m.data.length := hd ▸ List.mem_range.1 hfi
    exact ⟨_, List.getElem?_eq_getElem hlt, h _ (List.getElem_mem hlt)⟩

theorem not_valid {points : List P} {fs : List (Tri Nat)} (h : ¬ ValidFaces points fs) : ∃ (i : Nat) (f : Tri Nat), fs[i]? = some f ∧ ¬ Inside points f := by
  by_contra hc
  refine h fun f hf => ?_
  obtain ⟨i, hi, rfl⟩ := List.getElem_of_mem hf
  by_contra hb
  exact hc ⟨i, _, List.getElem?_eq_getElem hi, hb⟩

/-- A builder whose faces all have the same origin and tag. -/
theorem single_malformed {s : Soup P D} (hd : s.data.length = s.faces.length) (hv : ¬ ValidFaces s.points s.faces) (left : Bool) (t : Tag) (k1 k2 : Kind) (op : Op) (pf lo hi : Bool)
    (hsel : select op pf left t = if lo = hi then none else some (!hi))
    (hsp : lo = hi → (⟨k1, k2, Soup.empty⟩ : Builder P D).run op pf = ok (fullOrEmpty lo)) (hk : k1 = .empty ∨ k2 = .empty ∨ k1 = .full ∨ k2 = .full) :
    (⟨k1, k2, ⟨s.points, s.faces, s.data.map fun d => ⟨left, t, d⟩⟩⟩ : Builder P D).run op pf = if lo = hi then ok (fullOrEmpty lo) else exn "out_of_range" := by
  have hlen : (s.data.map fun d => (⟨left, t, d⟩ : MixedData D)).length = s.faces.length := by rw [List.length_map]; exact hd
  by_cases h : lo = hi
  · rw [if_pos h, ← hsp h]
    have e1 := extract_nothing (m := ⟨s.points, s.faces, s.data.map fun d => ⟨left, t, d⟩⟩) (op := op) (pf := pf) hlen (by
      intro d hd
      obtain ⟨d', -, rfl⟩ := List.mem_map.1 hd
      dsimp only
      rw [hsel, if_pos h])
    have e2 := extract_nothing (P := P) (m := (Soup.empty : Soup P (MixedData D))) (op := op) (pf := pf) rfl (fun d hd => nomatch hd)
    unfold Builder.run
    dsimp only
    rw [e1, e2, ok_bind, ok_bind]
    have hf : ¬ ((Soup.empty : Soup P D).faces.length ≠ 0) := fun h => h rfl
    rw [if_neg hf, if_neg hf]
    by_cases h1 : k1 = .empty ∨ k2 = .empty
    · rw [if_pos h1, if_pos h1]
    · rw [if_neg h1, if_neg h1]
      have h2 : k1 = .full ∨ k2 = .full := by
        rcases hk with hk | hk | hk | hk
        · exact absurd (.inl hk) h1
        · exact absurd (.inr hk) h1
        · exact .inl hk
        · exact .inr hk
      rw [if_pos h2, if_pos h2]
  · rw [if_neg h]
    obtain ⟨i, f, hf, hi'⟩ := not_valid hv
    have hlt : i < s.data.length := hd ▸ (List.getElem?_eq_some_iff.1 hf).1
    have e := (extract_throws_iff (m := ⟨s.points, s.faces, s.data.map fun d => ⟨left, t, d⟩⟩) (op := op) (pf := pf) hlen).1
      ⟨i, f, ⟨left, t, s.data[i]⟩, hf, by simp [hlt], by dsimp only; rw [hsel, if_neg h]; exact Option.some_ne_none _, hi'⟩
    unfold Builder.run
    dsimp only
    rw [e, exn_bind]

theorem concat {a b : Region P D} (ha : a.boundary.data.length = a.boundary.faces.length) (hb : b.boundary.data.length = b.boundary.faces.length) :
    concatMixed a b = ok ⟨a.boundary.points ++ b.boundary.points, a.boundary.faces ++ b.boundary.faces,
      a.boundary.data.map (fun d => ⟨true, if a.isEmpty || b.isFull then .interior else .exterior, d⟩) ++
      b.boundary.data.map (fun d => ⟨false, if a.isEmpty || b.isFull then .exterior else .interior, d⟩)⟩ := by
  unfold concatMixed
  simp only
  rw [← ha, ← hb, mapM_at_range, ok_bind, mapM_at_range, ok_bind]
  split <;> rfl

theorem trivial_data (v : Bool) : (fullOrEmpty v : Region P D).boundary.data.length = (fullOrEmpty v : Region P D).boundary.faces.length := by cases v <;> rfl

theorem second_malformed (mix : Soup P D → Soup P D → Outcome (Soup P (MixedData D))) {s : Soup P D} (hd : s.data.length = s.faces.length) (hv : ¬ ValidFaces s.points s.faces) (op : Op) (pf v : Bool) :
    ∃ bb, Builder.make mix (fullOrEmpty v) ⟨.boundaryDefined, s⟩ = ok bb ∧ bb.run op pf = if truth op v false = truth op v true then ok (fullOrEmpty (truth op v false)) else exn "out_of_range" := by
  refine ⟨⟨(fullOrEmpty v : Region P D).kind, .boundaryDefined, ⟨s.points, s.faces, s.data.map fun d => ⟨false, if v then .interior else .exterior, d⟩⟩⟩, ?_, ?_⟩
  · have hc := concat (a := (fullOrEmpty v : Region P D)) (b := ⟨.boundaryDefined, s⟩) (trivial_data v) hd
    unfold Builder.make
    rw [hc]
    cases v <;> rfl
  · refine single_malformed hd hv false _ _ _ op pf _ _ (by cases v <;> cases op <;> cases pf <;> rfl) ?_ (by cases v <;> simp [fullOrEmpty, Region.fullRegion, Region.emptyRegion])
    intro heq
    revert heq
    cases v <;> cases op <;> intro heq <;> first | rfl | exact absurd heq (by decide)

theorem first_malformed (mix : Soup P D → Soup P D → Outcome (Soup P (MixedData D))) {s : Soup P D} (hd : s.data.length = s.faces.length) (hv : ¬ ValidFaces s.points s.faces) (op : Op) (pf v : Bool) :
    ∃ bb, Builder.make mix ⟨.boundaryDefined, s⟩ (fullOrEmpty v) = ok bb ∧ bb.run op pf = if truth op false v = truth op true v then ok (fullOrEmpty (truth op false v)) else exn "out_of_range" := by
  refine ⟨⟨.boundaryDefined, (fullOrEmpty v : Region P D).kind, ⟨s.points, s.faces, s.data.map fun d => ⟨true, if v then .interior else .exterior, d⟩⟩⟩, ?_, ?_⟩
  · have hc := concat (b := (fullOrEmpty v : Region P D)) (a := ⟨.boundaryDefined, s⟩) hd (trivial_data v)
    unfold Builder.make
    rw [hc]
    cases v <;> simp [fullOrEmpty, Region.fullRegion, Region.emptyRegion, Soup.empty, Region.isEmptyOrFull, Region.isEmpty, Region.isFull]
  · refine single_malformed hd hv true _ _ _ op pf _ _ (by cases v <;> cases op <;> cases pf <;> rfl) ?_ (by cases v <;> simp [fullOrEmpty, Region.fullRegion, Region.emptyRegion])
    intro heq
    revert heq
    cases v <;> cases op <;> intro heq <;> first | rfl | exact absurd heq (by decide)

/-- The constructor of the corefinement looks up the corners of all faces first. -/
theorem construct_malformed {E : Corefine.Env} {l r : Soup Geo.P3 D} (hv : ¬ (ValidFaces l.points l.faces ∧ ValidFaces r.points r.faces)) {o : Outcome Corefine.State} (ho : Corefine.construct E l r o) : o = exn "out_of_range" := by
  have hx : ¬ (ValidFaces (corefinePoints l.points r.points).2.1 l.faces ∧ ValidFaces (corefinePoints l.points r.points).2.2 r.faces) := by
    obtain ⟨h1, h2, -⟩ := Props.C38_operands l.points r.points
    unfold ValidFaces at hv ⊢
    rw [h1, h2]
    exact hv
  unfold Corefine.construct at ho
  rcases ho with ⟨t, ht, -⟩ | ⟨e, he, rfl⟩ | ⟨e, he, -⟩
  · cases Coplanar.execute_invalid hx ht
  · cases Coplanar.execute_invalid hx he; rfl
  · cases Coplanar.execute_invalid hx he

end Kigumi.Malformed

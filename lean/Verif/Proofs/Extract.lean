import Verif.Model.Extract
import Verif.Spec.Boolean
import Verif.Tactics
/-! Helper lemmas for the extraction theorems. -/
namespace Kigumi
variable {P D : Type}
open Outcome

theorem output_eq_select (op : Op) (pf fl : Bool) (t : Tag) :
    Spec.select op pf fl t =
      (if outputId (tagMask op pf t) fl || outputInv (tagMask op pf t) fl
        then some (outputInv (tagMask op pf t) fl) else none) := by
  cases op <;> cases pf <;> cases fl <;> cases t <;> decide

/-- An output face `f` is the source face `g` under the vertex list `σ` (output vertex ↦ source vertex). -/
def Via (σ : List Nat) (f g : Tri Nat) : Prop :=
  σ[f.a]? = some g.a ∧ σ[f.b]? = some g.b ∧ σ[f.c]? = some g.c

/-- Core invariant of the vertex map. -/
structure MapInv (points : List P) (st : ExtractState P D) (σ : List Nat) : Prop where
  mapLen : st.map.length = points.length
  mapIff : ∀ v w : Nat, st.map[v]? = some (some w) ↔ σ[w]? = some v
  len : σ.length = st.soup.points.length
  pts : ∀ w v : Nat, σ[w]? = some v → v < points.length ∧ st.soup.points[w]? = points[v]?

theorem MapInv.nodup {points : List P} {st : ExtractState P D} {σ : List Nat} (h : MapInv points st σ) : σ.Nodup := by
  rw [List.nodup_iff_injective_getElem]
  rintro ⟨i, hi⟩ ⟨j, hj⟩ e
  have e : σ[i] = σ[j] := e
  have h1 := (h.mapIff σ[i] i).2 (List.getElem?_eq_getElem hi)
  have h2 := (h.mapIff σ[i] j).2 (by rw [List.getElem?_eq_getElem hj, e])
  rw [h1] at h2
  simp at h2
  exact Fin.ext h2

theorem extractVertex_spec {points : List P} {st : ExtractState P D} {σ : List Nat} (h : MapInv points st σ)
    {v : Nat} (hv : v < points.length) :
    ∃ st' w σ', extractVertex points st v = ok (st', w) ∧ MapInv points st' σ' ∧ σ <+: σ' ∧ σ'[w]? = some v ∧
      st'.soup.faces = st.soup.faces ∧ st'.soup.data = st.soup.data ∧ ∀ u ∈ σ', u ∈ σ ∨ u = v := by
  have hm : v < st.map.length := by rw [h.mapLen]; exact hv
  unfold extractVertex
  rcases hx : st.map[v] with _ | w
  · have hx' : st.map[v]? = some none := by rw [List.getElem?_eq_getElem hm, hx]
    refine ⟨⟨{ st.soup with points := st.soup.points ++ [points[v]] }, st.map.set v (some st.soup.points.length)⟩,
      st.soup.points.length, σ ++ [v], ?_, ?_, ⟨[v], rfl⟩, ?_, rfl, rfl, ?_⟩
    · simp [at!, hx', List.getElem?_eq_getElem hv, Soup.addVertex]
    · have hnot : v ∉ σ := by
        intro hmem
        obtain ⟨i, hi, e⟩ := List.getElem_of_mem hmem
        have := (h.mapIff v i).2 (by rw [List.getElem?_eq_getElem hi, e])
        rw [hx'] at this; simp at this
      constructor
      · simpa using h.mapLen
      · intro u w
        by_cases huv : u = v
        · subst huv
          simp only [List.getElem?_set_self hm]
          rw [List.getElem?_append]
          split
          · rename_i hlt
            constructor
            · intro e; simp at e; have := h.len; omega
            · intro e; exact absurd (List.mem_of_getElem? e) hnot
          · rename_i hge
            constructor
            · intro e; simp at e; have := h.len; subst e; simp [← this]
            · intro e
              have hl : w - σ.length < [u].length := by
                by_contra hc; rw [List.getElem?_eq_none (by omega)] at e; simp at e
              simp at hl; have := h.len; congr 2; omega
        · rw [List.getElem?_set_ne (by omega : v ≠ u), h.mapIff]
          rw [List.getElem?_append]
          split
          · exact Iff.rfl
          · rename_i hge
            rw [List.getElem?_eq_none (by omega)]
            constructor
            · intro e; simp at e
            · intro e
              have hl : w - σ.length < [v].length := by
                by_contra hc; rw [List.getElem?_eq_none (by omega)] at e; simp at e
              simp at hl
              have : w - σ.length = 0 := by omega
              rw [this] at e; simp at e; omega
      · simp [h.len]
      · intro w u hw
        rw [List.getElem?_append] at hw
        have := h.len
        split at hw
        · rename_i hlt
          obtain ⟨h1, h2⟩ := h.pts w u hw
          refine ⟨h1, ?_⟩
          rw [← h2]; simp only; rw [List.getElem?_append_left (by omega)]
        · have hl : w - σ.length < [v].length := by
            by_contra hc; rw [List.getElem?_eq_none (by omega)] at hw; simp at hw
          simp at hl
          have e0 : w - σ.length = 0 := by omega
          rw [e0] at hw; simp at hw; subst hw
          refine ⟨hv, ?_⟩
          have : w = st.soup.points.length := by omega
          subst this
          simp [List.getElem?_eq_getElem hv]
    · simp [← h.len]
    · intro u hu; simpa using hu
  · have hx' : st.map[v]? = some (some w) := by rw [List.getElem?_eq_getElem hm, hx]
    exact ⟨st, w, σ, by simp [at!, hx'], h, List.prefix_rfl, (h.mapIff v w).1 hx', rfl, rfl, fun u hu => Or.inl hu⟩

theorem Via.mono {σ σ' : List Nat} (h : σ <+: σ') {f g : Tri Nat} (hv : Via σ f g) : Via σ' f g := by
  obtain ⟨t, rfl⟩ := h
  have key : ∀ {i v : Nat}, σ[i]? = some v → (σ ++ t)[i]? = some v := by
    intro i v e
    have hi : i < σ.length := by
      by_contra hc; rw [List.getElem?_eq_none (by omega)] at e; simp at e
    rw [List.getElem?_append_left hi, e]
  exact ⟨key hv.1, key hv.2.1, key hv.2.2⟩

theorem prefix_get {σ σ' : List Nat} (h : σ <+: σ') {i v : Nat} (e : σ[i]? = some v) : σ'[i]? = some v := by
  obtain ⟨t, rfl⟩ := h
  have hi : i < σ.length := by
    by_contra hc; rw [List.getElem?_eq_none (by omega)] at e; simp at e
  rw [List.getElem?_append_left hi, e]

/-- Full loop invariant with the list of faces emitted so far. -/
structure LoopInv (points : List P) (st : ExtractState P D) (σ : List Nat) (out : List (Tri Nat × D)) : Prop where
  map : MapInv points st σ
  faces : List.Forall₂ (Via σ) st.soup.faces (out.map Prod.fst)
  data : st.soup.data = out.map Prod.snd
  used : ∀ u ∈ σ, ∃ f ∈ out, u ∈ f.1.toList

theorem extractFace_spec {m : Soup P (MixedData D)} {op : Op} {pf : Bool} {st : ExtractState P D} {σ : List Nat}
    {out : List (Tri Nat × D)} (h : LoopInv m.points st σ out) {fi : Nat} {f : Tri Nat} {d : MixedData D}
    (hf : m.faces[fi]? = some f) (hd : m.data[fi]? = some d)
    (hr : f.a < m.points.length ∧ f.b < m.points.length ∧ f.c < m.points.length) :
    ∃ st' σ', extractFace m op pf st fi = ok st' ∧
      LoopInv m.points st' σ' (out ++ ((Spec.select op pf d.fromLeft d.tag).map
        fun inv => (if inv then f.flip else f, d.data)).toList) := by
  have hsel := output_eq_select op pf d.fromLeft d.tag
  unfold extractFace
  have e1 : at! m.data fi = ok d := at!_ok.2 hd
  have e2 : at! m.faces fi = ok f := at!_ok.2 hf
  rw [e1, ok_bind]
  by_cases hc : (outputId (tagMask op pf d.tag) d.fromLeft || outputInv (tagMask op pf d.tag) d.fromLeft) = true
  · rw [if_pos hc] at hsel
    obtain ⟨st1, a, σ1, ea, i1, p1, ga, f1, d1, u1⟩ := extractVertex_spec h.map hr.1
    obtain ⟨st2, b, σ2, eb, i2, p2, gb, f2, d2, u2⟩ := extractVertex_spec i1 hr.2.1
    obtain ⟨st3, c, σ3, ec, i3, p3, gc, f3, d3, u3⟩ := extractVertex_spec i2 hr.2.2
    refine ⟨⟨st3.soup.addFace (if outputInv (tagMask op pf d.tag) d.fromLeft then (⟨a, b, c⟩ : Tri Nat).flip
      else ⟨a, b, c⟩) d.data, st3.map⟩, σ3, ?_, ?_⟩
    · rw [e2]
      simp only [ok_bind, ea, eb, ec]
      rw [if_neg (by simpa [Bool.or_eq_true, or_iff_not_imp_left] using hc)]
      rfl
    · rw [hsel]
      simp only [Option.map_some, Option.toList]
      have p13 := p2.trans p3
      constructor
      · constructor
        · exact i3.mapLen
        · exact i3.mapIff
        · exact i3.len
        · exact i3.pts
      · simp only [Soup.addFace, f3, f2, f1, List.map_append, List.map_cons, List.map_nil]
        refine List.rel_append (R := Via σ3) ?_ ?_
        · exact h.faces.imp fun _ _ hv => hv.mono ((p1.trans p2).trans p3)
        · refine List.Forall₂.cons ?_ .nil
          have ga' := prefix_get p13 ga
          have gb' := prefix_get p3 gb
          split <;> simp_all [Via, Tri.flip]
      · simp [Soup.addFace, d3, d2, d1, h.data]
      · intro u hu
        have hflip : ∀ (b : Bool), u ∈ f.toList → u ∈ (if b then f.flip else f).toList := by
          intro b; cases b <;> simp [Tri.toList, Tri.flip]; tauto
        have hf' : ∀ (b : Bool), u ∈ f.toList →
            ∃ g ∈ out ++ [(if b then f.flip else f, d.data)], u ∈ g.1.toList :=
          fun b hmem => ⟨_, List.mem_append_right _ (List.mem_singleton.2 rfl), hflip b hmem⟩
        rcases u3 u hu with hu | rfl
        · rcases u2 u hu with hu | rfl
          · rcases u1 u hu with hu | rfl
            · obtain ⟨g, hg, hg'⟩ := h.used u hu
              exact ⟨g, List.mem_append_left _ hg, hg'⟩
            · exact hf' _ (by simp [Tri.toList])
          · exact hf' _ (by simp [Tri.toList])
        · exact hf' _ (by simp [Tri.toList])
  · rw [if_neg hc] at hsel
    refine ⟨st, σ, ?_, ?_⟩
    · rw [Bool.not_eq_true, Bool.or_eq_false_iff] at hc
      simp [hc.1, hc.2]
    · rw [hsel]; simpa using h

theorem wf_get {m : Soup P (MixedData D)} (hm : m.WF) {fi : Nat} (hfi : fi < m.faces.length) :
    ∃ f d, m.faces[fi]? = some f ∧ m.data[fi]? = some d ∧ (m.faces.zip m.data)[fi]? = some (f, d) ∧
      (f.a < m.points.length ∧ f.b < m.points.length ∧ f.c < m.points.length) := by
  have hd : fi < m.data.length := by rw [hm.1]; exact hfi
  refine ⟨m.faces[fi], m.data[fi], List.getElem?_eq_getElem hfi, List.getElem?_eq_getElem hd, ?_, ?_⟩
  · rw [List.getElem?_eq_getElem (by simp; omega)]; simp
  · have := hm.2 m.faces[fi] (List.getElem_mem hfi)
    simp only [Tri.toList, List.mem_cons, List.not_mem_nil, or_false, forall_eq_or_imp, forall_eq] at this
    exact this

theorem extractLoop_spec {m : Soup P (MixedData D)} (hm : m.WF) (op : Op) (pf : Bool) :
    ∀ (n k : Nat), k + n = m.faces.length → ∀ (st : ExtractState P D) (σ : List Nat) (out : List (Tri Nat × D)),
      LoopInv m.points st σ out →
      ∃ st' σ', extractLoop m op pf st (List.range' k n) = ok st' ∧
        LoopInv m.points st' σ' (out ++ ((m.faces.zip m.data).drop k).filterMap fun x =>
          (Spec.select op pf x.2.fromLeft x.2.tag).map fun inv => (if inv then x.1.flip else x.1, x.2.data)) := by
  intro n
  induction n with
  | zero =>
    intro k hk st σ out h
    refine ⟨st, σ, rfl, ?_⟩
    rw [List.drop_eq_nil_of_le (by simp; omega)]
    simpa using h
  | succ n ih =>
    intro k hk st σ out h
    obtain ⟨f, d, hf, hd, hz, hr⟩ := wf_get hm (show k < m.faces.length by omega)
    obtain ⟨st1, σ1, e1, h1⟩ := extractFace_spec (op := op) (pf := pf) h hf hd hr
    obtain ⟨st2, σ2, e2, h2⟩ := ih (k + 1) (by omega) st1 σ1 _ h1
    refine ⟨st2, σ2, ?_, ?_⟩
    · rw [List.range'_succ]; simp only [extractLoop, e1, ok_bind]; exact e2
    · rw [List.drop_eq_getElem?_toList_append, hz]
      simp only [Option.toList, List.singleton_append, List.filterMap_cons]
      cases hs : (Spec.select op pf d.fromLeft d.tag).map fun inv => (if inv then f.flip else f, d.data) with
      | none => simpa [hs] using h2
      | some x => simpa [hs] using h2

/-- Everything the extraction theorems need. -/
theorem extract_main {m : Soup P (MixedData D)} (hm : m.WF) (op : Op) (pf : Bool) :
    ∃ (s : Soup P D) (σ : List Nat), extract m op pf = ok s ∧ σ.Nodup ∧ σ.length = s.points.length ∧
      (∀ w v : Nat, σ[w]? = some v → v < m.points.length ∧ s.points[w]? = m.points[v]?) ∧
      List.Forall₂ (Via σ) s.faces ((Spec.selected m op pf).map Prod.fst) ∧
      s.data = (Spec.selected m op pf).map Prod.snd ∧
      ∀ u ∈ σ, ∃ f ∈ Spec.selected m op pf, u ∈ f.1.toList := by
  have h0 : LoopInv m.points (⟨Soup.empty, List.replicate m.points.length none⟩ : ExtractState P D) [] [] := by
    refine ⟨⟨by simp, ?_, by simp [Soup.empty], by simp⟩, by simp [Soup.empty], by simp [Soup.empty], by simp⟩
    intro v w
    simp [List.getElem?_replicate]
  obtain ⟨st, σ, e, h⟩ := extractLoop_spec hm op pf m.faces.length 0 (by omega) _ _ _ h0
  rw [← List.range_eq_range'] at e
  refine ⟨st.soup, σ, ?_, h.map.nodup, h.map.len, h.map.pts, ?_, ?_, ?_⟩
  · unfold extract; rw [e]; rfl
  · have := h.faces; simpa [Spec.selected] using this
  · have := h.data; simpa [Spec.selected] using this
  · have := h.used; simpa [Spec.selected] using this

end Kigumi

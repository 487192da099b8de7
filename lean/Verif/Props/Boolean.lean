import Verif.Proofs.Special
import Mathlib.Data.Fintype.Basic
/-!
# Properties C01–C10: Boolean operations
-/
namespace Kigumi.Props
open Kigumi Spec Outcome
variable {P Cell D : Type}

/-! ## C01 -/

/-- The truth table is the set-theoretic meaning documented for the operators. -/
theorem C01_truth_is_set_operation {X : Type} (op : Op) (A B : Set X) (x : X) (a b : Bool)
    (ha : a = true ↔ x ∈ A) (hb : b = true ↔ x ∈ B) : truth op a b = true ↔ x ∈ onSets op A B := by
  cases op <;> cases a <;> cases b <;> simp_all [truth, table, onSets, symmDiff]

/-- The mask tables select a face exactly when the operator's value differs between its two sides, and invert it
exactly when the inner side is not in the result. -/
theorem C01_selection (op : Op) (preferFirst fromLeft : Bool) (tag : Tag) :
    (outputId (tagMask op preferFirst tag) fromLeft = true ↔ select op preferFirst fromLeft tag = some false) ∧
    (outputInv (tagMask op preferFirst tag) fromLeft = true ↔ select op preferFirst fromLeft tag = some true) := by
  cases op <;> cases preferFirst <;> cases fromLeft <;> cases tag <;> decide

/-- The helper used for empty and full operands is the same truth table. -/
theorem C01_apply (op : Op) (a b : Bool) : applyOp op a b = truth op a b := (truth_eq_apply op a b).symm

example : select .L true false .interior = some true := rfl
example : (3 : Nat) ∈ onSets .L {n : Nat | n < 5} {n | n < 2} := by
  simp [onSets]

/-! ## C02 – C04 -/

/-- The extracted soup lists exactly the selected faces in order, with their corner coordinates. -/
theorem C02_extract_faces {m : Soup P (MixedData D)} (hm : m.WF) (op : Op) (preferFirst : Bool) :
    ∃ s, extract m op preferFirst = ok s ∧
      List.Forall₂ (fun (f : Tri Nat) (g : Tri Nat × D) =>
          f.a < s.points.length ∧ f.b < s.points.length ∧ f.c < s.points.length ∧
          s.points[f.a]? = m.points[g.1.a]? ∧ s.points[f.b]? = m.points[g.1.b]? ∧ s.points[f.c]? = m.points[g.1.c]?)
        s.faces (selected m op preferFirst) := by
  obtain ⟨s, σ, e, _, hlen, hp, hf, _, _⟩ := extract_main hm op preferFirst
  refine ⟨s, e, ?_⟩
  rw [List.forall₂_map_right_iff] at hf
  refine hf.imp ?_
  rintro f g ⟨h1, h2, h3⟩
  have lt : ∀ {i v : Nat}, σ[i]? = some v → i < s.points.length := by
    intro i v e
    rw [← hlen]
    by_contra hc
    rw [List.getElem?_eq_none (by omega)] at e; simp at e
  exact ⟨lt h1, lt h2, lt h3, (hp _ _ h1).2, (hp _ _ h2).2, (hp _ _ h3).2⟩

/-- The output vertices are distinct source vertices (list `σ`), each used by an emitted face; the emitted faces are
the selected faces renumbered. -/
theorem C03_extract_compact {m : Soup P (MixedData D)} (hm : m.WF) (op : Op) (preferFirst : Bool) :
    ∃ (s : Soup P D) (σ : List Nat), extract m op preferFirst = ok s ∧ s.WF ∧
      σ.Nodup ∧ σ.length = s.points.length ∧
      (∀ w v : Nat, σ[w]? = some v → v < m.points.length ∧ s.points[w]? = m.points[v]?) ∧
      List.Forall₂ (fun (f : Tri Nat) (g : Tri Nat × D) =>
        σ[f.a]? = some g.1.a ∧ σ[f.b]? = some g.1.b ∧ σ[f.c]? = some g.1.c) s.faces (selected m op preferFirst) ∧
      (∀ w < s.points.length, ∃ f ∈ s.faces, w ∈ f.toList) := by
  obtain ⟨s, σ, e, hnd, hlen, hp, hf, hdat, hu⟩ := extract_main hm op preferFirst
  have lt : ∀ {i v : Nat}, σ[i]? = some v → i < s.points.length := by
    intro i v e
    rw [← hlen]
    by_contra hc
    rw [List.getElem?_eq_none (by omega)] at e; simp at e
  refine ⟨s, σ, e, ⟨?_, ?_⟩, hnd, hlen, hp, by rwa [List.forall₂_map_right_iff] at hf, ?_⟩
  · rw [hdat, hf.length_eq]; simp
  · intro f hfm v hv
    obtain ⟨g, h1, h2, h3⟩ := forall₂_left_mem hf f hfm
    simp only [Tri.toList, List.mem_cons, List.not_mem_nil, or_false] at hv
    rcases hv with rfl | rfl | rfl
    · exact lt h1
    · exact lt h2
    · exact lt h3
  · intro w hw
    have hw' : w < σ.length := by omega
    obtain ⟨g, hg, hmem⟩ := hu σ[w] (List.getElem_mem hw')
    -- the emitted face matching `g`
    have hgm : g.1 ∈ (selected m op preferFirst).map Prod.fst := List.mem_map_of_mem hg
    obtain ⟨f, hfm, hv⟩ := forall₂_right_mem hf _ hgm
    refine ⟨f, hfm, ?_⟩
    obtain ⟨h1, h2, h3⟩ := hv
    have inj : ∀ {i : Nat}, σ[i]? = some σ[w] → i = w := by
      intro i hi
      have hil : i < σ.length := by rw [hlen]; exact lt hi
      rw [List.getElem?_eq_getElem hil] at hi
      exact (List.Nodup.getElem_inj_iff hnd).1 (Option.some.inj hi)
    simp only [Tri.toList, List.mem_cons, List.not_mem_nil, or_false] at hmem ⊢
    rcases hmem with h | h | h
    · left; exact (inj (h ▸ h1)).symm
    · right; left; exact (inj (h ▸ h2)).symm
    · right; right; exact (inj (h ▸ h3)).symm

/-- Every emitted face carries the data of its source face, at the same position of the list. -/
theorem C04_extract_data {m : Soup P (MixedData D)} (hm : m.WF) (op : Op) (preferFirst : Bool) :
    ∃ s, extract m op preferFirst = ok s ∧ s.data = (selected m op preferFirst).map Prod.snd := by
  obtain ⟨s, σ, e, _, _, _, _, hdat, _⟩ := extract_main hm op preferFirst
  exact ⟨s, e, hdat⟩

/-- A mixed soup with shared vertices, a skipped face and an inverted face (difference of two faces). -/
def exampleMixed : Soup Nat (MixedData String) :=
  ⟨[10, 11, 12, 13, 14], [⟨1, 2, 3⟩, ⟨0, 1, 2⟩, ⟨3, 2, 4⟩],
    [⟨true, .exterior, "a"⟩, ⟨true, .interior, "b"⟩, ⟨false, .interior, "c"⟩]⟩

example : exampleMixed.WF := by unfold Soup.WF; decide
example : extract exampleMixed .L true = ok ⟨[11, 12, 13, 14], [⟨0, 1, 2⟩, ⟨2, 3, 1⟩], ["a", "c"]⟩ := by decide

/-! ## C05, C06 -/

/-- The result of a Boolean operation on two regions represents the Boolean combination of the sets they represent.
`mix` is the arrangement computation; it only matters when both operands are boundary-defined, and then is required to
deliver a correctly classified arrangement. -/
theorem C05_boolean_result_correct [DecidableEq P] {ar : Arrangement P Cell} (hconn : ar.Connected)
    (mix : Soup P D → Soup P D → Outcome (Soup P (MixedData D))) {a b : Region P D} {χA χB : Cell → Bool}
    (hmix : a.kind = .boundaryDefined → b.kind = .boundaryDefined → ∃ m, mix a.boundary b.boundary = ok m ∧
      m.data.length = m.faces.length ∧ Classified ar m χA χB)
    (ia : RegionInv a) (ib : RegionInv b) (wa : a.boundary.WF) (wb : b.boundary.WF)
    (hA : Represents ar a χA) (hB : Represents ar b χB) (op : Op) (preferFirst : Bool) :
    ∃ bb r, Builder.make mix a b = ok bb ∧ bb.run op preferFirst = ok r ∧
      Represents ar r (fun c => truth op (χA c) (χB c)) ∧ RegionInv r ∧ r.boundary.WF :=
  make_run_correct hconn mix hmix ia ib wa wb hA hB op preferFirst

/-- A region determines the set it represents. -/
theorem C05_represents_unique [DecidableEq P] {ar : Arrangement P Cell} (hconn : ar.Connected) {r : Region P D}
    {χ χ' : Cell → Bool} (h : Represents ar r χ) (h' : Represents ar r χ') : ∀ c, χ c = χ' c := by
  unfold Represents at h h'
  cases hk : r.kind <;> simp only [hk] at h h'
  · intro c; rw [h c, h' c]
  · intro c; rw [h c, h' c]
  · obtain ⟨hne, ts, hc, hb⟩ := h
    obtain ⟨_, ts', hc', hb'⟩ := h'
    rw [hasCorners_unique hc' hc] at hb'
    -- the two indicators jump at the same walls in the same direction
    have hjump : ∀ w, (χ (ar.behind w) == χ' (ar.behind w)) = (χ (ar.front w) == χ' (ar.front w)) := by
      intro w
      have p := hb.pos_iff w
      have p' := hb'.pos_iff w
      have n := hb.neg_iff w
      have n' := hb'.neg_iff w
      rw [p] at p'; rw [n] at n'
      revert p' n'
      generalize χ (ar.behind w) = x1
      generalize χ' (ar.behind w) = x2
      generalize χ (ar.front w) = x3
      generalize χ' (ar.front w) = x4
      cases x1 <;> cases x2 <;> cases x3 <;> cases x4 <;> simp
    have hconst := connected_const (χ := fun c => χ c == χ' c) hconn hjump
    have hts : ts ≠ [] := by
      intro h; rw [h] at hc
      cases hf : r.boundary.faces with
      | nil => exact hne hf
      | cons x l => rw [hf] at hc; cases hc
    obtain ⟨t, ht⟩ := List.exists_mem_of_ne_nil _ hts
    have hone : ∃ c, (χ c == χ' c) = true := by
      obtain ⟨w, hw | hw⟩ := hb.1 t ht
      · have p := (hb.pos_iff w).1 ⟨t, ht, hw⟩
        have p' := (hb'.pos_iff w).1 ⟨t, ht, hw⟩
        simp only [Bool.and_eq_true] at p p'
        exact ⟨ar.behind w, by rw [p.1, p'.1]; rfl⟩
      · have p := (hb.neg_iff w).1 ⟨t, ht, hw⟩
        have p' := (hb'.neg_iff w).1 ⟨t, ht, hw⟩
        simp only [Bool.and_eq_true] at p p'
        exact ⟨ar.front w, by rw [p.1, p'.1]; rfl⟩
    obtain ⟨c0, hc0⟩ := hone
    intro c
    have := hconst c c0
    simp only [hc0, beq_iff_eq] at this
    exact this

/-- When no face is selected the builder returns the region that is right everywhere; in particular it does not throw
for any correctly classified arrangement of two boundary-defined regions. -/
theorem C06_no_faces [DecidableEq P] {ar : Arrangement P Cell} (hconn : ar.Connected) {m : Soup P (MixedData D)}
    {χA χB : Cell → Bool} (hlen : m.data.length = m.faces.length) (hcl : Classified ar m χA χB)
    (hl : ∃ d ∈ m.data, d.fromLeft = true) (hr : ∃ d ∈ m.data, d.fromLeft = false) (op : Op) (preferFirst : Bool)
    (hnone : selected m op preferFirst = []) :
    ((⟨.boundaryDefined, .boundaryDefined, m⟩ : Builder P D).run op preferFirst = ok Region.fullRegion ∧
        ∀ c, truth op (χA c) (χB c) = true) ∨
    ((⟨.boundaryDefined, .boundaryDefined, m⟩ : Builder P D).run op preferFirst = ok Region.emptyRegion ∧
        ∀ c, truth op (χA c) (χB c) = false) := by
  obtain ⟨ts, hc, h1, h2, h3⟩ := hcl
  have tl : ts.length = m.data.length := by rw [hlen]; exact hc.length_eq.symm
  have ne : ∀ b : Bool, (∃ d ∈ m.data, d.fromLeft = b) → operandTris ts m.data b ≠ [] := by
    rintro b ⟨d, hd, rfl⟩ h
    obtain ⟨t, ht⟩ := zip_data tl d hd
    have := mem_operand ht
    rw [h] at this; simp at this
  obtain ⟨r, e, hrep, _⟩ := run_correct (bb := ⟨.boundaryDefined, .boundaryDefined, m⟩) hconn hlen hc h1 h2 h3
    (ne true hl) (ne false hr) op preferFirst
  obtain ⟨s, es, hdat⟩ := C04_extract_data (HasCorners.wf hc hlen) op preferFirst
  obtain ⟨s', es', hf⟩ := C02_extract_faces (HasCorners.wf hc hlen) op preferFirst
  rw [es] at es'; cases es'
  rw [hnone] at hf
  have hsf : s.faces = [] := List.length_eq_zero_iff.1 hf.length_eq
  have hkind : r = Region.fullRegion ∨ r = Region.emptyRegion := by
    revert e
    unfold Builder.run
    simp only [es, ok_bind, hsf, List.length_nil, ne_eq, not_true, if_false, reduceCtorEq, or_self, pure_eq]
    have fe : ∀ b : Bool, (fullOrEmpty b : Region P D) = Region.fullRegion ∨ (fullOrEmpty b : Region P D) = Region.emptyRegion := by
      intro b; cases b <;> simp [fullOrEmpty]
    intro e
    split at e <;> first
      | (cases e; exact Or.inl rfl)
      | (cases e; exact Or.inr rfl)
      | (split at e
         · cases e; exact fe _
         · split at e
           · cases e; exact fe _
           · cases e)
      | (cases e)
  rcases hkind with rfl | rfl
  · exact Or.inl ⟨e, hrep⟩
  · exact Or.inr ⟨e, hrep⟩

/-- The exception "inconsistently oriented" is raised only if the mixed soup is not a correctly classified arrangement
of two regions (for any choice of cells). -/
theorem C06_throw_only_if_inconsistent [DecidableEq P] {m : Soup P (MixedData D)}
    (hlen : m.data.length = m.faces.length)
    (hl : ∃ d ∈ m.data, d.fromLeft = true) (hr : ∃ d ∈ m.data, d.fromLeft = false) {op : Op} {preferFirst : Bool}
    {msg : String} (hthrow : (⟨.boundaryDefined, .boundaryDefined, m⟩ : Builder P D).run op preferFirst = exn msg) :
    ¬ ∃ (Cell : Type) (ar : Arrangement P Cell) (χA χB : Cell → Bool), ar.Connected ∧ Classified ar m χA χB := by
  rintro ⟨Cell, ar, χA, χB, hconn, ts, hc, h1, h2, h3⟩
  have tl : ts.length = m.data.length := by rw [hlen]; exact hc.length_eq.symm
  have ne : ∀ b : Bool, (∃ d ∈ m.data, d.fromLeft = b) → operandTris ts m.data b ≠ [] := by
    rintro b ⟨d, hd, rfl⟩ h
    obtain ⟨t, ht⟩ := zip_data tl d hd
    have := mem_operand ht
    rw [h] at this; simp at this
  obtain ⟨r, e, _⟩ := run_correct (bb := ⟨.boundaryDefined, .boundaryDefined, m⟩) hconn hlen hc h1 h2 h3
    (ne true hl) (ne false hr) op preferFirst
  rw [hthrow] at e; cases e

section Example
/-- Two cells (`true`: inside) separated by the four faces of the tetrahedron 0123. -/
def tetra : Arrangement Nat Bool where
  Wall := Fin 4
  tri := fun w => [(⟨0, 2, 1⟩ : Tri Nat), ⟨0, 1, 3⟩, ⟨1, 2, 3⟩, ⟨2, 0, 3⟩].get w
  behind := fun _ => true
  front := fun _ => false
  distinct := by decide
  support := by
    intro w w' h
    have key : ∀ w w' : Fin 4, (∀ x ∈ [0, 1, 2, 3],
        (x ∈ ([(⟨0, 2, 1⟩ : Tri Nat), ⟨0, 1, 3⟩, ⟨1, 2, 3⟩, ⟨2, 0, 3⟩].get w).toList ↔
         x ∈ ([(⟨0, 2, 1⟩ : Tri Nat), ⟨0, 1, 3⟩, ⟨1, 2, 3⟩, ⟨2, 0, 3⟩].get w').toList)) → w = w' := by decide
    exact key w w' (fun x _ => h x)

theorem tetra_connected : tetra.Connected := by
  have h : tetra.Adj true false := ⟨(0 : Fin 4), Or.inl ⟨rfl, rfl⟩⟩
  have h' : tetra.Adj false true := ⟨(0 : Fin 4), Or.inr ⟨rfl, rfl⟩⟩
  intro c d
  cases c <;> cases d
  · exact .refl
  · exact .single h'
  · exact .single h
  · exact .refl

/-- The tetrahedron and (rotated, inverted) its complement as mixed soup: all faces are opposite. -/
def tetraMixed : Soup Nat (MixedData Unit) :=
  ⟨[0, 1, 2, 3], [⟨0, 2, 1⟩, ⟨0, 1, 3⟩, ⟨1, 2, 3⟩, ⟨2, 0, 3⟩, ⟨0, 1, 2⟩, ⟨3, 1, 0⟩, ⟨3, 2, 1⟩, ⟨3, 0, 2⟩],
    List.replicate 4 ⟨true, .opposite, ()⟩ ++ List.replicate 4 ⟨false, .opposite, ()⟩⟩

instance : Fintype tetra.Wall := inferInstanceAs (Fintype (Fin 4))

theorem tetraMixed_classified : Classified tetra tetraMixed id not := by
  refine ⟨[⟨0, 2, 1⟩, ⟨0, 1, 3⟩, ⟨1, 2, 3⟩, ⟨2, 0, 3⟩, ⟨0, 1, 2⟩, ⟨3, 1, 0⟩, ⟨3, 2, 1⟩, ⟨3, 0, 2⟩], ?_, ?_, ?_, ?_⟩
  · unfold HasCorners; decide
  · unfold Bounds; decide
  · unfold Bounds; decide
  · unfold TagTrue; decide

/-- The hypotheses of `C06_no_faces` are met: the union of the tetrahedron and its complement is the full region. -/
example : (⟨.boundaryDefined, .boundaryDefined, tetraMixed⟩ : Builder Nat Unit).run .A true = ok Region.fullRegion ∧
    selected tetraMixed .A true = [] ∧ (∃ d ∈ tetraMixed.data, d.fromLeft = true) := by decide

/-- The tetrahedron as a region. -/
def tetraRegion : Region Nat Unit :=
  ⟨.boundaryDefined, ⟨[0, 1, 2, 3], [⟨0, 2, 1⟩, ⟨0, 1, 3⟩, ⟨1, 2, 3⟩, ⟨2, 0, 3⟩], List.replicate 4 ()⟩⟩

theorem tetraRegion_represents : Represents tetra tetraRegion id := by
  refine ⟨by decide, [⟨0, 2, 1⟩, ⟨0, 1, 3⟩, ⟨1, 2, 3⟩, ⟨2, 0, 3⟩], ?_, ?_⟩
  · unfold HasCorners; decide
  · unfold Bounds; decide

theorem tetraRegion_complement_represents : Represents tetra (complement tetraRegion) not := by
  refine ⟨by decide, [⟨0, 1, 2⟩, ⟨0, 3, 1⟩, ⟨1, 3, 2⟩, ⟨2, 3, 0⟩], ?_, ?_⟩
  · unfold HasCorners; decide
  · unfold Bounds; decide

/-- All hypotheses of `C05_boolean_result_correct` hold for the tetrahedron and its complement; and the result of the
theorem is the full region for the union. -/
example : ∃ bb r, Builder.make (fun _ _ => ok tetraMixed) tetraRegion (complement tetraRegion) = ok bb ∧
    bb.run .A true = ok r ∧ Represents tetra r (fun c => truth .A (id c) (!c)) ∧ RegionInv r ∧ r.boundary.WF :=
  C05_boolean_result_correct tetra_connected _ (fun _ _ => ⟨tetraMixed, rfl, rfl, tetraMixed_classified⟩)
    (by simp [RegionInv, tetraRegion]) (by simp [RegionInv, tetraRegion, complement, flipSoup])
    (by unfold Soup.WF; decide) (by unfold Soup.WF; decide)
    tetraRegion_represents tetraRegion_complement_represents .A true
end Example

/-! ## C07 -/

/-- Empty and full operands: with two of them the result is empty or full as the truth table says; with one of them the
result is empty or full if the operator does not depend on the other operand there, and otherwise consists of all faces
of the other operand, unchanged or all inverted, with their data. -/
theorem C07_empty_full_operands (mix : Soup P D → Soup P D → Outcome (Soup P (MixedData D))) (op : Op)
    (preferFirst : Bool) :
    (∀ (v w : Bool), ∃ bb, Builder.make mix (fullOrEmpty v : Region P D) (fullOrEmpty w) = ok bb ∧
      bb.run op preferFirst = ok (fullOrEmpty (truth op v w))) ∧
    (∀ (v : Bool) (s : Soup P D), s.WF → s.faces ≠ [] → ∃ bb r,
      Builder.make mix (fullOrEmpty v) ⟨.boundaryDefined, s⟩ = ok bb ∧ bb.run op preferFirst = ok r ∧
        SingleResult s (truth op v false) (truth op v true) r) ∧
    (∀ (v : Bool) (s : Soup P D), s.WF → s.faces ≠ [] → ∃ bb r,
      Builder.make mix ⟨.boundaryDefined, s⟩ (fullOrEmpty v) = ok bb ∧ bb.run op preferFirst = ok r ∧
        SingleResult s (truth op false v) (truth op true v) r) :=
  special_make_run op preferFirst

example : (⟨[1, 2, 3], [⟨0, 1, 2⟩], ["d"]⟩ : Soup Nat String).WF := by unfold Soup.WF; decide
example : (do
    let bb ← Builder.make (fun _ _ => exn "unused") (fullOrEmpty true : Region Nat String)
      ⟨.boundaryDefined, ⟨[1, 2, 3], [⟨0, 1, 2⟩], ["d"]⟩⟩
    bb.run .L true) = ok ⟨.boundaryDefined, ⟨[1, 2, 3], [⟨0, 2, 1⟩], ["d"]⟩⟩ := by decide

/-! ## C08 -/

/-- `compl` and `swap` are what their names say. -/
theorem C08_compl_swap_meaning (op : Op) (a b : Bool) :
    truth (Op.compl op) a b = !truth op a b ∧ truth (Op.swap op) b a = truth op a b := by
  cases op <;> cases a <;> cases b <;> exact ⟨rfl, rfl⟩

/-- The complementary operator yields the complementary region: empty and full exchanged, or the same vertices, faces
and data with every face inverted; it fails exactly when the operator fails. -/
theorem C08_complement (bb : Builder P D) (op : Op) (preferFirst : Bool) :
    bb.run (Op.compl op) preferFirst = mapOutcome complement (bb.run op preferFirst) :=
  run_compl bb op preferFirst

/-- Exchanging operands, operator arguments and preference does not change the result. -/
theorem C08_exchange (bb : Builder P D) (op : Op) (preferFirst : Bool) :
    (⟨bb.secondKind, bb.firstKind, swapOperands bb.m⟩ : Builder P D).run (Op.swap op) (!preferFirst) =
      bb.run op preferFirst :=
  run_swap bb op preferFirst

example : (⟨.boundaryDefined, .boundaryDefined, exampleMixed⟩ : Builder Nat String).run .C true =
    ok ⟨.boundaryDefined, ⟨[11, 12, 13, 14], [⟨0, 2, 1⟩, ⟨2, 1, 3⟩], ["a", "c"]⟩⟩ := by decide

/-! ## C09 -/

/-- How many faces the loop emits for face `fi` (0 or 1), in any state of the loop. -/
theorem C09_emitted_count {m : Soup P (MixedData D)} {op : Op} {pf : Bool} {st st' : ExtractState P D} {fi : Nat}
    {d : MixedData D} (hd : m.data[fi]? = some d) (h : extractFace m op pf st fi = ok st') :
    st'.soup.faces.length = st.soup.faces.length + (if select op pf d.fromLeft d.tag = none then 0 else 1) := by
  have hsel := output_eq_select op pf d.fromLeft d.tag
  have vf : ∀ {st : ExtractState P D} {v x}, extractVertex m.points st v = ok x →
      x.1.soup.faces = st.soup.faces := by
    intro st v x hx
    unfold extractVertex at hx
    obtain ⟨o, ho, hx⟩ := bind_eq_ok.1 hx
    cases o with
    | some w => cases hx; rfl
    | none =>
      obtain ⟨p, hp, hx⟩ := bind_eq_ok.1 hx
      cases hx; rfl
  unfold extractFace at h
  rw [at!_ok.2 hd, ok_bind] at h
  simp only at h
  by_cases hc : (outputId (tagMask op pf d.tag) d.fromLeft || outputInv (tagMask op pf d.tag) d.fromLeft) = true
  · rw [if_pos hc] at hsel
    rw [if_neg (by simpa [Bool.or_eq_true, or_iff_not_imp_left] using hc)] at h
    obtain ⟨f, _, h⟩ := bind_eq_ok.1 h
    obtain ⟨x, hx, h⟩ := bind_eq_ok.1 h
    obtain ⟨y, hy, h⟩ := bind_eq_ok.1 h
    obtain ⟨z, hz, h⟩ := bind_eq_ok.1 h
    cases h
    have e : z.1.soup.faces = st.soup.faces := by rw [vf hz, vf hy, vf hx]
    simp [hsel, Soup.addFace, e]
  · rw [if_neg hc] at hsel
    rw [Bool.not_eq_true, Bool.or_eq_false_iff] at hc
    simp only [hc.1, hc.2, Bool.not_false, Bool.and_self, if_true, pure_eq] at h
    cases h
    simp [hsel]

/-- Of two coincident faces exactly one is emitted if the operator changes across them and none otherwise, always the
one of the preferred operand; the emitted oriented triangle does not depend on the preference (coincident faces with
equal orientation are inverted alike, those with opposite orientation contrarily). -/
theorem C09_coincident_once (op : Op) (preferFirst : Bool) (tag : Tag) (htag : tag = .coplanar ∨ tag = .opposite) :
    select op preferFirst (!preferFirst) tag = none ∧
    (select op preferFirst preferFirst tag ≠ none ↔
      (match tag with
        | .coplanar => truth op true true ≠ truth op false false
        | _ => truth op true false ≠ truth op false true)) ∧
    (∀ inv, select op true true tag = some inv ↔
      select op false false tag = some (if tag = .coplanar then inv else !inv)) := by
  rcases htag with rfl | rfl <;> cases op <;> cases preferFirst <;> refine ⟨by decide, by decide, ?_⟩ <;>
    intro inv <;> cases inv <;> decide

example : select .A true true .coplanar = some false ∧ select .A true false .coplanar = none := ⟨rfl, rfl⟩
example : extract (⟨[1, 2, 3], [⟨0, 1, 2⟩, ⟨1, 2, 0⟩],
    [⟨true, .coplanar, "l"⟩, ⟨false, .coplanar, "r"⟩]⟩ : Soup Nat (MixedData String)) .K false =
      ok ⟨[2, 3, 1], [⟨0, 1, 2⟩], ["r"]⟩ := by decide

/-! ## C10 -/

/-- Constructing a region from a soup without faces throws. -/
theorem C10_empty_soup_throws (s : Soup P D) (h : s.faces = []) :
    Region.ofSoup s = exn "region boundary must not be empty" := by
  simp [Region.ofSoup, h]

/-- Every region reachable through the public interface has one of the three legitimate forms. -/
theorem C10_region_invariant (mix : Soup P D → Soup P D → Outcome (Soup P (MixedData D))) {r : Region P D}
    (h : Reachable mix r) : RegionInv r := by
  cases h with
  | default => rfl
  | emptyCall => rfl
  | fullCall => rfl
  | ofSoup hs =>
    rename_i s
    unfold Region.ofSoup at hs
    split at hs
    · cases hs
    · rename_i hne
      cases hs
      intro h0
      exact hne (by simp [show s.faces = [] from h0])
  | boolean op pf _ _ _ hr => exact run_inv hr

/-- The forms are exclusive and decide emptiness: only boundary-defined regions have faces. -/
theorem C10_kind_iff_faces {r : Region P D} (h : RegionInv r) : r.kind = .boundaryDefined ↔ r.boundary.faces ≠ [] := by
  unfold RegionInv at h
  cases hk : r.kind <;> simp only [hk] at h
  · simp [h, Soup.empty]
  · simp [h, Soup.empty]
  · simp [h]

/-- Moving out of a boundary-defined region (implicit move constructor of Region.h: the kind is copied, the vectors of
the boundary are left empty) produces an object that violates the invariant: the moved-from object is excluded from
`C10_region_invariant`. -/
theorem C10_invariant_lost_by_move :
    ∃ r : Region Nat Unit, RegionInv r ∧ ¬ RegionInv (⟨r.kind, Soup.empty⟩ : Region Nat Unit) :=
  ⟨⟨.boundaryDefined, ⟨[1, 2, 3], [⟨0, 1, 2⟩], [()]⟩⟩, by simp [RegionInv], by simp [RegionInv, Soup.empty]⟩

example : Reachable (fun _ _ => exn "unused") (⟨.boundaryDefined, ⟨[1, 2, 3], [⟨0, 2, 1⟩], ["d"]⟩⟩ : Region Nat String) :=
  .boolean .L true .fullCall (.ofSoup (s := ⟨[1, 2, 3], [⟨0, 1, 2⟩], ["d"]⟩) rfl) rfl (by decide)

end Kigumi.Props

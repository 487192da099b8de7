import Verif.Proofs.Builder2
import Verif.Spec.Regions
/-! Helper lemmas for complement duality and operand exchange. -/
namespace Kigumi
open Spec Outcome
variable {P D : Type}

theorem compl_output (op : Op) (pf fl : Bool) (t : Tag) :
    outputId (tagMask (Op.compl op) pf t) fl = outputInv (tagMask op pf t) fl ∧
    outputInv (tagMask (Op.compl op) pf t) fl = outputId (tagMask op pf t) fl := by
  cases op <;> cases pf <;> cases fl <;> cases t <;> decide

theorem not_both (op : Op) (pf fl : Bool) (t : Tag) :
    ¬ (outputId (tagMask op pf t) fl = true ∧ outputInv (tagMask op pf t) fl = true) := by
  cases op <;> cases pf <;> cases fl <;> cases t <;> decide

theorem swap_output (op : Op) (pf fl : Bool) (t : Tag) :
    outputId (tagMask (Op.swap op) (!pf) t) (!fl) = outputId (tagMask op pf t) fl ∧
    outputInv (tagMask (Op.swap op) (!pf) t) (!fl) = outputInv (tagMask op pf t) fl := by
  cases op <;> cases pf <;> cases fl <;> cases t <;> decide

/-- Extraction state with every emitted face inverted. -/
def flipState (st : ExtractState P D) : ExtractState P D := ⟨flipSoup st.soup, st.map⟩

theorem extractVertex_flip (points : List P) (st : ExtractState P D) (v : Nat) :
    extractVertex points (flipState st) v = mapOutcome (fun x => (flipState x.1, x.2)) (extractVertex points st v) := by
  unfold extractVertex
  simp only [flipState]
  cases at! st.map v with
  | exn _ => rfl
  | ub _ => rfl
  | ok x =>
    cases x with
    | some w => rfl
    | none =>
      simp only [ok_bind]
      cases at! points v <;> rfl

theorem extractFace_compl (m : Soup P (MixedData D)) (op : Op) (pf : Bool) (st : ExtractState P D) (fi : Nat) :
    extractFace m (Op.compl op) pf (flipState st) fi = mapOutcome flipState (extractFace m op pf st fi) := by
  unfold extractFace
  cases at! m.data fi with
  | exn _ => rfl
  | ub _ => rfl
  | ok d =>
    simp only [ok_bind]
    obtain ⟨h1, h2⟩ := compl_output op pf d.fromLeft d.tag
    have h3 := not_both op pf d.fromLeft d.tag
    rw [h1, h2]
    generalize outputId (tagMask op pf d.tag) d.fromLeft = i at *
    generalize outputInv (tagMask op pf d.tag) d.fromLeft = j at *
    have tail : ∀ b c : Bool, b = !c →
        (at! m.faces fi >>= fun f => extractVertex m.points (flipState st) f.a >>= fun x =>
          extractVertex m.points x.1 f.b >>= fun y => extractVertex m.points y.1 f.c >>= fun z =>
          (ok ⟨z.1.soup.addFace (if b then (⟨x.2, y.2, z.2⟩ : Tri Nat).flip else ⟨x.2, y.2, z.2⟩) d.data, z.1.map⟩ :
            Outcome (ExtractState P D))) =
        mapOutcome flipState
          (at! m.faces fi >>= fun f => extractVertex m.points st f.a >>= fun x =>
          extractVertex m.points x.1 f.b >>= fun y => extractVertex m.points y.1 f.c >>= fun z =>
          (ok ⟨z.1.soup.addFace (if c then (⟨x.2, y.2, z.2⟩ : Tri Nat).flip else ⟨x.2, y.2, z.2⟩) d.data, z.1.map⟩ :
            Outcome (ExtractState P D))) := by
      intro b c hbc
      cases at! m.faces fi with
      | exn _ => rfl
      | ub _ => rfl
      | ok f =>
        simp only [ok_bind]
        rw [extractVertex_flip]
        cases extractVertex m.points st f.a with
        | exn _ => rfl
        | ub _ => rfl
        | ok x =>
          simp only [mapOutcome, ok_bind]
          rw [extractVertex_flip]
          cases extractVertex m.points x.1 f.b with
          | exn _ => rfl
          | ub _ => rfl
          | ok y =>
            simp only [mapOutcome, ok_bind]
            rw [extractVertex_flip]
            cases extractVertex m.points y.1 f.c with
            | exn _ => rfl
            | ub _ => rfl
            | ok z =>
              subst hbc
              cases c <;> simp [mapOutcome, flipState, flipSoup, Soup.addFace, Tri.flip]
    cases i <;> cases j
    · rfl
    · exact tail false true rfl
    · exact tail true false rfl
    · exact absurd ⟨rfl, rfl⟩ h3

theorem extractLoop_compl (m : Soup P (MixedData D)) (op : Op) (pf : Bool) (fis : List Nat) (st : ExtractState P D) :
    extractLoop m (Op.compl op) pf (flipState st) fis = mapOutcome flipState (extractLoop m op pf st fis) := by
  induction fis generalizing st with
  | nil => rfl
  | cons fi fis ih =>
    simp only [extractLoop]
    rw [extractFace_compl]
    cases extractFace m op pf st fi with
    | exn _ => rfl
    | ub _ => rfl
    | ok st' => simp only [mapOutcome, ok_bind]; exact ih st'

theorem extract_compl (m : Soup P (MixedData D)) (op : Op) (pf : Bool) :
    extract m (Op.compl op) pf = mapOutcome flipSoup (extract m op pf) := by
  unfold extract
  have h := extractLoop_compl m op pf (List.range m.faces.length)
    (⟨Soup.empty, List.replicate m.points.length none⟩ : ExtractState P D)
  have e : flipState (⟨Soup.empty, List.replicate m.points.length none⟩ : ExtractState P D) =
      ⟨Soup.empty, List.replicate m.points.length none⟩ := rfl
  rw [e] at h
  rw [h]
  cases extractLoop m op pf (⟨Soup.empty, List.replicate m.points.length none⟩ : ExtractState P D)
    (List.range m.faces.length) <;> rfl

theorem at_map {α β : Type} (l : List α) (g : α → β) (i : Nat) : at! (l.map g) i = mapOutcome g (at! l i) := by
  unfold at!
  rw [List.getElem?_map]
  cases l[i]? <;> rfl

theorem extractFace_swap (m : Soup P (MixedData D)) (op : Op) (pf : Bool) (st : ExtractState P D) (fi : Nat) :
    extractFace (swapOperands m) (Op.swap op) (!pf) st fi = extractFace m op pf st fi := by
  unfold extractFace
  simp only [swapOperands, at_map]
  cases at! m.data fi with
  | exn _ => rfl
  | ub _ => rfl
  | ok d =>
    obtain ⟨h1, h2⟩ := swap_output op pf d.fromLeft d.tag
    simp only [mapOutcome, ok_bind]
    rw [h1, h2]

theorem extractLoop_swap (m : Soup P (MixedData D)) (op : Op) (pf : Bool) (fis : List Nat) (st : ExtractState P D) :
    extractLoop (swapOperands m) (Op.swap op) (!pf) st fis = extractLoop m op pf st fis := by
  induction fis generalizing st with
  | nil => rfl
  | cons fi fis ih =>
    simp only [extractLoop]
    rw [extractFace_swap]
    cases extractFace m op pf st fi with
    | exn _ => rfl
    | ub _ => rfl
    | ok st' => simp only [ok_bind]; exact ih st'

theorem extract_swap (m : Soup P (MixedData D)) (op : Op) (pf : Bool) :
    extract (swapOperands m) (Op.swap op) (!pf) = extract m op pf := by
  unfold extract
  have := extractLoop_swap m op pf (List.range m.faces.length)
    (⟨Soup.empty, List.replicate m.points.length none⟩ : ExtractState P D)
  rw [← this]; rfl

theorem complement_fullOrEmpty (b : Bool) :
    complement (fullOrEmpty b : Region P D) = fullOrEmpty (!b) := by cases b <;> rfl

theorem apply_compl (op : Op) (a b : Bool) : applyOp (Op.compl op) a b = !applyOp op a b := by
  cases op <;> cases a <;> cases b <;> rfl

theorem apply_swap (op : Op) (a b : Bool) : applyOp (Op.swap op) b a = applyOp op a b := by
  cases op <;> cases a <;> cases b <;> rfl

theorem run_compl (bb : Builder P D) (op : Op) (pf : Bool) :
    bb.run (Op.compl op) pf = mapOutcome complement (bb.run op pf) := by
  unfold Builder.run
  rw [extract_compl]
  cases extract bb.m op pf with
  | exn _ => rfl
  | ub _ => rfl
  | ok s =>
    simp only [mapOutcome, ok_bind]
    by_cases hne : s.faces.length ≠ 0
    · have : (flipSoup s).faces.length ≠ 0 := by simpa [flipSoup] using hne
      rw [if_pos hne, if_pos this]
      unfold Region.ofSoup
      rw [if_neg hne, if_neg this]; rfl
    · have : ¬ (flipSoup s).faces.length ≠ 0 := by simpa [flipSoup] using hne
      rw [if_neg hne, if_neg this]
      split
      · simp only [pure_eq, complement_fullOrEmpty, apply_compl]
      · split
        · simp only [pure_eq, complement_fullOrEmpty, apply_compl]
        · generalize List.all _ (fun d : MixedData D => d.tag == Tag.coplanar) = x
          generalize List.all _ (fun d : MixedData D => d.tag == Tag.opposite) = y
          cases op <;> cases x <;> cases y <;> rfl

theorem run_swap (bb : Builder P D) (op : Op) (pf : Bool) :
    (⟨bb.secondKind, bb.firstKind, swapOperands bb.m⟩ : Builder P D).run (Op.swap op) (!pf) = bb.run op pf := by
  unfold Builder.run
  simp only
  rw [extract_swap]
  cases extract bb.m op pf with
  | exn _ => rfl
  | ub _ => rfl
  | ok s =>
    simp only [ok_bind]
    have htag : ∀ t : Tag, ((swapOperands bb.m).data.take (swapOperands bb.m).faces.length).all (fun d => d.tag == t) =
        (bb.m.data.take bb.m.faces.length).all (fun d => d.tag == t) := by
      intro t
      simp only [swapOperands, ← List.map_take, List.all_map]
      rfl
    rw [htag, htag]
    split
    · rfl
    · generalize List.all _ (fun d : MixedData D => d.tag == Tag.coplanar) = x
      generalize List.all _ (fun d : MixedData D => d.tag == Tag.opposite) = y
      simp only [apply_swap]
      cases bb.firstKind <;> cases bb.secondKind <;> try rfl
      cases op <;> cases x <;> cases y <;> rfl

end Kigumi

import Verif.Proofs.Arrangement
/-! Helper lemmas for the Boolean region builder. -/
namespace Kigumi
open Spec Outcome
variable {P Cell D : Type}

theorem forall₂_left_mem {α β : Type} {R : α → β → Prop} {l : List α} {l' : List β} (h : List.Forall₂ R l l') :
    ∀ a ∈ l, ∃ b, R a b := by
  induction h with
  | nil => simp
  | cons h _ ih =>
    intro a ha
    rcases List.mem_cons.1 ha with rfl | ha
    · exact ⟨_, h⟩
    · exact ih a ha

theorem forall₂_right_mem {α β : Type} {R : α → β → Prop} {l : List α} {l' : List β} (h : List.Forall₂ R l l') :
    ∀ b ∈ l', ∃ a ∈ l, R a b := by
  induction h with
  | nil => simp
  | cons h _ ih =>
    intro b hb
    rcases List.mem_cons.1 hb with rfl | hb
    · exact ⟨_, List.mem_cons_self, h⟩
    · obtain ⟨a, ha, h'⟩ := ih b hb
      exact ⟨a, List.mem_cons_of_mem _ ha, h'⟩

theorem HasCorners.wf {m : Soup P D} {ts : List (Tri P)} (h : HasCorners m.points m.faces ts)
    (hd : m.data.length = m.faces.length) : m.WF := by
  refine ⟨hd, ?_⟩
  intro f hf v hv
  obtain ⟨t, h1, h2, h3⟩ := forall₂_left_mem h f hf
  have key : ∀ (i : Nat) (p : P), m.points[i]? = some p → i < m.points.length := by
    intro i p e
    by_contra hc
    rw [List.getElem?_eq_none (by omega)] at e; simp at e
  simp only [Tri.toList, List.mem_cons, List.not_mem_nil, or_false] at hv
  rcases hv with rfl | rfl | rfl
  · exact key _ _ h1
  · exact key _ _ h2
  · exact key _ _ h3

/-- `f` has corner coordinates `t`. -/
def Corner (points : List P) (f : Tri Nat) (t : Tri P) : Prop :=
  points[f.a]? = some t.a ∧ points[f.b]? = some t.b ∧ points[f.c]? = some t.c

theorem Corner.flip {points : List P} {f : Tri Nat} {t : Tri P} (h : Corner points f t) :
    Corner points f.flip t.flip := ⟨h.1, h.2.2, h.2.1⟩

theorem selected_corners {m : Soup P (MixedData D)} {ts : List (Tri P)} (h : HasCorners m.points m.faces ts)
    (op : Op) (pf : Bool) :
    List.Forall₂ (Corner m.points) ((selected m op pf).map Prod.fst) (outTris ts m.data op pf) := by
  unfold selected outTris
  have key : ∀ (fs : List (Tri Nat)) (ts : List (Tri P)), List.Forall₂ (Corner m.points) fs ts →
      ∀ ds : List (MixedData D), List.Forall₂ (Corner m.points)
        (((fs.zip ds).filterMap fun x => (select op pf x.2.fromLeft x.2.tag).map
          fun inv => (if inv then x.1.flip else x.1, x.2.data)).map Prod.fst)
        ((ts.zip ds).filterMap fun x => (select op pf x.2.fromLeft x.2.tag).map
          fun inv => if inv then x.1.flip else x.1) := by
    intro fs ts h
    induction h with
    | nil => intro ds; simp
    | cons hc _ ih =>
      intro ds
      cases ds with
      | nil => simp
      | cons d ds =>
        simp only [List.zip_cons_cons, List.filterMap_cons]
        cases hs : select op pf d.fromLeft d.tag with
        | none => simpa using ih ds
        | some inv =>
          simp only [Option.map_some, List.map_cons]
          refine List.Forall₂.cons ?_ (ih ds)
          cases inv
          · simpa using hc
          · simpa using hc.flip
  exact key _ _ h _

theorem via_corner {m : List P} {s : List P} {σ : List Nat}
    (hp : ∀ w v : Nat, σ[w]? = some v → v < m.length ∧ s[w]? = m[v]?)
    {f g : Tri Nat} {t : Tri P} (hv : Via σ f g) (hc : Corner m g t) : Corner s f t := by
  obtain ⟨h1, h2, h3⟩ := hv
  obtain ⟨c1, c2, c3⟩ := hc
  exact ⟨by rw [(hp _ _ h1).2]; exact c1, by rw [(hp _ _ h2).2]; exact c2, by rw [(hp _ _ h3).2]; exact c3⟩

theorem forall₂_comp {α β γ : Type} {R : α → β → Prop} {S : β → γ → Prop} {T : α → γ → Prop}
    (hT : ∀ a b c, R a b → S b c → T a c) {l1 : List α} {l2 : List β} {l3 : List γ}
    (h1 : List.Forall₂ R l1 l2) (h2 : List.Forall₂ S l2 l3) : List.Forall₂ T l1 l3 := by
  induction h1 generalizing l3 with
  | nil => cases h2; exact .nil
  | cons h _ ih => cases h2 with | cons h' h2 => exact .cons (hT _ _ _ h h') (ih h2)

theorem extract_corners {m : Soup P (MixedData D)} {ts : List (Tri P)} (h : HasCorners m.points m.faces ts)
    (hd : m.data.length = m.faces.length) (op : Op) (pf : Bool) :
    ∃ s : Soup P D, extract m op pf = ok s ∧ HasCorners s.points s.faces (outTris ts m.data op pf) ∧
      s.data = (selected m op pf).map Prod.snd ∧ s.WF := by
  obtain ⟨s, σ, e, _, hlen, hp, hf, hdat, _⟩ := extract_main (HasCorners.wf h hd) op pf
  have hc : HasCorners s.points s.faces (outTris ts m.data op pf) :=
    forall₂_comp (R := Via σ) (S := Corner m.points) (T := Corner s.points)
      (fun a b c hv hc => via_corner hp hv hc) hf (selected_corners h op pf)
  refine ⟨s, e, hc, hdat, HasCorners.wf hc ?_⟩
  rw [hdat, hf.length_eq]; simp

theorem connected_const {ar : Arrangement P Cell} (hc : ar.Connected) {χ : Cell → Bool}
    (h : ∀ w, χ (ar.behind w) = χ (ar.front w)) (c d : Cell) : χ c = χ d := by
  have := hc c d
  induction this with
  | refl => rfl
  | tail _ hadj ih =>
    obtain ⟨w, ⟨h1, h2⟩ | ⟨h1, h2⟩⟩ := hadj
    · rw [ih, ← h1, ← h2, h w]
    · rw [ih, ← h1, ← h2, h w]

theorem bounds_nil [DecidableEq P] {ar : Arrangement P Cell} {χ : Cell → Bool} (h : Bounds ar ([] : List (Tri P)) χ) :
    ∀ w, χ (ar.behind w) = χ (ar.front w) := by
  intro w
  have h1 := (h.2 w).1
  have h2 := (h.2 w).2
  simp only [List.countP_nil] at h1 h2
  revert h1 h2
  generalize χ (ar.behind w) = a
  generalize χ (ar.front w) = b
  cases a <;> cases b <;> simp

theorem bounds_values [DecidableEq P] {ar : Arrangement P Cell} {χ : Cell → Bool} {ts : List (Tri P)}
    (h : Bounds ar ts χ) (hne : ts ≠ []) : (∃ c, χ c = true) ∧ ∃ c, χ c = false := by
  obtain ⟨t, ht⟩ := List.exists_mem_of_ne_nil _ hne
  obtain ⟨w, hw | hw⟩ := h.1 t ht
  · have := (h.pos_iff w).1 ⟨t, ht, hw⟩
    simp only [Bool.and_eq_true, Bool.not_eq_true'] at this
    exact ⟨⟨_, this.1⟩, ⟨_, this.2⟩⟩
  · have := (h.neg_iff w).1 ⟨t, ht, hw⟩
    simp only [Bool.and_eq_true, Bool.not_eq_true'] at this
    exact ⟨⟨_, this.1⟩, ⟨_, this.2⟩⟩

/-- What the kinds stored in the builder promise. -/
def KindOk (k : Kind) (χ : Cell → Bool) (ts : List (Tri P)) : Prop :=
  match k with
  | .empty => ∀ c, χ c = false
  | .full => ∀ c, χ c = true
  | .boundaryDefined => ts ≠ []

theorem represents_fullOrEmpty [DecidableEq P] (ar : Arrangement P Cell) (b : Bool) (χ : Cell → Bool) (h : ∀ c, χ c = b) :
    Represents ar (fullOrEmpty b : Region P D) χ := by
  cases b <;> simpa [fullOrEmpty, Represents, Region.fullRegion, Region.emptyRegion] using h

theorem zip_data {ts : List (Tri P)} {data : List (MixedData D)} (h : ts.length = data.length) :
    ∀ d ∈ data, ∃ t, (t, d) ∈ ts.zip data := by
  intro d hd
  obtain ⟨i, hi, rfl⟩ := List.getElem_of_mem hd
  exact ⟨ts[i]'(by omega), by rw [List.mem_iff_getElem]; exact ⟨i, by simp; omega, by simp⟩⟩

theorem run_correct [DecidableEq P] {ar : Arrangement P Cell} (hconn : ar.Connected) {bb : Builder P D}
    {χA χB : Cell → Bool} {ts : List (Tri P)} (hd : bb.m.data.length = bb.m.faces.length)
    (hcor : HasCorners bb.m.points bb.m.faces ts)
    (hA : Bounds ar (operandTris ts bb.m.data true) χA) (hB : Bounds ar (operandTris ts bb.m.data false) χB)
    (htag : ∀ x ∈ ts.zip bb.m.data,
      TagTrue ar x.1 (operandTris ts bb.m.data (!x.2.fromLeft)) (if x.2.fromLeft then χB else χA) x.2.tag)
    (hkA : KindOk bb.firstKind χA (operandTris ts bb.m.data true))
    (hkB : KindOk bb.secondKind χB (operandTris ts bb.m.data false)) (op : Op) (pf : Bool) :
    ∃ r, bb.run op pf = ok r ∧ Represents ar r (fun c => truth op (χA c) (χB c)) ∧ r.boundary.WF := by
  obtain ⟨s, e, hs, hdat, hwf⟩ := extract_corners hcor hd op pf
  have hb := outTris_bounds hA hB htag op pf
  unfold Builder.run
  rw [e, ok_bind]
  by_cases hne : s.faces.length ≠ 0
  · rw [if_pos hne]
    have hne' : s.faces ≠ [] := by rintro h; simp [h] at hne
    refine ⟨⟨.boundaryDefined, s⟩, ?_, ?_, hwf⟩
    · simp [Region.ofSoup, hne']
    · exact ⟨hne', _, hs, hb⟩
  rw [if_neg hne]
  have hemptyWF : ∀ b, (fullOrEmpty b : Region P D).boundary.WF := by
    intro b; cases b <;> simp [fullOrEmpty, Region.fullRegion, Region.emptyRegion, Soup.empty, Soup.WF]
  have hnil : outTris ts bb.m.data op pf = [] := by
    have := hs.length_eq
    rw [not_not] at hne
    rw [hne] at this
    exact List.length_eq_zero_iff.1 this.symm
  rw [hnil] at hb
  have hconst : ∀ c d, truth op (χA c) (χB c) = truth op (χA d) (χB d) :=
    connected_const (χ := fun c => truth op (χA c) (χB c)) hconn (bounds_nil hb)
  -- reduce a constant claim to one cell
  have viaCell : ∀ (b : Bool) (c : Cell), truth op (χA c) (χB c) = b →
      Represents ar (fullOrEmpty b : Region P D) (fun c => truth op (χA c) (χB c)) := by
    intro b c hcb
    exact represents_fullOrEmpty ar b _ (fun d => by rw [hconst d c, hcb])
  have okRet : ∀ (b : Bool) (c : Cell), truth op (χA c) (χB c) = b →
      ∃ r, (ok (fullOrEmpty b) : Outcome (Region P D)) = ok r ∧
        Represents ar r (fun c => truth op (χA c) (χB c)) ∧ r.boundary.WF :=
    fun b c hcb => ⟨_, rfl, viaCell b c hcb, hemptyWF b⟩
  have okAll : ∀ (b : Bool), (∀ c, truth op (χA c) (χB c) = b) →
      ∃ r, (ok (fullOrEmpty b) : Outcome (Region P D)) = ok r ∧
        Represents ar r (fun c => truth op (χA c) (χB c)) ∧ r.boundary.WF :=
    fun b hcb => ⟨_, rfl, represents_fullOrEmpty ar b _ hcb, hemptyWF b⟩
  cases hk1 : bb.firstKind <;> cases hk2 : bb.secondKind <;> rw [hk1] at hkA <;> rw [hk2] at hkB <;>
    simp only [reduceCtorEq, or_self, or_true, or_false, if_true, if_false, pure_eq] <;>
    simp only [KindOk] at hkA hkB
  · exact okAll _ (fun c => by rw [hkA c, hkB c, truth_eq_apply]; rfl)
  · exact okAll _ (fun c => by rw [hkA c, hkB c, truth_eq_apply]; rfl)
  · obtain ⟨⟨c, hc⟩, _⟩ := bounds_values hB hkB
    exact okRet _ c (by rw [hkA c, hc, truth_eq_apply]; rfl)
  · exact okAll _ (fun c => by rw [hkA c, hkB c, truth_eq_apply]; rfl)
  · exact okAll _ (fun c => by rw [hkA c, hkB c, truth_eq_apply]; rfl)
  · obtain ⟨_, ⟨c, hc⟩⟩ := bounds_values hB hkB
    exact okRet _ c (by rw [hkA c, hc, truth_eq_apply]; rfl)
  · obtain ⟨⟨c, hc⟩, _⟩ := bounds_values hA hkA
    exact okRet _ c (by rw [hkB c, hc, truth_eq_apply]; rfl)
  · obtain ⟨_, ⟨c, hc⟩⟩ := bounds_values hA hkA
    exact okRet _ c (by rw [hkB c, hc, truth_eq_apply]; rfl)
  · -- both boundary-defined
    obtain ⟨⟨a1, ha1⟩, ⟨a0, ha0⟩⟩ := bounds_values hA hkA
    obtain ⟨⟨b1, hb1⟩, ⟨b0, hb0⟩⟩ := bounds_values hB hkB
    have c10 := hconst a1 a0
    have d10 := hconst b1 b0
    have cf : ∀ b : Bool, (fullOrEmpty b : Region P D) = if b then Region.fullRegion else Region.emptyRegion :=
      fun _ => rfl
    have full : (∃ c, truth op (χA c) (χB c) = true) →
        ∃ r, (ok Region.fullRegion : Outcome (Region P D)) = ok r ∧
          Represents ar r (fun c => truth op (χA c) (χB c)) ∧ r.boundary.WF :=
      fun ⟨c, hc⟩ => okRet true c hc
    have emp : (∃ c, truth op (χA c) (χB c) = false) →
        ∃ r, (ok Region.emptyRegion : Outcome (Region P D)) = ok r ∧
          Represents ar r (fun c => truth op (χA c) (χB c)) ∧ r.boundary.WF :=
      fun ⟨c, hc⟩ => okRet false c hc
    -- tags in the E / J case
    have hlen : ts.length = bb.m.data.length := by rw [hd]; exact hcor.length_eq.symm
    have htake : bb.m.data.take bb.m.faces.length = bb.m.data := by rw [← hd]; simp
    have wallOf : ∀ x ∈ ts.zip bb.m.data, ∃ w, SameTri (ar.tri w) x.1 ∨ SameTri (ar.tri w).flip x.1 := by
      intro x hx
      have hm := mem_operand hx
      cases hl : x.2.fromLeft
      · rw [hl] at hm; exact hB.1 _ hm
      · rw [hl] at hm; exact hA.1 _ hm
    have jumpOf : ∀ x ∈ ts.zip bb.m.data, ∀ w,
        (SameTri (ar.tri w) x.1 → (if x.2.fromLeft then χA else χB) (ar.behind w) = true ∧
          (if x.2.fromLeft then χA else χB) (ar.front w) = false) ∧
        (SameTri (ar.tri w).flip x.1 → (if x.2.fromLeft then χA else χB) (ar.behind w) = false ∧
          (if x.2.fromLeft then χA else χB) (ar.front w) = true) := by
      intro x hx w
      have hm := mem_operand hx
      cases hl : x.2.fromLeft
      · rw [hl] at hm
        refine ⟨fun h => ?_, fun h => ?_⟩
        · have := (hB.pos_iff w).1 ⟨_, hm, h⟩; simpa using this
        · have := (hB.neg_iff w).1 ⟨_, hm, h⟩; simpa [and_comm] using this
      · rw [hl] at hm
        refine ⟨fun h => ?_, fun h => ?_⟩
        · have := (hA.pos_iff w).1 ⟨_, hm, h⟩; simpa using this
        · have := (hA.neg_iff w).1 ⟨_, hm, h⟩; simpa [and_comm] using this
    have tagOf : ∀ x ∈ ts.zip bb.m.data, ∀ w,
        (SameTri (ar.tri w) x.1 → x.2.tag = tagAt true ((if x.2.fromLeft then χB else χA) (ar.behind w))
          ((if x.2.fromLeft then χB else χA) (ar.front w))) ∧
        (SameTri (ar.tri w).flip x.1 → x.2.tag = tagAt false ((if x.2.fromLeft then χB else χA) (ar.behind w))
          ((if x.2.fromLeft then χB else χA) (ar.front w))) := by
      intro x hx w
      have ht := htag x hx
      have hbo : Bounds ar (operandTris ts bb.m.data (!x.2.fromLeft)) (if x.2.fromLeft then χB else χA) := by
        cases hl : x.2.fromLeft
        · simpa using hA
        · simpa using hB
      exact ⟨fun h => tag_eq_pos ht hbo h, fun h => tag_eq_neg ht hbo h⟩
    have eqCop : (∀ c, χA c = χB c) → ∀ d ∈ bb.m.data, d.tag = .coplanar := by
      intro heq d hdm
      obtain ⟨t, hx⟩ := zip_data hlen d hdm
      obtain ⟨w, hw | hw⟩ := wallOf _ hx
      · have h1 := (jumpOf _ hx w).1 hw
        have h2 := (tagOf _ hx w).1 hw
        simp only at h1 h2
        rw [h2]
        cases hl : d.fromLeft <;> simp [hl, heq] at h1 ⊢ <;> simp [h1, tagAt]
      · have h1 := (jumpOf _ hx w).2 hw
        have h2 := (tagOf _ hx w).2 hw
        simp only at h1 h2
        rw [h2]
        cases hl : d.fromLeft <;> simp [hl, heq] at h1 ⊢ <;> simp [h1, tagAt]
    have eqOpp : (∀ c, χA c = !χB c) → ∀ d ∈ bb.m.data, d.tag = .opposite := by
      intro heq d hdm
      obtain ⟨t, hx⟩ := zip_data hlen d hdm
      obtain ⟨w, hw | hw⟩ := wallOf _ hx
      · have h1 := (jumpOf _ hx w).1 hw
        have h2 := (tagOf _ hx w).1 hw
        simp only at h1 h2
        rw [h2]
        cases hl : d.fromLeft <;> simp [hl, heq] at h1 ⊢ <;> simp [h1, tagAt]
      · have h1 := (jumpOf _ hx w).2 hw
        have h2 := (tagOf _ hx w).2 hw
        simp only at h1 h2
        rw [h2]
        cases hl : d.fromLeft <;> simp [hl, heq] at h1 ⊢ <;> simp [h1, tagAt]
    have hdne : bb.m.data ≠ [] := by
      intro h; apply hkA; simp [operandTris, h]
    obtain ⟨d0, hd0⟩ := List.exists_mem_of_ne_nil _ hdne
    have EJ : op = .E ∨ op = .J → ∃ r, (if bb.m.data.all (fun d => d.tag == .coplanar) then
          (ok (fullOrEmpty (applyOp op false false)) : Outcome (Region P D))
        else if bb.m.data.all (fun d => d.tag == .opposite) then ok (fullOrEmpty (applyOp op false true))
        else .exn "input meshes are inconsistently oriented") = ok r ∧
        Represents ar r (fun c => truth op (χA c) (χB c)) ∧ r.boundary.WF := by
      intro hop
      have dich : (∀ c, χA c = χB c) ∨ ∀ c, χA c = !χB c := by
        by_cases hh : χA a0 = χB a0
        · left; intro c
          have := hconst c a0
          rcases hop with rfl | rfl <;> revert this hh <;> simp only [truth_eq_apply, applyOp] <;>
            cases χA c <;> cases χB c <;> cases χA a0 <;> cases χB a0 <;> simp
        · right; intro c
          have := hconst c a0
          rcases hop with rfl | rfl <;> revert this hh <;> simp only [truth_eq_apply, applyOp] <;>
            cases χA c <;> cases χB c <;> cases χA a0 <;> cases χB a0 <;> simp
      rcases dich with heq | heq
      · have hall : bb.m.data.all (fun d => d.tag == .coplanar) = true := by
          rw [List.all_eq_true]; intro d hd'; rw [eqCop heq d hd']; rfl
        rw [if_pos hall]
        exact okAll _ (fun c => by
          rw [truth_eq_apply, heq c]; rcases hop with rfl | rfl <;> cases χB c <;> rfl)
      · have hall : bb.m.data.all (fun d => d.tag == .opposite) = true := by
          rw [List.all_eq_true]; intro d hd'; rw [eqOpp heq d hd']; rfl
        have hnall : ¬ bb.m.data.all (fun d => d.tag == .coplanar) = true := by
          rw [List.all_eq_true]
          intro h
          have := h d0 hd0
          rw [eqOpp heq d0 hd0] at this
          exact absurd this (by decide)
        rw [if_neg hnall, if_pos hall]
        exact okAll _ (fun c => by
          rw [truth_eq_apply, heq c]; rcases hop with rfl | rfl <;> cases χB c <;> rfl)
    rw [htake]
    cases op
    case V => exact full ⟨a1, by rw [truth_eq_apply]; rfl⟩
    case A => exact full ⟨a1, by rw [truth_eq_apply, ha1]; rfl⟩
    case B => exact full ⟨a1, by rw [truth_eq_apply, ha1]; rfl⟩
    case C => exact full ⟨a0, by rw [truth_eq_apply, ha0]; rfl⟩
    case D => exact full ⟨a0, by rw [truth_eq_apply, ha0]; rfl⟩
    case E => exact EJ (Or.inl rfl)
    case J => exact EJ (Or.inr rfl)
    case K => exact emp ⟨a0, by rw [truth_eq_apply, ha0]; rfl⟩
    case L => exact emp ⟨a0, by rw [truth_eq_apply, ha0]; rfl⟩
    case M => exact emp ⟨a1, by rw [truth_eq_apply, ha1]; rfl⟩
    case X => exact emp ⟨a1, by rw [truth_eq_apply, ha1]; rfl⟩
    case O => exact emp ⟨a1, by rw [truth_eq_apply]; rfl⟩
    case F => rw [truth_eq_apply, truth_eq_apply, ha1, ha0] at c10; exact absurd c10 (by simp [applyOp])
    case G => rw [truth_eq_apply, truth_eq_apply, hb1, hb0] at d10; exact absurd d10 (by simp [applyOp])
    case H => rw [truth_eq_apply, truth_eq_apply, hb1, hb0] at d10; exact absurd d10 (by simp [applyOp])
    case I => rw [truth_eq_apply, truth_eq_apply, ha1, ha0] at c10; exact absurd c10 (by simp [applyOp])

end Kigumi

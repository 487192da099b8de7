import Verif.Proofs.Volume
import Verif.Props.Solid

/-!
# Volumes of sets of cells
-/
namespace Kigumi.Space
open Kigumi Geo Spec.Triangles Spec.Side FaceFace Outcome
open Kigumi.Spec (SameTri Arrangement HasCorners operandTris truth onSets TagTrue RegionInv)
variable {D : Type}

theorem cone_rot (o : P3) (t : Tri P3) : cone o t.rot = cone o t := by
  simp only [cone, outward, Tri.rot]; ring

theorem cone_flip (o : P3) (t : Tri P3) : cone o t.flip = -cone o t := by
  simp only [cone, outward, Tri.flip]; ring

theorem cone_same (o : P3) {t u : Tri P3} (h : SameTri t u) : cone o u = cone o t := by
  rcases h with rfl | rfl | rfl
  · rfl
  · exact cone_rot o t
  · rw [cone_rot, cone_rot]

/-- One inside, zero outside. -/
def ind (b : Bool) : ℚ := if b then 1 else 0

theorem same_mem {t u : Tri P3} (h : SameTri t u ∨ SameTri t.flip u) (x : P3) : x ∈ t.toList ↔ x ∈ u.toList := by
  rcases h with (rfl | rfl | rfl) | (rfl | rfl | rfl) <;> simp only [Tri.toList, Tri.rot, Tri.flip, List.mem_cons, List.not_mem_nil, or_false] <;> tauto

/-- The volume inside is a sum over the walls. -/
theorem enclosed_walls {Cell : Type} {ar : Arrangement P3 Cell} [Fintype ar.Wall] (o : P3) {ts : List (Tri P3)} (h : ∀ t ∈ ts, ∃ w, SameTri (ar.tri w) t ∨ SameTri (ar.tri w).flip t) :
    enclosed o ts = ∑ w, cone o (ar.tri w) * ((ts.countP (fun t => SameTri (ar.tri w) t) : ℚ) - (ts.countP (fun t => SameTri (ar.tri w).flip t) : ℚ)) := by
  induction ts with
  | nil => simp [enclosed]
  | cons t ts ih =>
    have ih := ih fun t ht => h t (List.mem_cons_of_mem _ ht)
    have one : cone o t = ∑ w, cone o (ar.tri w) * ((if SameTri (ar.tri w) t then (1 : ℚ) else 0) - (if SameTri (ar.tri w).flip t then (1 : ℚ) else 0)) := by
      obtain ⟨w0, hw0⟩ := h t (List.mem_cons_self ..)
      rw [Finset.sum_eq_single w0]
      · by_cases h1 : SameTri (ar.tri w0) t <;> by_cases h2 : SameTri (ar.tri w0).flip t
        · have e1 := cone_same o h1
          have e2 := cone_same o h2
          rw [cone_flip] at e2
          rw [if_pos h1, if_pos h2]; linarith
        · rw [if_pos h1, if_neg h2, cone_same o h1]; ring
        · rw [if_neg h1, if_pos h2, cone_same o h2, cone_flip]; ring
        · exact absurd hw0 (by tauto)
      · intro w _ hne
        have no : ¬ (SameTri (ar.tri w) t ∨ SameTri (ar.tri w).flip t) := fun hw => hne (ar.support _ _ fun x => (same_mem hw x).trans (same_mem hw0 x).symm)
        rw [if_neg (fun h => no (Or.inl h)), if_neg (fun h => no (Or.inr h))]; ring
      · intro hn; exact absurd (Finset.mem_univ _) hn
    have e : enclosed o (t :: ts) = cone o t + enclosed o ts := by simp [enclosed]
    rw [e, ih, one, ← Finset.sum_add_distrib]
    refine Finset.sum_congr rfl fun w _ => ?_
    rw [List.countP_cons, List.countP_cons]
    push_cast
    simp only [decide_eq_true_eq]
    ring

theorem enclosed_bounds {Cell : Type} {ar : Arrangement P3 Cell} [Fintype ar.Wall] (o : P3) {ts : List (Tri P3)} {χ : Cell → Bool} (h : Spec.Bounds ar ts χ) :
    enclosed o ts = ∑ w, cone o (ar.tri w) * (ind (χ (ar.behind w)) - ind (χ (ar.front w))) := by
  rw [enclosed_walls o h.1]
  refine Finset.sum_congr rfl fun w _ => ?_
  obtain ⟨h1, h2⟩ := h.2 w
  rw [h1, h2]
  cases χ (ar.behind w) <;> cases χ (ar.front w) <;> simp [ind]

theorem cornersOf_eq {points : List P3} {faces : List (Tri Nat)} {ts : List (Tri P3)} (h : HasCorners points faces ts) : faces.map (cornersOf points) = ts := by
  induction h with
  | nil => rfl
  | cons h _ ih =>
    rw [List.map_cons, ih]
    unfold cornersOf
    rw [h.1, h.2.1, h.2.2]; rfl

theorem volume_corners {r : Region P3 D} {ts : List (Tri P3)} (h : HasCorners r.boundary.points r.boundary.faces ts) (o : P3) : volume o r = enclosed o ts := by
  unfold volume; rw [cornersOf_eq h]

/-- The volume of a region that represents a set of cells. -/
theorem volume_represents {Cell : Type} {ar : Arrangement P3 Cell} [Fintype ar.Wall] (o : P3) {r : Region P3 D} (hi : RegionInv r) {χ : Cell → Bool} (h : Spec.Represents ar r χ) :
    volume o r = ∑ w, cone o (ar.tri w) * (ind (χ (ar.behind w)) - ind (χ (ar.front w))) := by
  unfold Spec.Represents at h
  unfold RegionInv at hi
  cases hk : r.kind <;> rw [hk] at h hi <;> simp only at h hi
  · rw [Finset.sum_eq_zero fun w _ => by rw [h, h]; ring]
    unfold volume; rw [hi]; rfl
  · rw [Finset.sum_eq_zero fun w _ => by rw [h, h]; ring]
    unfold volume; rw [hi]; rfl
  · obtain ⟨-, ts, hc, hb⟩ := h
    rw [volume_corners hc, enclosed_bounds o hb]

noncomputable instance wallFintype {K : P3 → Prop} {W : List (Tri P3)} (hW : Split K W) : Fintype (arr W hW).Wall := by
  classical
  show Fintype { i : Fin W.length // ∀ j : Fin W.length, j < i → ¬ Match W[j] W[i] }
  infer_instance

/-- The result of an operation, as a set of cells; compare `run_in`. -/
theorem run_cells {K : P3 → Prop} {bb : Builder P3 D} {ts : List (Tri P3)} {χ : Bool → P3 → Prop} (hc : Cut K bb.m ts χ) (ht : Tagged bb.m ts χ)
    (hkA : KindIn K bb.firstKind (χ true) (operandTris ts bb.m.data true)) (hkB : KindIn K bb.secondKind (χ false) (operandTris ts bb.m.data false)) (op : Op) (pf : Bool) :
    ∃ r, bb.run op pf = ok r ∧ Spec.Represents (arr ts ⟨hc.zone, hc.complex, hc.within⟩) r
      (fun c => truth op (lower (part_operand ts bb.m.data true) (hc.bounds true) c) (lower (part_operand ts bb.m.data false) (hc.bounds false) c)) := by
  have hW : Split K ts := ⟨hc.zone, hc.complex, hc.within⟩
  have hp := fun b => part_operand ts bb.m.data b
  have hkind : ∀ (k : Kind) (b : Bool), KindIn K k (χ b) (operandTris ts bb.m.data b) → KindOk k (lower (hp b) (hc.bounds b)) (operandTris ts bb.m.data b) := by
    intro k b h
    cases k with
    | empty =>
      intro c
      obtain ⟨x, hx, rfl⟩ := cellOf_surj c
      rw [← Bool.not_eq_true, lower_cell]; exact h x hx.1
    | full =>
      intro c
      obtain ⟨x, hx, rfl⟩ := cellOf_surj c
      rw [lower_cell]; exact h x hx.1
    | boundaryDefined => exact h
  obtain ⟨r, hr, hrep, -⟩ := run_correct (arr_connected hW) hc.data hc.corners (bounds_of_region hW (hp true) (hc.once true) (hc.bounds true))
    (bounds_of_region hW (hp false) (hc.once false) (hc.bounds false)) (by
      intro x hx
      have h1 : ∀ b, b = (!x.2.fromLeft) → TagTrue (arr ts hW) x.1 (operandTris ts bb.m.data b) (lower (hp b) (hc.bounds b)) x.2.tag := by
        rintro b rfl
        exact tagTrue_of_right hW (List.of_mem_zip hx).1 (hp (!x.2.fromLeft)) (hc.once _) (hc.bounds _) (ht x hx)
      cases hb : x.2.fromLeft
      · rw [if_neg (by simp)]
        exact h1 true (by rw [hb]; rfl)
      · rw [if_pos rfl]
        exact h1 false (by rw [hb]; rfl))
    (hkind _ true hkA) (hkind _ false hkB) op pf
  exact ⟨r, hr, hrep⟩

/-- There are numbers for the walls of the two operands which give the volumes of the operands and of all results. -/
theorem volumes_in {K : P3 → Prop} (hK : Zone K) {cut : Soup P3 D → Soup P3 D → Soup P3 (MixedData D) → List (Nat × Nat) → Prop} {orig : Bool → List (Tri P3)} {χ : Bool → P3 → Prop} {a b : Region P3 D}
    (hcut : a.kind = .boundaryDefined → b.kind = .boundaryDefined → ∀ m0 border, cut a.boundary b.boundary m0 border → ∃ ts, Corefined orig m0 ts border ∧ Clear K m0.faces (Mix.pts m0.points) (Mix.owner m0.data) border)
    (ha : IsSolidIn K a (orig true) (χ true)) (hb : IsSolidIn K b (orig false) (χ false)) {E : Mix.Env} (hE : E.Valid orig) {bb : Builder P3 D} {w : Global.Warnings} (h : Mix.Built E cut a b bb w) (o : P3) :
    ∃ (n : Nat) (v : Fin n → ℚ) (p q : Fin n → Bool × Bool), volume o a = ∑ i, v i * (ind (p i).1 - ind (q i).1) ∧ volume o b = ∑ i, v i * (ind (p i).2 - ind (q i).2) ∧
      ∀ op pf r, bb.run op pf = ok r → volume o r = ∑ i, v i * (ind (truth op (p i).1 (p i).2) - ind (truth op (q i).1 (q i).2)) := by
  have fin : ∀ {W : List (Tri P3)} (hW : Split K W) (χA χB : Cell K W → Bool), volume o a = ∑ w, cone o ((arr W hW).tri w) * (ind (χA ((arr W hW).behind w)) - ind (χA ((arr W hW).front w))) →
      volume o b = ∑ w, cone o ((arr W hW).tri w) * (ind (χB ((arr W hW).behind w)) - ind (χB ((arr W hW).front w))) →
      (∀ op pf r, bb.run op pf = ok r → Spec.Represents (arr W hW) r fun c => truth op (χA c) (χB c)) →
      ∃ (n : Nat) (v : Fin n → ℚ) (p q : Fin n → Bool × Bool), volume o a = ∑ i, v i * (ind (p i).1 - ind (q i).1) ∧ volume o b = ∑ i, v i * (ind (p i).2 - ind (q i).2) ∧
        ∀ op pf r, bb.run op pf = ok r → volume o r = ∑ i, v i * (ind (truth op (p i).1 (p i).2) - ind (truth op (q i).1 (q i).2)) := by
    intro W hW χA χB h1 h2 h3
    let e := Fintype.equivFin (arr W hW).Wall
    refine ⟨_, fun i => cone o ((arr W hW).tri (e.symm i)), fun i => (χA ((arr W hW).behind (e.symm i)), χB ((arr W hW).behind (e.symm i))), fun i => (χA ((arr W hW).front (e.symm i)), χB ((arr W hW).front (e.symm i))), ?_, ?_, ?_⟩
    · rw [h1, ← Equiv.sum_comp e.symm]
    · rw [h2, ← Equiv.sum_comp e.symm]
    · intro op pf r hr
      rw [volume_represents o (run_inv hr) (h3 op pf r hr), ← Equiv.sum_comp e.symm]
  unfold Mix.Built at h
  split at h
  · rename_i hef
    obtain ⟨hmk, rfl⟩ := h
    simp only [Bool.or_eq_true] at hef
    have hW : ∃ W, Split K W ∧ Part W (orig true) ∧ Part W (orig false) := by
      have self : ∀ ts : List (Tri P3), Part ts ts := fun ts t ht => ⟨t, ht, match_refl t⟩
      have nil : ∀ ts : List (Tri P3), Part ts [] := fun ts t ht => by simp at ht
      rcases hef with hef | hef
      · have := Props.solid_nil_in ha hef
        exact ⟨orig false, ⟨hK, hb.complex, hb.within⟩, this ▸ nil _, self _⟩
      · have := Props.solid_nil_in hb hef
        exact ⟨orig true, ⟨hK, ha.complex, ha.within⟩, self _, this ▸ nil _⟩
    obtain ⟨W, hW, p1, p2⟩ := hW
    refine fin hW _ _ (volume_represents o ha.inv (Props.solid_represents hW ha p1)) (volume_represents o hb.inv (Props.solid_represents hW hb p2)) fun op pf r hr => ?_
    obtain ⟨bb', r', h1, h2, h3, h4, h5⟩ := Props.C05_boolean_result_correct (arr_connected hW) (fun _ _ => exn "not called") (fun k1 k2 => by
      rcases hef with hef | hef <;> simp [Region.isEmptyOrFull, Region.isEmpty, Region.isFull, k1, k2] at hef) ha.inv hb.inv ha.wf hb.wf (Props.solid_represents hW ha p1) (Props.solid_represents hW hb p2) op pf
    rw [hmk] at h1; cases h1
    rw [hr] at h2; cases h2
    exact h3
  · rename_i hef
    obtain ⟨m0, border, hc, hres, k1, k2⟩ := h
    simp only [Bool.or_eq_true, not_or, Bool.not_eq_true] at hef
    have kind : ∀ {r : Region P3 D}, r.isEmptyOrFull = false → r.kind = .boundaryDefined := by
      intro r hr
      cases hk : r.kind <;> simp_all [Region.isEmptyOrFull, Region.isEmpty, Region.isFull]
    have ka := kind hef.1
    have kb := kind hef.2
    obtain ⟨ts, hcor, hcl⟩ := hcut ka kb m0 border hc
    have hne : ∀ x : Bool, (if x then a.boundary else b.boundary).faces ≠ [] := by
      intro x
      have ia := ha.inv
      have ib := hb.inv
      simp only [RegionInv, ka, kb] at ia ib
      cases x <;> assumption
    have hok : ∀ b, ∀ t ∈ orig b, Proper t := fun b => by cases b; exacts [hb.complex.proper, ha.complex.proper]
    obtain ⟨hcut', htag, hw⟩ := mixed_in (soup := fun x => if x then a.boundary else b.boundary) hcor hK (fun b => by cases b; exacts [hb.within, ha.within]) hcl (χ := χ) hok
      (fun b => by cases b; exacts [hb.bounds, ha.bounds]) hE (fun b => by cases b; exacts [hb.corners, ha.corners]) hne hres
    have href : ∀ b, ∃ src, Refines (orig b) (operandTris ts bb.m.data b) src := by
      intro b
      obtain ⟨m, edges, tags1, tags2, w1, w2, -, -, -, -, hout, -⟩ := hres
      rw [hout]
      simp only [retag_operand]
      exact hcor.refines b
    have hpieces : ∀ b, operandTris ts bb.m.data b ≠ [] := by
      intro b hnil
      obtain ⟨src, hr⟩ := href b
      rw [hnil] at hr
      have : orig b ≠ [] := by
        cases b
        · have := hb.kind; rwa [kb] at this
        · have := ha.kind; rwa [ka] at this
      obtain ⟨t, ht⟩ := List.exists_mem_of_ne_nil _ this
      obtain ⟨u, hu, -⟩ := (refines_surface hr (centre t)).1 ⟨t, ht, inner_in (inner_centre t)⟩
      simp at hu
    have hW : Split K ts := ⟨hcut'.zone, hcut'.complex, hcut'.within⟩
    have hvol : ∀ b, enclosed o (orig b) = ∑ w, cone o ((arr ts hW).tri w) * (ind (lower (part_operand ts bb.m.data b) (hcut'.bounds b) ((arr ts hW).behind w)) - ind (lower (part_operand ts bb.m.data b) (hcut'.bounds b) ((arr ts hW).front w))) := by
      intro b
      obtain ⟨src, hr⟩ := href b
      rw [← enclosed_refines hr (hok b) (part_complex hcut'.complex (part_operand ts bb.m.data b)) (hcut'.once b) o]
      exact enclosed_bounds o (bounds_of_region hW (part_operand ts bb.m.data b) (hcut'.once b) (hcut'.bounds b))
    refine fin hW _ _ ((volume_corners ha.corners o).trans (hvol true)) ((volume_corners hb.corners o).trans (hvol false)) fun op pf r hr => ?_
    obtain ⟨r', h1, h2⟩ := run_cells hcut' htag (by rw [k1, ka]; exact hpieces true) (by rw [k2, kb]; exact hpieces false) op pf
    rw [hr] at h1; cases h1
    exact h2

end Kigumi.Space

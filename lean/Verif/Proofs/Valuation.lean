import Verif.Props.Volume

/-!
# Volumes of sets with polyhedral boundaries
-/
namespace Kigumi.Props
open Kigumi Outcome Geo Spec.Triangles Spec.Side FaceFace Space
open Kigumi.Spec (SameTri HasCorners operandTris truth onSets RegionInv)
open Kigumi.Corefine (both)
variable {D : Type} {orig : Bool → List (Tri P3)} {χ : Bool → P3 → Prop} {a b : Region P3 D}

/-- Right tags exist. -/
theorem tagged_exists {m : Soup P3 (MixedData D)} {ts : List (Tri P3)} {border : List (Nat × Nat)} (h : CutInto orig m ts border) (hc : Cut Whole m ts χ) :
    ∃ tags : Nat → Tag, Cut Whole { m with data := Mix.retag tags 0 m.data } ts χ ∧ Tagged { m with data := Mix.retag tags 0 m.data } ts χ := by
  classical
  have S := scene_of_cut hc h.points
  have ex : ∀ i, ∃ t, ∀ f, m.faces[i]? = some f → Right m.faces (Mix.pts m.points) (Mix.owner m.data) χ i f t := by
    intro i
    cases hf : m.faces[i]? with
    | none => exact ⟨.unknown, fun f h => by cases h⟩
    | some f =>
      obtain ⟨t, ht⟩ := S.right_exists hf
      exact ⟨t, fun g hg => by cases hg; exact ht⟩
  choose T hT using ex
  refine ⟨T, ⟨?_, h.corners, h.complex, ?_, hc.zone, hc.within, ?_⟩, ?_⟩
  · simp only [retag_length]; exact h.data
  · intro b; simp only [retag_operand]; exact h.once b
  · intro b; simp only [retag_operand]; exact hc.bounds b
  · intro x hx
    simp only [retag_operand] at hx ⊢
    obtain ⟨i, hi⟩ := List.mem_iff_getElem?.1 hx
    rw [List.getElem?_zip_eq_some] at hi
    obtain ⟨f, hf, e⟩ := corner_face h.corners hi.1
    rw [retag_get] at hi
    cases hd : m.data[i]? with
    | none => rw [hd] at hi; simp at hi
    | some d =>
      rw [hd] at hi
      have e2 : x.2 = { d with tag := T (0 + i) } := by simpa using hi.2.symm
      have ho : Mix.owner m.data i = d.fromLeft := by simp [Mix.owner, hd]
      rw [e2, e]
      simp only [Nat.zero_add]
      rw [← ho]
      exact rightTag_of_right h.data h.corners (hT i f hf)

/-- For any two solids there are regions for all operations, and their volumes are the ones of C108. This does not refer to any execution. -/
theorem combined (ha : IsSolid a (orig true) (χ true)) (hb : IsSolid b (orig false) (χ false)) (o : P3) : ∃ res : Op → Region P3 D, ∀ op,
    Denotes (res op) (fun x => x ∈ onSets op {x | χ true x} {x | χ false x}) (fun x => Surface (orig true) x ∨ Surface (orig false) x) ∧
    volume o (res op) = (ind (truth op true false) - ind (truth op false false)) * volume o a + (ind (truth op false true) - ind (truth op false false)) * volume o b +
      (ind (truth op true true) - ind (truth op true false) - ind (truth op false true) + ind (truth op false false)) * volume o (res .intersection) := by
  obtain ⟨m, ts, border, hcut⟩ := cut_exists (s := both a.boundary b.boundary) (solid_operands ha hb)
  have hsol := solid_both ha hb
  obtain ⟨tags, hc, ht⟩ := tagged_exists hcut (cut_in hcut zone_whole (fun _ => within_whole _) (χ := χ) fun c => (hsol c).bounds.whole)
  have href : ∀ c, ∃ src, Refines (orig c) (operandTris ts (Mix.retag tags 0 m.data) c) src := by
    intro c; rw [retag_operand]; exact hcut.refines c
  have kind : ∀ c, KindIn Whole (both a b c).kind (χ c) (operandTris ts (Mix.retag tags 0 m.data) c) := by
    intro c
    have hk := (hsol c).kind
    rw [kindIn_whole]
    unfold KindSays at hk ⊢
    cases h : (both a b c).kind <;> rw [h] at hk <;> simp only at hk ⊢
    · exact hk
    · exact hk
    · intro hnil
      obtain ⟨src, hr⟩ := href c
      rw [hnil] at hr
      obtain ⟨t, ht⟩ := List.exists_mem_of_ne_nil _ hk
      obtain ⟨u, hu, -⟩ := (refines_surface hr (centre t)).1 ⟨t, ht, inner_in (inner_centre t)⟩
      simp at hu
  let bb : Builder P3 D := ⟨a.kind, b.kind, { m with data := Mix.retag tags 0 m.data }⟩
  have hW : Split Whole ts := ⟨hc.zone, hc.complex, hc.within⟩
  have hvol : ∀ c, volume o (both a b c) = ∑ w, cone o ((arr ts hW).tri w) * (ind (lower (part_operand ts (Mix.retag tags 0 m.data) c) (hc.bounds c) ((arr ts hW).behind w)) -
      ind (lower (part_operand ts (Mix.retag tags 0 m.data) c) (hc.bounds c) ((arr ts hW).front w))) := by
    intro c
    obtain ⟨src, hr⟩ := href c
    rw [volume_corners (hsol c).corners, ← enclosed_refines hr (hsol c).complex.proper (part_complex hc.complex (part_operand ts (Mix.retag tags 0 m.data) c)) (hc.once c) o]
    exact enclosed_bounds o (bounds_of_region hW (part_operand ts (Mix.retag tags 0 m.data) c) (hc.once c) (hc.bounds c))
  have surf : ∀ x, Surface ts x → Surface (orig true) x ∨ Surface (orig false) x := by
    rintro x ⟨t, ht, hin⟩
    obtain ⟨i, hi⟩ := List.mem_iff_getElem?.1 ht
    obtain ⟨f, hf, e⟩ := corner_face hcut.corners hi
    have hm := (operand_mem hcut.data hcut.corners).2 ⟨i, f, hf, rfl, e⟩
    obtain ⟨src, hr⟩ := hcut.refines (Mix.owner m.data i)
    have := (refines_surface hr x).2 ⟨t, hm, hin⟩
    cases ho : Mix.owner m.data i <;> rw [ho] at this
    · exact .inr this
    · exact .inl this
  have run : ∀ op, ∃ r, bb.run op false = ok r ∧ Denotes r (fun x => x ∈ onSets op {x | χ true x} {x | χ false x}) (Surface ts) ∧
      Spec.Represents (arr ts hW) r (fun c => truth op (lower (part_operand ts bb.m.data true) (hc.bounds true) c) (lower (part_operand ts bb.m.data false) (hc.bounds false) c)) := by
    intro op
    obtain ⟨r, h1, h2⟩ := run_in (bb := bb) hc ht (kind true) (kind false) op false
    obtain ⟨r', h3, h4⟩ := run_cells (bb := bb) hc ht (kind true) (kind false) op false
    rw [h1] at h3; cases h3
    exact ⟨r, h1, denotesIn_whole.1 h2, h4⟩
  choose res hres using run
  refine ⟨res, fun op => ⟨?_, ?_⟩⟩
  · obtain ⟨ts', χ', h1, h2, h3⟩ := (hres op).2.1
    refine ⟨ts', χ', h1, fun x hx => surf x (h2 x hx), fun x hx => h3 x fun hs => hx (surf x hs)⟩
  · have ea : volume o a = _ := hvol true
    have eb : volume o b = _ := hvol false
    rw [volume_represents o (run_inv (hres op).1) (hres op).2.2, volume_represents o (run_inv (hres .intersection).1) (hres .intersection).2.2, ea, eb, Finset.mul_sum, Finset.mul_sum, Finset.mul_sum, ← Finset.sum_add_distrib, ← Finset.sum_add_distrib]
    refine Finset.sum_congr rfl fun w _ => ?_
    rw [ind_truth op _ _, ind_truth op (lower _ _ ((arr ts hW).front w)) _]
    ring

/-! ## The volume of a set -/

/-- The set is a region, apart from points of a surface. -/
def Polyhedral (D : Type) (A : Set P3) : Prop := ∃ (r : Region P3 D) (X : List (Tri P3)), (∀ t ∈ X, Proper t) ∧ Denotes r (fun x => x ∈ A) (Surface X)

open Classical in
/-- The volume of a set. -/
noncomputable def setVolume (D : Type) (o : P3) (A : Set P3) : ℚ := if h : Polyhedral D A then volume o h.choose else 0

theorem denotes_volume {r r' : Region P3 D} {A B S S' : P3 → Prop} {X : List (Tri P3)} (hX : ∀ t ∈ X, Proper t) (hS : ∀ x, S x → Surface X x) (hS' : ∀ x, S' x → Surface X x) (h : Denotes r A S) (h' : Denotes r' B S')
    (hag : ∀ x, ¬ Surface X x → (A x ↔ B x)) (o : P3) : volume o r = volume o r' := by
  obtain ⟨ts, χ1, s1, -, a1⟩ := h
  obtain ⟨us, χ2, s2, -, a2⟩ := h'
  exact C108_set (orig := both ts us) (χ := fun c => if c then χ1 else χ2) s1 s2 hX (fun x hx => ((a1 x fun h => hx (hS x h)).trans (hag x hx)).trans (a2 x fun h => hx (hS' x h)).symm) o

theorem surface_append {X Y : List (Tri P3)} {x : P3} : Surface (X ++ Y) x ↔ Surface X x ∨ Surface Y x := by
  constructor
  · rintro ⟨t, ht, hin⟩
    rcases List.mem_append.1 ht with h | h
    exacts [.inl ⟨t, h, hin⟩, .inr ⟨t, h, hin⟩]
  · rintro (⟨t, ht, hin⟩ | ⟨t, ht, hin⟩)
    exacts [⟨t, List.mem_append_left _ ht, hin⟩, ⟨t, List.mem_append_right _ ht, hin⟩]

theorem proper_append {X Y : List (Tri P3)} (hX : ∀ t ∈ X, Proper t) (hY : ∀ t ∈ Y, Proper t) : ∀ t ∈ X ++ Y, Proper t :=
  fun t ht => (List.mem_append.1 ht).elim (hX t) (hY t)

theorem setVolume_eq {r : Region P3 D} {X : List (Tri P3)} {A : Set P3} (hX : ∀ t ∈ X, Proper t) (h : Denotes r (fun x => x ∈ A) (Surface X)) (o : P3) : setVolume D o A = volume o r := by
  have hp : Polyhedral D A := ⟨r, X, hX, h⟩
  unfold setVolume
  rw [dif_pos hp]
  obtain ⟨Y, hY, hd⟩ := hp.choose_spec
  exact denotes_volume (proper_append hY hX) (fun x hx => surface_append.2 (.inl hx)) (fun x hx => surface_append.2 (.inr hx)) hd h (fun _ _ => Iff.rfl) o

/-- Sets that differ on a surface only. -/
theorem setVolume_congr {A B : Set P3} (hA : Polyhedral D A) (hB : Polyhedral D B) {X : List (Tri P3)} (hX : ∀ t ∈ X, Proper t) (h : ∀ x, ¬ Surface X x → (x ∈ A ↔ x ∈ B)) (o : P3) : setVolume D o A = setVolume D o B := by
  obtain ⟨r, Y, hY, hr⟩ := hA
  obtain ⟨s, Z, hZ, hs⟩ := hB
  rw [setVolume_eq hY hr, setVolume_eq hZ hs]
  exact denotes_volume (proper_append hX (proper_append hY hZ)) (fun x hx => surface_append.2 (.inr (surface_append.2 (.inl hx)))) (fun x hx => surface_append.2 (.inr (surface_append.2 (.inr hx)))) hr hs
    (fun x hx => h x fun k => hx (surface_append.2 (.inl k))) o

theorem polyhedral_both {A B : Set P3} (hA : Polyhedral D A) (hB : Polyhedral D B) (o : P3) : (∀ op, Polyhedral D (onSets op A B)) ∧
    ∀ op, setVolume D o (onSets op A B) = (ind (truth op true false) - ind (truth op false false)) * setVolume D o A + (ind (truth op false true) - ind (truth op false false)) * setVolume D o B +
      (ind (truth op true true) - ind (truth op true false) - ind (truth op false true) + ind (truth op false false)) * setVolume D o (onSets .intersection A B) := by
  obtain ⟨r, Y, hY, hr⟩ := hA
  obtain ⟨s, Z, hZ, hs⟩ := hB
  obtain ⟨ts, χ1, s1, l1, a1⟩ := id hr
  obtain ⟨us, χ2, s2, l2, a2⟩ := id hs
  obtain ⟨res, h⟩ := combined (orig := both ts us) (χ := fun c => if c then χ1 else χ2) s1 s2 o
  have den : ∀ op, Denotes (res op) (fun x => x ∈ onSets op A B) (Surface (Y ++ Z)) := by
    intro op
    obtain ⟨vs, χ3, s3, l3, a3⟩ := (h op).1
    refine ⟨vs, χ3, s3, fun x hx => surface_append.2 ((l3 x hx).imp (l1 x) (l2 x)), fun x hx => ?_⟩
    have n1 : ¬ Surface Y x := fun k => hx (surface_append.2 (.inl k))
    have n2 : ¬ Surface Z x := fun k => hx (surface_append.2 (.inr k))
    rw [a3 x fun k => k.elim (fun k => n1 (l1 x k)) (fun k => n2 (l2 x k))]
    have e1 : x ∈ {x | χ1 x} ↔ x ∈ A := a1 x n1
    have e2 : x ∈ {x | χ2 x} ↔ x ∈ B := a2 x n2
    cases op <;> simp_all [onSets, symmDiff]
  have hYZ := proper_append hY hZ
  refine ⟨fun op => ⟨_, _, hYZ, den op⟩, fun op => ?_⟩
  rw [setVolume_eq hYZ (den op), setVolume_eq hYZ (den .intersection), setVolume_eq hY hr, setVolume_eq hZ hs]
  exact (h op).2

theorem polyhedral_inter {A B : Set P3} (hA : Polyhedral D A) (hB : Polyhedral D B) : Polyhedral D (A ∩ B) := (polyhedral_both hA hB ⟨0, 0, 0⟩).1 .intersection
theorem polyhedral_diff {A B : Set P3} (hA : Polyhedral D A) (hB : Polyhedral D B) : Polyhedral D (A \ B) := (polyhedral_both hA hB ⟨0, 0, 0⟩).1 .difference

/-- A set is made up of the part in another one and the rest. -/
theorem setVolume_split {A B : Set P3} (hA : Polyhedral D A) (hB : Polyhedral D B) (o : P3) : setVolume D o A = setVolume D o (A ∩ B) + setVolume D o (A \ B) := by
  have := (polyhedral_both hA hB o).2 .difference
  simp only [truth, Spec.table, Op.difference, ind] at this
  have e1 : onSets Op.difference A B = A \ B := rfl
  have e2 : onSets Op.intersection A B = A ∩ B := rfl
  unfold Op.difference at e1
  rw [e1, e2] at this
  rw [this]
  simp

theorem denotes_special (v : Prop) (r : Region P3 D) (hf : r.boundary = Soup.empty) (hk : (r.kind = .empty ∧ ¬ v) ∨ (r.kind = .full ∧ v)) : Denotes r (fun _ => v) (Surface []) := by
  refine ⟨[], fun _ => v, ⟨?_, ?_, ?_, ⟨fun t ht => by simp at ht, fun t ht => by simp at ht⟩, fun _ _ _ _ h => by simp at h, ⟨fun _ _ _ => Iff.rfl, fun _ _ _ h => by simp at h⟩, ?_⟩, fun x hx => hx, fun x _ => Iff.rfl⟩
  · unfold RegionInv
    rcases hk with ⟨h, -⟩ | ⟨h, -⟩ <;> rw [h] <;> simp [hf, Soup.empty]
  · rw [hf]; exact ⟨rfl, by simp [Soup.empty]⟩
  · rw [hf]; exact .nil
  · unfold KindSays
    rcases hk with ⟨h, k⟩ | ⟨h, k⟩ <;> rw [h]
    · exact fun _ => k
    · exact fun _ => k

theorem polyhedral_univ : Polyhedral D Set.univ ∧ ∀ o, setVolume D o Set.univ = 0 := by
  have h := denotes_special (D := D) True Region.fullRegion rfl (.inr ⟨rfl, trivial⟩)
  exact ⟨⟨_, [], by simp, h⟩, fun o => (setVolume_eq (by simp) h o).trans rfl⟩

theorem polyhedral_empty : Polyhedral D ∅ ∧ ∀ o, setVolume D o ∅ = 0 := by
  have h := denotes_special (D := D) False Region.emptyRegion rfl (.inl ⟨rfl, id⟩)
  exact ⟨⟨_, [], by simp, h⟩, fun o => (setVolume_eq (by simp) h o).trans rfl⟩

open Classical in
/-- How often a point is covered by sets, counted with coefficients. -/
noncomputable def covered (l : List (ℚ × Set P3)) (x : P3) : ℚ := (l.map fun s => if x ∈ s.2 then s.1 else 0).sum

/-- If the points of a set, apart from a surface, are covered equally by some sets, then the volumes of their parts in this set add up to the volume covered. -/
theorem setVolume_linear (o : P3) {X : List (Tri P3)} (hX : ∀ t ∈ X, Proper t) (l : List (ℚ × Set P3)) (hl : ∀ s ∈ l, Polyhedral D s.2) : ∀ (A : Set P3) (k : ℚ), Polyhedral D A → (∀ x ∈ A, ¬ Surface X x → covered l x = k) →
    (l.map fun s => s.1 * setVolume D o (s.2 ∩ A)).sum = k * setVolume D o A := by
  induction l with
  | nil =>
    intro A k hA h
    by_cases hk : k = 0
    · simp [hk]
    · rw [setVolume_congr hA polyhedral_empty.1 hX (fun x hx => ⟨fun hxA => absurd (h x hxA hx).symm hk, fun h => h.elim⟩) o, polyhedral_empty.2]
      simp
  | cons s l ih =>
    intro A k hA h
    obtain ⟨c, B⟩ := s
    have hB : Polyhedral D B := hl _ (List.mem_cons_self ..)
    have hl' : ∀ s ∈ l, Polyhedral D s.2 := fun s hs => hl s (List.mem_cons_of_mem _ hs)
    have h1 := ih hl' (A ∩ B) (k - c) (polyhedral_inter hA hB) (by
      rintro x ⟨hxA, hxB⟩ hx
      have := h x hxA hx
      simp only [covered, List.map_cons, List.sum_cons, if_pos hxB] at this ⊢
      linarith)
    have h2 := ih hl' (A \ B) k (polyhedral_diff hA hB) (by
      rintro x ⟨hxA, hxB⟩ hx
      have := h x hxA hx
      simp only [covered, List.map_cons, List.sum_cons, if_neg hxB] at this ⊢
      linarith)
    have h3 : (l.map fun s => s.1 * setVolume D o (s.2 ∩ A)).sum = (l.map fun s => s.1 * setVolume D o (s.2 ∩ (A ∩ B))).sum + (l.map fun s => s.1 * setVolume D o (s.2 ∩ (A \ B))).sum := by
      clear h1 h2 ih h hl
      induction l with
      | nil => simp
      | cons s l ih =>
        simp only [List.map_cons, List.sum_cons]
        rw [ih fun s hs => hl' s (List.mem_cons_of_mem _ hs), setVolume_split (polyhedral_inter (hl' s (List.mem_cons_self ..)) hA) hB o, Set.inter_assoc, Set.inter_diff_assoc]
        ring
    simp only [List.map_cons, List.sum_cons]
    rw [h3, h1, h2, Set.inter_comm B A]
    have := setVolume_split hA hB o
    rw [this]
    ring

end Kigumi.Props

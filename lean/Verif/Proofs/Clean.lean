import Verif.Proofs.Balance
import Verif.Proofs.Mixed
import Verif.Props.Defects
import Verif.Spec.Solid
import Verif.Model.RegionBuilder

/-!
# Clean meshes

What the defect searches say about the conditions on operands, and about boundaries of solids.
-/
namespace Kigumi.Space
open Kigumi Spec.Triangles Spec.Side FaceFace Spec.Defects Outcome
open Kigumi.Spec (HasCorners SameTri SameFace operandTris)
open Kigumi.Geo (P3)

/-! ## Degenerate and overlapping faces -/

theorem proper_iff_line (t : Tri P3) : Proper t ↔ ¬ Collinear t.a t.b t.c := by
  rw [← Props.collinear_iff]
  unfold Proper outward Defects.collinear
  rw [decide_eq_true_eq]
  simp only [Geo.cross, Geo.sub, ne_eq, Spec.P3.mk.injEq]

theorem joint_symm {a b c p q r x : P3} (h : Joint a b c p q r x) : Joint p q r a b c x := by
  obtain ⟨u, v, h1, h2, h3⟩ := h
  exact ⟨u, v, h1.symm, h2.symm, h3⟩

theorem overlap_symm {t u : Tri P3} (h : Overlap t.a t.b t.c u.a u.b u.c) : Overlap u.a u.b u.c t.a t.b t.c := by
  obtain ⟨x, h1, h2, h3⟩ := h
  exact ⟨x, h2, h1, fun h => h3 (joint_symm h)⟩

/-- Points on joints are spanned by common corners. -/
theorem joint_common {t u : Tri P3} {x : P3} (h : Joint t.a t.b t.c u.a u.b u.c x) : InCommon t u x ∧ ∃ w0 w1 w2 : ℚ, w0 + w1 + w2 = 1 ∧ x = combo w0 w1 w2 t.a t.b t.c ∧ (w0 = 0 ∨ w1 = 0 ∨ w2 = 0) := by
  obtain ⟨y, z, ⟨h1, h1'⟩, ⟨h2, h2'⟩, s, r, hs, s0, r0, rfl⟩ := h
  have e1 : y ∈ u.toList := by simpa [Tri.toList] using h1'
  have e2 : z ∈ u.toList := by simpa [Tri.toList] using h2'
  have key : ∀ w0 w1 w2 : ℚ, w0 + w1 + w2 = 1 → (⟨s * y.x + r * z.x, s * y.y + r * z.y, s * y.z + r * z.z⟩ : P3) = combo w0 w1 w2 t.a t.b t.c → 0 ≤ w0 → 0 ≤ w1 → 0 ≤ w2 → (w0 ≠ 0 → t.a ∈ u.toList) → (w1 ≠ 0 → t.b ∈ u.toList) →
      (w2 ≠ 0 → t.c ∈ u.toList) → (w0 = 0 ∨ w1 = 0 ∨ w2 = 0) → InCommon t u ⟨s * y.x + r * z.x, s * y.y + r * z.y, s * y.z + r * z.z⟩ ∧
      ∃ w0 w1 w2 : ℚ, w0 + w1 + w2 = 1 ∧ (⟨s * y.x + r * z.x, s * y.y + r * z.y, s * y.z + r * z.z⟩ : P3) = combo w0 w1 w2 t.a t.b t.c ∧ (w0 = 0 ∨ w1 = 0 ∨ w2 = 0) :=
    fun w0 w1 w2 a1 a2 a3 a4 a5 a6 a7 a8 a9 => ⟨⟨w0, w1, w2, a1, a2, a3, a4, a5, a6, a7, a8⟩, w0, w1, w2, a1, a2, a9⟩
  rcases h1 with rfl | rfl | rfl <;> rcases h2 with rfl | rfl | rfl
  · exact key 1 0 0 (by norm_num) (by simp only [combo, Spec.P3.mk.injEq]; refine ⟨?_, ?_, ?_⟩ <;> rw [← add_mul, hs] <;> ring) (by norm_num) le_rfl le_rfl (fun _ => e1) (by simp) (by simp) (by simp)
  · exact key s r 0 (by linarith) (by simp [combo]) s0 r0 le_rfl (fun _ => e1) (fun _ => e2) (by simp) (by simp)
  · exact key s 0 r (by linarith) (by simp [combo]) s0 le_rfl r0 (fun _ => e1) (by simp) (fun _ => e2) (by simp)
  · exact key r s 0 (by linarith) (by simp [combo, add_comm]) r0 s0 le_rfl (fun _ => e2) (fun _ => e1) (by simp) (by simp)
  · exact key 0 1 0 (by norm_num) (by simp only [combo, Spec.P3.mk.injEq]; refine ⟨?_, ?_, ?_⟩ <;> rw [← add_mul, hs] <;> ring) le_rfl (by norm_num) le_rfl (by simp) (fun _ => e1) (by simp) (by simp)
  · exact key 0 s r (by linarith) (by simp [combo]) le_rfl s0 r0 (by simp) (fun _ => e1) (fun _ => e2) (by simp)
  · exact key r 0 s (by linarith) (by simp [combo, add_comm]) r0 le_rfl s0 (fun _ => e2) (by simp) (fun _ => e1) (by simp)
  · exact key 0 r s (by linarith) (by simp [combo, add_comm]) le_rfl r0 s0 (by simp) (fun _ => e2) (fun _ => e1) (by simp)
  · exact key 0 0 1 (by norm_num) (by simp only [combo, Spec.P3.mk.injEq]; refine ⟨?_, ?_, ?_⟩ <;> rw [← add_mul, hs] <;> ring) le_rfl le_rfl (by norm_num) (by simp) (by simp) (fun _ => e1) (by simp)

/-- Points spanned by at most two common corners are on joints. -/
theorem common_joint {t u : Tri P3} {x : P3} (h : InCommon t u x) (hm : ¬ (t.a ∈ u.toList ∧ t.b ∈ u.toList ∧ t.c ∈ u.toList)) : Joint t.a t.b t.c u.a u.b u.c x := by
  obtain ⟨w0, w1, w2, hs, rfl, p0, p1, p2, k0, k1, k2⟩ := h
  have sv : ∀ y, (y = t.a ∨ y = t.b ∨ y = t.c) → y ∈ u.toList → SharedVertex t.a t.b t.c u.a u.b u.c y := fun y h1 h2 => ⟨h1, by simpa [Tri.toList] using h2⟩
  by_cases z0 : w0 = 0
  · subst z0
    by_cases z1 : w1 = 0
    · subst z1
      have hc : t.c ∈ u.toList := k2 (by intro e; rw [e] at hs; norm_num at hs)
      exact ⟨t.c, t.c, sv _ (by simp) hc, sv _ (by simp) hc, 0, w2, by linarith, le_rfl, p2, by simp [combo]⟩
    · by_cases z2 : w2 = 0
      · subst z2
        exact ⟨t.b, t.b, sv _ (by simp) (k1 z1), sv _ (by simp) (k1 z1), w1, 0, by linarith, p1, le_rfl, by simp [combo]⟩
      · exact ⟨t.b, t.c, sv _ (by simp) (k1 z1), sv _ (by simp) (k2 z2), w1, w2, by linarith, p1, p2, by simp [combo]⟩
  · by_cases z1 : w1 = 0
    · subst z1
      by_cases z2 : w2 = 0
      · subst z2
        exact ⟨t.a, t.a, sv _ (by simp) (k0 z0), sv _ (by simp) (k0 z0), w0, 0, by linarith, p0, le_rfl, by simp [combo]⟩
      · exact ⟨t.a, t.c, sv _ (by simp) (k0 z0), sv _ (by simp) (k2 z2), w0, w2, by linarith, p0, p2, by simp [combo]⟩
    · by_cases z2 : w2 = 0
      · subst z2
        exact ⟨t.a, t.b, sv _ (by simp) (k0 z0), sv _ (by simp) (k1 z1), w0, w1, by linarith, p0, p1, by simp [combo]⟩
      · exact absurd ⟨k0 z0, k1 z1, k2 z2⟩ hm

/-- Triangles with the same corners overlap. -/
theorem overlap_match {t u : Tri P3} (ht : Proper t) (h : Match t u) : Overlap t.a t.b t.c u.a u.b u.c := by
  have hi : Inner t (combo (1 / 3) (1 / 3) (1 / 3) t.a t.b t.c) := ⟨1 / 3, 1 / 3, 1 / 3, by norm_num, rfl, by simp [Weight], by simp [Weight], by simp [Weight]⟩
  refine ⟨_, inner_in hi, inner_in (inner_match h hi), fun hj => ?_⟩
  obtain ⟨w0, w1, w2, hs, he, hz⟩ := (joint_common hj).2
  obtain ⟨e0, e1, e2⟩ := weights_unique (Side.ok_of_proper ht) (by norm_num) hs he
  rcases hz with hz | hz | hz
  · rw [hz] at e0; norm_num at e0
  · rw [hz] at e1; norm_num at e1
  · rw [hz] at e2; norm_num at e2

/-- No two of the triangles overlap, exactly if they meet in common vertices and edges only, and none is there twice. -/
theorem clean_iff {ts : List (Tri P3)} (hp : ∀ t ∈ ts, Proper t) : (∀ (i j : Nat) t u, i < j → ts[i]? = some t → ts[j]? = some u → ¬ Overlap t.a t.b t.c u.a u.b u.c) ↔ Complex ts ∧ Once ts := by
  constructor
  · intro h
    have h' : ∀ (i j : Nat) t u, i ≠ j → ts[i]? = some t → ts[j]? = some u → ¬ Overlap t.a t.b t.c u.a u.b u.c := by
      intro i j t u hij ht hu ho
      rcases Nat.lt_or_gt_of_ne hij with hl | hl
      · exact h i j t u hl ht hu ho
      · exact h j i u t hl hu ht (overlap_symm ho)
    refine ⟨⟨hp, fun t ht u hu x hx hy => ?_⟩, fun i j t u ht hu hm => ?_⟩
    · obtain ⟨i, ht⟩ := List.mem_iff_getElem?.1 ht
      obtain ⟨j, hu⟩ := List.mem_iff_getElem?.1 hu
      by_cases hij : i = j
      · subst hij
        rw [ht] at hu
        obtain rfl := Option.some.inj hu
        obtain ⟨w0, w1, w2, hs, he, p0, p1, p2⟩ := hx
        exact ⟨w0, w1, w2, hs, he, p0, p1, p2, fun _ => by simp [Tri.toList], fun _ => by simp [Tri.toList], fun _ => by simp [Tri.toList]⟩
      · by_contra hc
        exact h' i j t u hij ht hu ⟨x, hx, hy, fun hj => hc (joint_common hj).1⟩
    · by_contra hij
      exact h' i j t u hij ht hu (overlap_match (hp t (List.mem_of_getElem? ht)) hm)
  · rintro ⟨hc, ho⟩ i j t u hij ht hu ⟨x, hx, hy, hj⟩
    refine hj (common_joint (hc.meet t (List.mem_of_getElem? ht) u (List.mem_of_getElem? hu) x hx hy) fun hm => ?_)
    have := ho i j t u ht hu (match_of_mem (proper_distinct (hp t (List.mem_of_getElem? ht))) hm.1 hm.2.1 hm.2.2)
    omega

/-! ## Edges of solids -/

/-- There are vertices with numbers. -/
theorem numbered (ts : List (Tri P3)) : ∃ (pts : List P3) (fs : List (Tri Nat)), pts.Nodup ∧ HasCorners pts fs ts := by
  have hm : ∀ t ∈ ts, ∀ p ∈ t.toList, p ∈ (ts.flatMap Tri.toList).dedup := fun t ht p hp => List.mem_dedup.2 (List.mem_flatMap.2 ⟨t, ht, hp⟩)
  refine ⟨(ts.flatMap Tri.toList).dedup, ts.map fun t => ⟨(ts.flatMap Tri.toList).dedup.idxOf t.a, (ts.flatMap Tri.toList).dedup.idxOf t.b, (ts.flatMap Tri.toList).dedup.idxOf t.c⟩, List.nodup_dedup _, ?_⟩
  unfold HasCorners
  rw [List.forall₂_map_left_iff, List.forall₂_same]
  have key : ∀ t ∈ ts, ∀ p ∈ t.toList, (ts.flatMap Tri.toList).dedup[(ts.flatMap Tri.toList).dedup.idxOf p]? = some p := fun t ht p hp => by
    rw [List.getElem?_eq_getElem (List.idxOf_lt_length_of_mem (hm t ht p hp)), List.getElem_idxOf]
  exact fun t ht => ⟨key t ht _ (by simp [Tri.toList]), key t ht _ (by simp [Tri.toList]), key t ht _ (by simp [Tri.toList])⟩

/-- Only the owners of the faces matter. -/
theorem one_owner {K : P3 → Prop} {fs : List (Tri Nat)} {pts : Nat → P3} {owner : Nat → Bool} {χ : Bool → P3 → Prop} (S : Scene K fs pts owner χ) (h : ∀ i < fs.length, owner i = true) : Scene K fs pts (fun _ => true) χ where
  proper := S.proper
  meet := S.meet
  inj := S.inj
  once i j f g hf hg _ hm := S.once i j f g hf hg (by rw [h i (List.getElem?_eq_some_iff.1 hf).1, h j (List.getElem?_eq_some_iff.1 hg).1]) hm
  zone := S.zone
  within := S.within
  const b y z ky kz hf := S.const b y z ky kz fun w hw i f hi ho => hf w hw i f hi (by rw [← ho, h i (List.getElem?_eq_some_iff.1 hi).1])
  jump i f y hf hy := by
    have := S.jump i f y hf hy
    rwa [h i (List.getElem?_eq_some_iff.1 hf).1] at this

/-- **Every edge of the boundary of a solid is traversed equally often in both directions.** -/
theorem closed {ts : List (Tri P3)} {χ : P3 → Prop} (hc : Complex ts) (ho : Once ts) (hb : Spec.Side.Bounds ts χ) (p q : P3) : uses ts p q = uses ts q p := by
  by_cases hpq : p = q
  · rw [hpq]
  obtain ⟨pts, fs, hn, hco⟩ := numbered ts
  have hR : OneToOne (fun (v : Nat) p => pts[v]? = some p) := by
    refine ⟨fun h1 h2 => ?_, fun {a a' b} h1 h2 => ?_⟩
    · rw [h1] at h2; exact Option.some.inj h2
    · obtain ⟨l1, e1⟩ := List.getElem?_eq_some_iff.1 h1
      obtain ⟨l2, e2⟩ := List.getElem?_eq_some_iff.1 h2
      exact (List.Nodup.getElem_inj_iff hn).1 (e1.trans e2.symm)
  have hrel : List.Forall₂ (Corners fun (v : Nat) p => pts[v]? = some p) fs ts := hco
  have hlen := hco.length_eq
  -- a soup of one operand
  have hop : ∀ b, operandTris ts (List.replicate fs.length (⟨true, .unknown, ()⟩ : MixedData Unit)) b = if b then ts else [] := by
    intro b
    unfold operandTris
    have : ts.zip (List.replicate fs.length (⟨true, .unknown, ()⟩ : MixedData Unit)) = ts.map fun t => (t, ⟨true, .unknown, ()⟩) := by
      rw [hlen]
      clear * -
      induction ts with
      | nil => rfl
      | cons t ts ih => simp only [List.length_cons, List.replicate_succ, List.zip_cons_cons, List.map_cons, ih]
    rw [this]
    cases b <;> simp [List.filter_map, Function.comp_def]
  have hcut : Cut Whole (⟨pts, fs, List.replicate fs.length ⟨true, .unknown, ()⟩⟩ : Soup P3 (MixedData Unit)) ts (fun b => if b then χ else fun _ => False) := by
    refine ⟨by simp, hco, hc, fun b => ?_, zone_whole, within_whole _, fun b => Bounds.whole ?_⟩
    · rw [hop]; cases b
      · exact fun i j t u ht => by simp at ht
      · exact ho
    · rw [hop]; cases b
      · exact ⟨fun _ _ _ => Iff.rfl, fun i t x ht => by simp at ht⟩
      · exact hb
  have S := scene_of_cut hcut (by
    intro f hf g hg v hv w hw e
    obtain ⟨t, -, a1, a2, a3⟩ := forall₂_mem_left hco hf
    have : ∃ y, pts[v]? = some y := by
      simp only [Tri.toList, List.mem_cons, List.not_mem_nil, or_false] at hv
      rcases hv with rfl | rfl | rfl
      exacts [⟨_, a1⟩, ⟨_, a2⟩, ⟨_, a3⟩]
    obtain ⟨y, hy⟩ := this
    exact hR.left hy (e ▸ hy : pts[w]? = some y))
  by_cases hex : (∃ v : Nat, pts[v]? = some p) ∧ ∃ w : Nat, pts[w]? = some q
  · obtain ⟨⟨v, hv⟩, w, hw⟩ := hex
    rw [← uses_related hR hrel hv hw, ← uses_related hR hrel hw hv]
    refine (one_owner S fun i hi => ?_).balanced (fun _ _ => rfl) fun e => hpq (by subst e; exact hR.right hv hw)
    simp [Mix.owner, hi]
  · have hz : ∀ x y : P3, ¬ ((∃ v : Nat, pts[v]? = some x) ∧ ∃ w : Nat, pts[w]? = some y) → uses ts x y = 0 := by
      intro x y hxy
      refine List.count_eq_zero.2 fun hm => hxy ?_
      obtain ⟨t, ht, hs⟩ := List.mem_flatMap.1 hm
      obtain ⟨f, -, a1, a2, a3⟩ := forall₂_mem_right hco (List.mem_filter.1 ht).1
      simp only [sides, List.mem_cons, Prod.mk.injEq, List.not_mem_nil, or_false] at hs
      rcases hs with ⟨rfl, rfl⟩ | ⟨rfl, rfl⟩ | ⟨rfl, rfl⟩
      exacts [⟨⟨_, a1⟩, _, a2⟩, ⟨⟨_, a2⟩, _, a3⟩, ⟨⟨_, a3⟩, _, a1⟩]
    rw [hz p q hex, hz q p fun h => hex h.symm]

/-! ## Vertices of results -/

/-- Every vertex belongs to a face. -/
def AllUsed (s : Soup P D) : Prop := ∀ v < s.points.length, ∃ f ∈ s.faces, v ∈ f.toList

theorem extractVertex_used {points : List P} {st st' : ExtractState P D} {v w : Nat} (h : extractVertex points st v = ok (st', w)) :
    st'.soup.faces = st.soup.faces ∧ ∀ k < st'.soup.points.length, k < st.soup.points.length ∨ k = w := by
  unfold extractVertex at h
  obtain ⟨o, -, h⟩ := bind_eq_ok.1 h
  cases o with
  | some w' =>
    cases h
    exact ⟨rfl, fun _ hk => .inl hk⟩
  | none =>
    obtain ⟨p, -, h⟩ := bind_eq_ok.1 h
    cases h
    refine ⟨rfl, fun k hk => ?_⟩
    simp only [Soup.addVertex, List.length_append, List.length_singleton] at hk ⊢
    omega

theorem extractFace_used {m : Soup P (MixedData D)} {st st' : ExtractState P D} {fi : Nat} (hu : AllUsed st.soup) (h : extractFace m op pf st fi = ok st') : AllUsed st'.soup := by
  unfold extractFace at h
  obtain ⟨d, -, h⟩ := bind_eq_ok.1 h
  dsimp only at h
  split at h
  · cases h; exact hu
  obtain ⟨f, -, h⟩ := bind_eq_ok.1 h
  obtain ⟨⟨s1, a⟩, h1, h⟩ := bind_eq_ok.1 h
  obtain ⟨⟨s2, b⟩, h2, h⟩ := bind_eq_ok.1 h
  obtain ⟨⟨s3, c⟩, h3, h⟩ := bind_eq_ok.1 h
  cases h
  obtain ⟨f1, u1⟩ := extractVertex_used h1
  obtain ⟨f2, u2⟩ := extractVertex_used h2
  obtain ⟨f3, u3⟩ := extractVertex_used h3
  have hnew : ∀ k, (k = a ∨ k = b ∨ k = c) → k ∈ (if outputInv (tagMask op pf d.tag) d.fromLeft then (⟨a, b, c⟩ : Tri Nat).flip else ⟨a, b, c⟩).toList := by
    intro k hk
    split <;> simp only [Tri.flip, Tri.toList, List.mem_cons, List.not_mem_nil, or_false] <;> tauto
  intro k hk
  simp only [Soup.addFace] at hk ⊢
  simp only [List.mem_append, List.mem_singleton]
  rcases u3 k hk with hk | rfl
  · rcases u2 k hk with hk | rfl
    · rcases u1 k hk with hk | rfl
      · obtain ⟨g, hg, hm⟩ := hu k hk
        exact ⟨g, .inl (by rw [f3, f2, f1]; exact hg), hm⟩
      · exact ⟨_, .inr rfl, hnew _ (by simp)⟩
    · exact ⟨_, .inr rfl, hnew _ (by simp)⟩
  · exact ⟨_, .inr rfl, hnew _ (by simp)⟩

theorem extractLoop_used {m : Soup P (MixedData D)} : ∀ (l : List Nat) {st st' : ExtractState P D}, AllUsed st.soup → extractLoop m op pf st l = ok st' → AllUsed st'.soup
  | [], st, st', hu, h => by cases h; exact hu
  | fi :: l, st, st', hu, h => by
    unfold extractLoop at h
    obtain ⟨s1, h1, h⟩ := bind_eq_ok.1 h
    exact extractLoop_used l (extractFace_used hu h1) h

theorem extract_used {m : Soup P (MixedData D)} {s : Soup P D} (h : extract m op pf = ok s) : AllUsed s := by
  unfold extract at h
  obtain ⟨st, h1, h⟩ := bind_eq_ok.1 h
  cases h
  exact extractLoop_used _ (fun v hv => by simp [Soup.empty] at hv) h1

/-- **Results of Boolean operations have no vertices besides those of their faces.** -/
theorem run_used {bb : Builder P D} {r : Region P D} (h : bb.run op pf = ok r) : AllUsed r.boundary := by
  have hfe : ∀ c, AllUsed (fullOrEmpty c : Region P D).boundary := fun c v hv => by cases c <;> simp [fullOrEmpty, Region.fullRegion, Region.emptyRegion, Soup.empty] at hv
  unfold Builder.run at h
  obtain ⟨s, h1, h⟩ := bind_eq_ok.1 h
  split at h
  · unfold Region.ofSoup at h
    split at h
    · cases h
    · cases h
      exact extract_used h1
  split at h
  · cases h; exact hfe _
  split at h
  · cases h; exact hfe _
  have hF := hfe true
  have hE := hfe false
  simp only [fullOrEmpty, if_true, Bool.false_eq_true, if_false] at hF hE
  cases op <;> dsimp only at h <;> first
    | (cases h; first | exact hF | exact hE)
    | (cases h; done)
    | (split at h
       · cases h; exact hfe _
       · split at h
         · cases h; exact hfe _
         · cases h)

end Kigumi.Space

import Verif.Spec.Reproducible
import Verif.Proofs.Unique
import Verif.Props.Origin
import Verif.Props.NonManifold
import Verif.Props.Regular
import Verif.Props.TiesNeeded

/-! # C113: the faces of results are reproducible -/
namespace Kigumi.Props
open Kigumi Outcome Geo Spec.Triangles Spec.Side FaceFace Space
open Kigumi.Spec (SameTri HasCorners operandTris RegionInv select selected)
open Kigumi.Corefine (Env Gives GivesBy Operands both)
open Kigumi.Cutting (Cuts Laid)
variable {D : Type} {ord : Tri P3 → P3 → P3 → Prop} {E F : Env} {E' F' : Mix.Env} {orig : Bool → List (Tri P3)} {χ : Bool → P3 → Prop} {a b c c' : Region P3 D} {bb bb' : Builder P3 D} {w w' : Global.Warnings} {op : Op} {pf : Bool} {p t u : Tri P3} {d : D}

/-! ## Triangulations -/

/-- **There is only one constrained Delaunay triangulation** of a triangle with given vertices and constraints, if no four of its vertices are on a circle. -/
theorem C113_triangulation {V : P3 → Prop} {S : P3 → P3 → Prop} {ps ps' : List (Tri P3)} (T : Triangulates t V S ps) (T' : Triangulates t V S ps') (ht : Proper t)
    (hg : ∀ o w x y z, V w ∨ w ∈ t.toList → V x ∨ x ∈ t.toList → V y ∨ y ∈ t.toList → V z ∨ z ∈ t.toList → dist2 o w = dist2 o x → dist2 o x = dist2 o y → dist2 o y = dist2 o z → w = x ∨ w = y ∨ w = z ∨ x = y ∨ x = z ∨ y = z) :
    (∀ p ∈ ps, ∃ r ∈ ps', SameTri p r) ∧ ∀ r ∈ ps', ∃ p ∈ ps, SameTri r p :=
  ⟨fun _ hp => Cutting.unique_triangles T T' ht hg hp, fun _ hr => Cutting.unique_triangles T' T ht hg hr⟩

/-! ## Mixed faces -/

theorem noFour_of_vertices (h : NoFourVertices orig) : NoFourOnCircle orig :=
  fun t ht u hu o w x y z hw hx hy hz => h true t ht o w x y z (.inr ⟨u, hu, hw⟩) (.inr ⟨u, hu, hx⟩) (.inr ⟨u, hu, hy⟩) (.inr ⟨u, hu, hz⟩)

/-- There is only one way to cut the operands. -/
def OneWay (ord : Tri P3 → P3 → P3 → Prop) (orig : Bool → List (Tri P3)) : Prop :=
  ∀ cut cut', Cuts orig cut → Cuts orig cut' → Cutting.TiesCut ord orig cut → Cutting.TiesCut ord orig cut' → ∀ x, ∀ t ∈ orig x, ∀ p ∈ cut x t, ∃ r ∈ cut' x t, SameTri p r

theorem oneWay_noFour (hg : NoFourVertices orig) : OneWay ord orig := by
  intro cut cut' h h' _ _ x t ht p hp
  refine Cutting.unique_triangles (h.tri x t ht) (h'.tri x t ht) ((h.complex x).proper t ht) ?_ hp
  have hv : ∀ y, CutVertex orig x t y ∨ y ∈ t.toList → VertexOf orig x t y := by
    rintro y (⟨-, u, hu, -, he⟩ | hy)
    exacts [.inr ⟨u, hu, he⟩, .inl hy]
  exact fun o w y z v k1 k2 k3 k4 => hg x t ht o w y z v (hv _ k1) (hv _ k2) (hv _ k3) (hv _ k4)

theorem oneWay_ties (ho : Orders ord) : OneWay ord orig := by
  intro cut cut' h h' hc hc' x t ht p hp
  exact Cutting.unique_ties (h.tri x t ht) (h'.tri x t ht) ((h.complex x).proper t ht) (ho.irrefl t) (ho.trans t) (ho.total t ((h.complex x).proper t ht)) (hc x t ht) (hc' x t ht) hp

theorem once_index {ts : List (Tri P3)} (h : Once ts) {i j : Nat} (hi : ts[i]? = some t) (hj : ts[j]? = some t) : i = j := h i j t t hi hj (match_refl _)

theorem once_le {ts us : List (Tri P3)} (h : Once ts) (hs : ∀ p ∈ ts, ∃ r ∈ us, SameTri p r) : ts.length ≤ us.length := by
  classical
  choose! f hf hsame using hs
  have hn : (ts.map f).Nodup := by
    rw [List.Nodup, List.pairwise_map]
    refine (List.Pairwise.and_mem.1 (Cutting.once_pairwise.1 h)).imp ?_
    intro x y ⟨hx, hy, hxy⟩ e
    exact hxy (match_trans (.inl (hsame x hx)) (match_symm (e ▸ .inl (hsame y hy))))
  have := (List.subperm_of_subset hn (l₂ := us) (by
    intro y hy
    obtain ⟨x, hx, rfl⟩ := List.mem_map.1 hy
    exact hf x hx)).length_le
  simpa using this

/-- What an execution of the corefinement makes of two operands. -/
structure Made (ord : Tri P3 → P3 → P3 → Prop) (orig : Bool → List (Tri P3)) (s : Bool → Soup P3 D) (m : Soup P3 (MixedData D)) (ts : List (Tri P3)) (cut : Bool → Tri P3 → List (Tri P3)) : Prop where
  cuts : Cuts orig cut
  ties : Cutting.TiesCut ord orig cut
  corners : HasCorners m.points m.faces ts
  data : m.data.length = m.faces.length
  tris : ∀ x, operandTris ts m.data x = (orig x).flatMap (cut x)
  from_ : ∀ (i : Nat) (p : Tri P3) (md : MixedData D), ts[i]? = some p → m.data[i]? = some md → ∃ (j : Nat) (t : Tri P3), (orig md.fromLeft)[j]? = some t ∧ p ∈ cut md.fromLeft t ∧ (s md.fromLeft).data[j]? = some md.data
  once : ∀ x, Once (operandTris ts m.data x)

theorem made_of {s : Bool → Soup P3 D} (ho : Operands orig s) (hE : E.Valid orig) {m : Soup P3 (MixedData D)} {border : List (Nat × Nat)} (hm : GivesBy ord E (s true) (s false) m border) : ∃ ts cut, Made ord orig s m ts cut ∧ Laid orig cut m ts border := by
  obtain ⟨cut, ts, h1, h2, h3, h4⟩ := Corefine.gives_laid_data ho hE hm
  exact ⟨ts, cut, ⟨h1, h3, h2.corners, h2.data, h2.tris, h4, fun x => by rw [h2.tris]; exact Cutting.once_pieces h1 x⟩, h2⟩

theorem made_tri {s : Bool → Soup P3 D} {m m' : Soup P3 (MixedData D)} {ts ts' : List (Tri P3)} {cut cut' : Bool → Tri P3 → List (Tri P3)} (h : Made ord orig s m ts cut) (h' : Made ord orig s m' ts' cut') (hg : OneWay ord orig) (x : Bool) :
    ∀ p ∈ operandTris ts m.data x, ∃ r ∈ operandTris ts' m'.data x, SameTri p r := by
  intro p hp
  rw [h.tris, List.mem_flatMap] at hp
  obtain ⟨t, ht, hp⟩ := hp
  obtain ⟨r, hr, hs⟩ := hg _ _ h.cuts h'.cuts h.ties h'.ties x t ht p hp
  exact ⟨r, by rw [h'.tris, List.mem_flatMap]; exact ⟨t, ht, hr⟩, hs⟩

theorem made_same {s : Bool → Soup P3 D} {m m' : Soup P3 (MixedData D)} {ts ts' : List (Tri P3)} {cut cut' : Bool → Tri P3 → List (Tri P3)} (h : Made ord orig s m ts cut) (h' : Made ord orig s m' ts' cut') (hg : OneWay ord orig)
    {i : Nat} {md : MixedData D} (hp : ts[i]? = some p) (hd : m.data[i]? = some md) :
    ∃ (k : Nat) (r : Tri P3) (md' : MixedData D), ts'[k]? = some r ∧ m'.data[k]? = some md' ∧ SameTri p r ∧ md'.fromLeft = md.fromLeft ∧ md'.data = md.data := by
  obtain ⟨j, t, ht, hpt, hj⟩ := h.from_ i p md hp hd
  have htm := List.mem_of_getElem? ht
  obtain ⟨r, hr, hs⟩ := hg _ _ h.cuts h'.cuts h.ties h'.ties _ t htm p hpt
  have hmem : r ∈ operandTris ts' m'.data md.fromLeft := by rw [h'.tris, List.mem_flatMap]; exact ⟨t, htm, hr⟩
  obtain ⟨k, md', h1, h2, h3⟩ := Cutting.mem_operand.1 hmem
  refine ⟨k, r, md', h1, h2, hs, h3, ?_⟩
  obtain ⟨j', t', ht', hpt', hj'⟩ := h'.from_ k r md' h1 h2
  rw [h3] at ht' hpt' hj'
  obtain rfl := Cutting.pieces_apart h'.cuts htm (List.mem_of_getElem? ht') hr hpt' (match_refl _)
  rw [← once_index (h.cuts.once _) ht ht', hj] at hj'
  exact (Option.some.inj hj').symm

theorem operand_length (ts : List (Tri P3)) (data : List (MixedData D)) (h : ts.length = data.length) : ts.length = (operandTris ts data true).length + (operandTris ts data false).length := by
  induction ts generalizing data with
  | nil => simp [operandTris]
  | cons t ts ih =>
    cases data with
    | nil => simp at h
    | cons md data =>
      have := ih data (by simpa using h)
      simp only [operandTris, List.length_map] at this
      simp only [operandTris, List.zip_cons_cons, List.filter_cons, List.length_map, List.length_cons]
      cases md.fromLeft <;> simp at this ⊢ <;> omega

theorem made_count {s : Bool → Soup P3 D} {m m' : Soup P3 (MixedData D)} {ts ts' : List (Tri P3)} {cut cut' : Bool → Tri P3 → List (Tri P3)} (h : Made ord orig s m ts cut) (h' : Made ord orig s m' ts' cut') (hg : OneWay ord orig) : m.faces.length = m'.faces.length := by
  have e := fun x => le_antisymm (once_le (h.once x) (made_tri h h' hg x)) (once_le (h'.once x) (made_tri h' h hg x))
  have l := h.corners.length_eq
  have l' := h'.corners.length_eq
  rw [l, l', operand_length ts m.data (by rw [h.data, l]), operand_length ts' m'.data (by rw [h'.data, l']), e, e]

theorem mixed_same {s : Bool → Soup P3 D} (ho : Operands orig s) (hE : E.Valid orig) (hF : F.Valid orig) (hg : OneWay ord orig) {m m' : Soup P3 (MixedData D)} {border border' : List (Nat × Nat)}
    (hm : GivesBy ord E (s true) (s false) m border) (hm' : GivesBy ord F (s true) (s false) m' border') :
    m.faces.length = m'.faces.length ∧ ∀ p md, HasFace m p md → ∃ p' md', HasFace m' p' md' ∧ SameTri p p' ∧ md'.fromLeft = md.fromLeft ∧ md'.data = md.data := by
  obtain ⟨ts, cut, h, -⟩ := made_of ho hE hm
  obtain ⟨ts', cut', h', -⟩ := made_of ho hF hm'
  refine ⟨made_count h h' hg, ?_⟩
  rintro p md ⟨i, f, hf, h1, h2, h3, h4⟩
  obtain ⟨p0, hp0, e1, e2, e3⟩ := forall2_get h.corners hf
  obtain rfl : p0 = p := by
    rw [h1] at e1; rw [h2] at e2; rw [h3] at e3
    cases p; cases p0; cases e1; cases e2; cases e3; rfl
  obtain ⟨k, r, md', k1, k2, k3, k4, k5⟩ := made_same h h' hg hp0 h4
  exact ⟨r, md', hasFace_of h'.corners k1 k2, k3, k4, k5⟩

/-- **The mixed faces do not depend on threads, orders or choices**: two executions of the corefinement make the same triangles, of the same operands, with the same data, if no four vertices of a face are on a circle. -/
theorem C113_mixed {s : Bool → Soup P3 D} (ho : Operands orig s) (hE : E.Valid orig) (hF : F.Valid orig) (hg : NoFourVertices orig) {m m' : Soup P3 (MixedData D)} {border border' : List (Nat × Nat)}
    (hm : Gives E (s true) (s false) m border) (hm' : Gives F (s true) (s false) m' border') :
    m.faces.length = m'.faces.length ∧ ∀ p md, HasFace m p md → ∃ p' md', HasFace m' p' md' ∧ SameTri p p' ∧ md'.fromLeft = md.fromLeft ∧ md'.data = md.data := 
  mixed_same ho hE hF (oneWay_noFour hg) (Corefine.gives_eq ▸ hm) (Corefine.gives_eq ▸ hm')

/-- The same for all operands, where triangulations break ties by orders of points. -/
theorem C113_mixed_ties (hord : Orders ord) {s : Bool → Soup P3 D} (ho : Operands orig s) (hE : E.Valid orig) (hF : F.Valid orig) {m m' : Soup P3 (MixedData D)} {border border' : List (Nat × Nat)}
    (hm : GivesBy ord E (s true) (s false) m border) (hm' : GivesBy ord F (s true) (s false) m' border') :
    m.faces.length = m'.faces.length ∧ ∀ p md, HasFace m p md → ∃ p' md', HasFace m' p' md' ∧ SameTri p p' ∧ md'.fromLeft = md.fromLeft ∧ md'.data = md.data := 
  mixed_same ho hE hF (oneWay_ties hord) hm hm'

/-! ## Results -/

theorem right_congr {t' : Tri P3} {us us' : List (Tri P3)} {ψ : P3 → Prop} {g : Tag} (hs : SameTri t t') (h1 : ∀ u ∈ us, ∃ v ∈ us', SameTri u v) (h2 : ∀ v ∈ us', ∃ u ∈ us, SameTri v u) (h : RightTag t us ψ g) : RightTag t' us' ψ g := by
  have no : (∀ u ∈ us, ¬ Match t u) → ∀ v ∈ us', ¬ Match t' v := by
    intro hn v hv hm
    obtain ⟨u, hu, huv⟩ := h2 v hv
    exact hn u hu (match_trans (.inl hs) (match_trans hm (.inl huv)))
  cases g with
  | unknown => exact h
  | coplanar =>
    obtain ⟨u, hu, k⟩ := h
    obtain ⟨v, hv, k'⟩ := h1 u hu
    exact ⟨v, hv, sameTri_trans (sameTri_symm hs) (sameTri_trans k k')⟩
  | opposite =>
    obtain ⟨u, hu, k⟩ := h
    obtain ⟨v, hv, k'⟩ := h1 u hu
    exact ⟨v, hv, sameTri_trans (sameTri_symm (sameTri_flip hs)) (sameTri_trans k k')⟩
  | interior => exact ⟨no h.1, fun x hx => h.2 x (inner_same (sameTri_symm hs) hx)⟩
  | exterior => exact ⟨no h.1, fun x hx => h.2 x (inner_same (sameTri_symm hs) hx)⟩

theorem right_unique {us : List (Tri P3)} {ψ : P3 → Prop} {g g' : Tag} (ht : Proper t) (ho : Once us) (h : RightTag t us ψ g) (h' : RightTag t us ψ g') : g = g' := by
  have hd := proper_distinct ht
  have ci := inner_centre t
  cases g <;> cases g' <;> first
    | rfl
    | exact h.elim
    | exact h'.elim
    | (obtain ⟨u, hu, k⟩ := h; obtain ⟨v, hv, k'⟩ := h'; exact (tag_exclusive ho hd hu hv k k').elim)
    | (obtain ⟨u, hu, k⟩ := h; obtain ⟨v, hv, k'⟩ := h'; exact (tag_exclusive ho hd hv hu k' k).elim)
    | (obtain ⟨u, hu, k⟩ := h; exact (h'.1 u hu (.inl k)).elim)
    | (obtain ⟨u, hu, k⟩ := h; exact (h'.1 u hu (.inr k)).elim)
    | (obtain ⟨u, hu, k⟩ := h'; exact (h.1 u hu (.inl k)).elim)
    | (obtain ⟨u, hu, k⟩ := h'; exact (h.1 u hu (.inr k)).elim)
    | exact absurd (h.2 _ ci) (h'.2 _ ci)
    | exact absurd (h'.2 _ ci) (h.2 _ ci)

theorem selected_has {P : Type} {R : Tri Nat → Tri P → Prop} {fs : List (Tri Nat)} {ts : List (Tri P)} (h : List.Forall₂ R fs ts) (op : Op) (pf : Bool) : ∀ (ds : List (MixedData D)) (k : Nat) (t : Tri P) (md : MixedData D) (inv : Bool),
    ts[k]? = some t → ds[k]? = some md → select op pf md.fromLeft md.tag = some inv → ∃ i : Nat,
    ((ts.zip ds).filterMap fun x => (select op pf x.2.fromLeft x.2.tag).map fun inv => if inv then x.1.flip else x.1)[i]? = some (if inv then t.flip else t) ∧
    (((fs.zip ds).filterMap fun x => (select op pf x.2.fromLeft x.2.tag).map fun inv => (if inv then x.1.flip else x.1, x.2.data)).map Prod.snd)[i]? = some md.data := by
  induction h with
  | nil => simp
  | @cons f t0 fs ts _ _ ih =>
    intro ds k t md inv ht hd hsel
    cases ds with
    | nil => simp at hd
    | cons md0 ds =>
      simp only [List.zip_cons_cons, List.filterMap_cons]
      cases k with
      | zero =>
        simp only [List.getElem?_cons_zero, Option.some.injEq] at ht hd
        subst ht hd
        simp only [hsel, Option.map_some]
        exact ⟨0, by simp⟩
      | succ k =>
        simp only [List.getElem?_cons_succ] at ht hd
        obtain ⟨i, h1, h2⟩ := ih ds k t md inv ht hd hsel
        cases hs : select op pf md0.fromLeft md0.tag with
        | none => exact ⟨i, by simpa [hs] using h1, by simpa [hs] using h2⟩
        | some j => exact ⟨i + 1, by simpa [hs] using h1, by simpa [hs] using h2⟩

/-- Selected mixed faces are faces of the result. -/
theorem run_has {ts : List (Tri P3)} (hc : HasCorners bb.m.points bb.m.faces ts) (hl : bb.m.data.length = bb.m.faces.length) (hr : bb.run op pf = ok c) {k : Nat} {md : MixedData D} {inv : Bool} (ht : ts[k]? = some t) (hd : bb.m.data[k]? = some md)
    (hs : select op pf md.fromLeft md.tag = some inv) : HasFace c.boundary (if inv then t.flip else t) md.data := by
  obtain ⟨s, e, hcor, hdat, -⟩ := extract_corners hc hl op pf
  obtain ⟨i, h1, h2⟩ := selected_has hc op pf bb.m.data k t md inv ht hd hs
  have hf : HasFace s (if inv then t.flip else t) md.data := hasFace_of hcor h1 (by rw [hdat]; exact h2)
  have hne : s.faces.length ≠ 0 := by
    obtain ⟨i, f, hf, -⟩ := hf
    intro h0
    rw [List.length_eq_zero_iff] at h0
    simp [h0] at hf
  unfold Builder.run at hr
  rw [e, ok_bind, if_pos hne] at hr
  unfold Region.ofSoup at hr
  split at hr
  · cases hr
  · cases hr; exact hf

/-- What an execution makes of two solids. -/
theorem built_made (ha : IsSolid a (orig true) (χ true)) (hb : IsSolid b (orig false) (χ false)) (hE : E.Valid orig) (hs : Cutting.Settled ord orig) (hman : ManifoldWhereCoinciding orig) (hE' : E'.Valid orig) (h : Mix.Built E' (GivesBy ord E) a b bb w)
    (hef : ¬ (a.isEmptyOrFull || b.isEmptyOrFull) = true) : ∃ ts cut, Made ord orig (both a.boundary b.boundary) bb.m ts cut ∧ Complex ts ∧ Tagged bb.m ts χ := by
  unfold Mix.Built at h
  rw [if_neg hef] at h
  obtain ⟨m0, border, hc, hres, -⟩ := h
  simp only [Bool.or_eq_true, not_or, Bool.not_eq_true] at hef
  have kind : ∀ {r : Region P3 D}, r.isEmptyOrFull = false → r.kind = .boundaryDefined := by
    intro r hr
    cases hk : r.kind <;> simp_all [Region.isEmptyOrFull, Region.isEmpty, Region.isFull]
  have hne : ∀ x : Bool, (both a.boundary b.boundary x).faces ≠ [] := by
    intro x
    have ia := ha.inv
    have ib := hb.inv
    simp only [RegionInv, kind hef.1, kind hef.2] at ia ib
    cases x <;> assumption
  have ho := solid_operands ha hb
  obtain ⟨ts, cut, hm, hlaid⟩ := made_of (s := both a.boundary b.boundary) ho hE hc
  have hcor := Cutting.laid_corefined hm.cuts (hs _ hm.cuts hm.ties) hman hlaid
  obtain ⟨hcut, htag, -⟩ := mixed_right (soup := both a.boundary b.boundary) hcor (χ := χ) (fun b => (ho.complex b).proper) (fun b => by cases b; exacts [hb.bounds, ha.bounds]) hE' ho.corners hne hres
  refine ⟨ts, cut, ?_, hcut.complex, htag⟩
  obtain ⟨m, edges, tags1, tags2, w1, w2, -, -, -, -, hout, -⟩ := hres
  rw [hout]
  refine ⟨hm.cuts, hm.ties, hm.corners, by simp only [retag_length]; exact hm.data, fun x => by simp only [retag_operand]; exact hm.tris x, ?_, fun x => by simp only [retag_operand]; exact hm.once x⟩
  intro i p md hp hd
  simp only [retag_get, Option.map_eq_some_iff] at hd
  obtain ⟨md0, hd, rfl⟩ := hd
  exact hm.from_ i p md0 hp hd

theorem result_there (ha : IsSolid a (orig true) (χ true)) (hb : IsSolid b (orig false) (χ false)) (hE : E.Valid orig) (hF : F.Valid orig) (hg : OneWay ord orig) (hset : Cutting.Settled ord orig) (hman : ManifoldWhereCoinciding orig) (hE' : E'.Valid orig) (hF' : F'.Valid orig)
    (h : Mix.Built E' (GivesBy ord E) a b bb w) (h' : Mix.Built F' (GivesBy ord F) a b bb' w') (hr : bb.run op pf = ok c) (hr' : bb'.run op pf = ok c') (hf : HasFace c.boundary p d) : ∃ p', HasFace c'.boundary p' d ∧ SameTri p p' := by
  by_cases hef : (a.isEmptyOrFull || b.isEmptyOrFull) = true
  · unfold Mix.Built at h h'
    rw [if_pos hef] at h h'
    have e : bb = bb' := Outcome.ok.inj (h.1.symm.trans h'.1)
    rw [← e, hr] at hr'
    cases hr'
    exact ⟨p, hf, .inl rfl⟩
  obtain ⟨ts, cut, m, hcx, htag⟩ := built_made ha hb hE hset hman hE' h hef
  obtain ⟨ts', cut', m', hcx', htag'⟩ := built_made ha hb hF hset hman hF' h' hef
  obtain ⟨k, q, md, inv, hq, hmd, rfl, hsel, rfl⟩ := run_faces m.corners m.data hr hf
  obtain ⟨k', r, md', hr1, hmd', hs, hl, hdat⟩ := made_same m m' hg hq hmd
  have hm1 : (q, md) ∈ ts.zip bb.m.data := List.mem_of_getElem? (List.getElem?_zip_eq_some.2 ⟨hq, hmd⟩)
  have hm2 : (r, md') ∈ ts'.zip bb'.m.data := List.mem_of_getElem? (List.getElem?_zip_eq_some.2 ⟨hr1, hmd'⟩)
  have t1 := htag _ hm1
  have t2 := htag' _ hm2
  simp only at t1 t2
  rw [hl] at t2
  have t1' := right_congr hs (made_tri m m' hg _) (made_tri m' m hg _) t1
  have et : md'.tag = md.tag := right_unique (hcx'.proper r (List.mem_of_getElem? hr1)) (m'.once _) t2 t1'
  refine ⟨if inv then r.flip else r, hdat ▸ run_has m'.corners m'.data hr' hr1 hmd' (by rw [hl, et]; exact hsel), ?_⟩
  cases inv
  · exact hs
  · exact sameTri_flip hs

theorem faces_le {rs rs' : List (Tri P3)} {ψ ψ' : P3 → Prop} (hc : IsSolid c rs ψ) (hc' : IsSolid c' rs' ψ') (h : ∀ p d, HasFace c.boundary p d → ∃ p', HasFace c'.boundary p' d ∧ SameTri p p') : c.boundary.faces.length ≤ c'.boundary.faces.length := by
  rw [hc.corners.length_eq, hc'.corners.length_eq]
  refine once_le hc.once fun p hp => ?_
  obtain ⟨i, hi⟩ := List.mem_iff_getElem?.1 hp
  have hlt : i < c.boundary.data.length := by
    rw [hc.wf.1, hc.corners.length_eq]
    exact (List.getElem?_eq_some_iff.1 hi).1
  obtain ⟨r, ⟨j, f, hf, h1, h2, h3, -⟩, hs⟩ := h p _ (hasFace_of hc.corners hi (List.getElem?_eq_getElem hlt))
  obtain ⟨r', hr', e1, e2, e3⟩ := forall2_get hc'.corners hf
  obtain rfl : r' = r := by
    rw [h1] at e1; rw [h2] at e2; rw [h3] at e3
    cases r; cases r'; cases e1; cases e2; cases e3; rfl
  exact ⟨r', List.mem_of_getElem? hr', hs⟩

theorem result_same (ha : IsSolid a (orig true) (χ true)) (hb : IsSolid b (orig false) (χ false)) (hE : E.Valid orig) (hF : F.Valid orig) (hg : OneWay ord orig) (hset : Cutting.Settled ord orig) (hman : ManifoldWhereCoinciding orig) (hE' : E'.Valid orig) (hF' : F'.Valid orig)
    (h : Mix.Built E' (GivesBy ord E) a b bb w) (h' : Mix.Built F' (GivesBy ord F) a b bb' w') (op : Op) (pf : Bool) : ∃ c c', bb.run op pf = ok c ∧ bb'.run op pf = ok c' ∧ c.kind = c'.kind ∧ SameFaces c.boundary c'.boundary := by
  obtain ⟨-, c, hr, hden⟩ := boolean_by ha hb hE hset hman hE' h op pf
  obtain ⟨-, c', hr', hden'⟩ := boolean_by ha hb hF hset hman hF' h' op pf
  have hW : ∀ t ∈ orig true ++ orig false, Proper t := fun t ht => (List.mem_append.1 ht).elim (ha.complex.proper t) (hb.complex.proper t)
  obtain ⟨k1, k2, -⟩ := C97_same (C97_regularizes hden hW fun _ hx => surface_append.2 hx) (C97_regularizes hden' hW fun _ hx => surface_append.2 hx) fun _ => Iff.rfl
  have hk : c.kind = c'.kind := by
    simp only [Region.isEmpty, Region.isFull] at k1 k2
    cases e : c.kind <;> cases e' : c'.kind <;> simp_all
  obtain ⟨rs, ψ, hc, -⟩ := hden
  obtain ⟨rs', ψ', hc', -⟩ := hden'
  have t := fun p d hf => result_there (p := p) (d := d) ha hb hE hF hg hset hman hE' hF' h h' hr hr' hf
  have t' := fun p d hf => result_there (p := p) (d := d) ha hb hF hE hg hset hman hF' hE' h' h hr' hr hf
  exact ⟨c, c', hr, hr', hk, t, t', le_antisymm (faces_le hc hc' t) (faces_le hc' hc t')⟩

/-- **The results of Boolean operations are reproducible.** Whatever the threads do, in whichever order things are found or sorted, whichever rays are shot: two executions give regions of the same kind, with the same faces and the same data, if no four vertices of a face are on a circle. -/
theorem C113_result (ha : IsSolid a (orig true) (χ true)) (hb : IsSolid b (orig false) (χ false)) (hE : E.Valid orig) (hF : F.Valid orig) (hg : NoFourVertices orig) (hman : ManifoldWhereCoinciding orig) (hE' : E'.Valid orig) (hF' : F'.Valid orig)
    (h : Mix.Built E' (Gives E) a b bb w) (h' : Mix.Built F' (Gives F) a b bb' w') (op : Op) (pf : Bool) : ∃ c c', bb.run op pf = ok c ∧ bb'.run op pf = ok c' ∧ c.kind = c'.kind ∧ SameFaces c.boundary c'.boundary :=
  result_same ha hb hE hF (oneWay_noFour hg) (Cutting.settled_noFour (noFour_of_vertices hg)) hman hE' hF' (Corefine.gives_eq ▸ h) (Corefine.gives_eq ▸ h') op pf

/-- The same where triangulations break ties by orders of points, under the condition of `C81_boolean`. -/
theorem C113_result_ties (hord : Orders ord) (ha : IsSolid a (orig true) (χ true)) (hb : IsSolid b (orig false) (χ false)) (hE : E.Valid orig) (hF : F.Valid orig) (hs : SplitCircles ord orig) (hman : ManifoldWhereCoinciding orig) (hE' : E'.Valid orig) (hF' : F'.Valid orig)
    (h : Mix.Built E' (GivesBy ord E) a b bb w) (h' : Mix.Built F' (GivesBy ord F) a b bb' w') (op : Op) (pf : Bool) : ∃ c c', bb.run op pf = ok c ∧ bb'.run op pf = ok c' ∧ c.kind = c'.kind ∧ SameFaces c.boundary c'.boundary :=
  result_same ha hb hE hF (oneWay_ties hord) (Cutting.settled_ties hord hs) hman hE' hF' h h' op pf

/-! ## The condition is needed -/

/-- The same order for all triangles: by the coordinates. -/
def lexicographic (_ : Tri P3) (x y : P3) : Prop := x.x < y.x ∨ x.x = y.x ∧ (x.y < y.y ∨ x.y = y.y ∧ x.z < y.z)

theorem lexicographic_orders : Orders lexicographic where
  irrefl t x := by simp [lexicographic]
  trans t x y z := by
    rintro (h | ⟨h, h1 | ⟨h1, h2⟩⟩) (k | ⟨k, k1 | ⟨k1, k2⟩⟩)
    · exact .inl (h.trans k)
    · exact .inl (k ▸ h)
    · exact .inl (k ▸ h)
    · exact .inl (h ▸ k)
    · exact .inr ⟨h.trans k, .inl (h1.trans k1)⟩
    · exact .inr ⟨h.trans k, .inl (k1 ▸ h1)⟩
    · exact .inl (h ▸ k)
    · exact .inr ⟨h.trans k, .inl (h1 ▸ k1)⟩
    · exact .inr ⟨h.trans k, .inr ⟨h1.trans k1, h2.trans k2⟩⟩
  total t _ x y _ _ := by
    unfold lexicographic
    rcases lt_trichotomy x.x y.x with h | h | h
    · exact .inr (.inl (.inl h))
    · rcases lt_trichotomy x.y y.y with h' | h' | h'
      · exact .inr (.inl (.inr ⟨h, .inl h'⟩))
      · rcases lt_trichotomy x.z y.z with h'' | h'' | h''
        · exact .inr (.inl (.inr ⟨h, .inr ⟨h', h''⟩⟩))
        · exact .inl (p3_ext h h' h'')
        · exact .inr (.inr (.inr ⟨h.symm, .inr ⟨h'.symm, h''⟩⟩))
      · exact .inr (.inr (.inr ⟨h.symm, .inl h'⟩))
    · exact .inr (.inr (.inl h))

theorem lexicographic_split (orig : Bool → List (Tri P3)) : SplitCircles lexicographic orig :=
  fun t _ _ _ _ _ _ w x _ _ _ _ _ _ _ _ l1 _ _ l4 _ _ => absurd (lexicographic_orders.trans t _ _ _ l1 l4) (lexicographic_orders.irrefl t w)

theorem gives_of_by {l r : Soup P3 D} {m : Soup P3 (MixedData D)} {border : List (Nat × Nat)} (h : GivesBy ord E l r m border) : Gives E l r m border := by
  obtain ⟨s, finite, fs, ds, edges, h1, h2, h3⟩ := h
  refine ⟨s, finite, fs, ds, edges, h1, fun t fi f k1 k2 => ?_, h3⟩
  obtain ⟨q1, ps, q2, q3, -⟩ := h2 t fi f k1 k2
  exact ⟨q1, ps, q2, q3⟩

theorem operand_of {m m' : Soup P3 (MixedData D)} {ts ts' : List (Tri P3)} (hc : HasCorners m.points m.faces ts) (hc' : HasCorners m'.points m'.faces ts')
    (h : ∀ p md, HasFace m p md → ∃ p' md', HasFace m' p' md' ∧ SameTri p p' ∧ md'.fromLeft = md.fromLeft) {x : Bool} (hp : p ∈ operandTris ts m.data x) : ∃ r ∈ operandTris ts' m'.data x, SameTri p r := by
  obtain ⟨i, md, h1, h2, h3⟩ := Cutting.mem_operand.1 hp
  obtain ⟨r, md', ⟨j, f, hf, e1, e2, e3, hd⟩, hs, hl⟩ := h p md (hasFace_of hc h1 h2)
  obtain ⟨r', hr', k1, k2, k3⟩ := forall2_get hc' hf
  obtain rfl : r' = r := by
    rw [e1] at k1; rw [e2] at k2; rw [e3] at k3
    cases r; cases r'; cases k1; cases k2; cases k3; rfl
  exact ⟨r', Cutting.mem_operand.2 ⟨j, md', hr', hd, hl.trans h3⟩, hs⟩

/-- **The condition is needed**: there are two tetrahedra, with four vertices of a face on a circle, for which the corefinement has two executions, on the same machine, that do not make the same triangles. -/
theorem C113_needed : ∃ (a b : Region P3 Unit) (orig : Bool → List (Tri P3)) (χ : Bool → P3 → Prop), IsSolid a (orig true) (χ true) ∧ IsSolid b (orig false) (χ false) ∧ ManifoldWhereCoinciding orig ∧ (∃ E : Env, E.Valid orig) ∧
    ∀ E : Env, E.Valid orig → ∃ m border m' border', Gives E a.boundary b.boundary m border ∧ Gives E a.boundary b.boundary m' border' ∧
      ¬ ∀ p md, HasFace m p md → ∃ p' md', HasFace m' p' md' ∧ SameTri p p' ∧ md'.fromLeft = md.fromLeft := by
  have ha := simplex_is table_det.1
  have hb := simplex_is below_det
  refine ⟨_, _, both tableLeft tableBelow, both (Within tableLeft) (Within tableBelow), ha, hb, tetra_manifold table_det.1 below_det, ⟨_, C74_consistent _⟩, fun E hE => ?_⟩
  have ho := solid_operands (orig := both tableLeft tableBelow) (χ := both (Within tableLeft) (Within tableBelow)) ha hb
  obtain ⟨m, border, hm⟩ := C81_mixed lexicographic_orders ho hE
  obtain ⟨m', border', hm'⟩ := C81_mixed C81_axes.1 ho hE
  refine ⟨m, border, m', border', gives_of_by hm, gives_of_by hm', fun hall => ?_⟩
  obtain ⟨ts, cut, h, -⟩ := made_of ho hE hm
  obtain ⟨ts', cut', h', -⟩ := made_of ho hE hm'
  obtain ⟨p, hp, hpu⟩ := Cutting.crosswise_piece (b := true) h.cuts above_mem below_mem above_coincides below_coincides square_crosswise
  have hag := Cutting.settled_ties lexicographic_orders (lexicographic_split _) _ h.cuts h.ties
  obtain ⟨n1, n2, n3, n4, n5, n6⟩ := square_crosswise.distinct
  have qq : ∀ {v}, _ → Cutting.Q baseAbove baseBelow v := fun {v} hv => Cutting.q_iff.1 ((square_crosswise.corners v).2 hv)
  obtain ⟨r, hr, hpr⟩ := hag true baseAbove above_mem baseBelow below_mem above_coincides below_coincides ⟨_, _, _, qq (.inl rfl), qq (.inr (.inl rfl)), qq (.inr (.inr (.inl rfl))), n1, n4, n2⟩ p hp hpu
  have m1 : p ∈ operandTris ts m.data true := by rw [h.tris]; exact List.mem_flatMap.2 ⟨_, above_mem, hp⟩
  have m2 : r ∈ operandTris ts m.data false := by rw [h.tris]; exact List.mem_flatMap.2 ⟨_, below_mem, hr⟩
  obtain ⟨p', hp', s1⟩ := operand_of h.corners h'.corners hall m1
  obtain ⟨r', hr', s2⟩ := operand_of h.corners h'.corners hall m2
  rw [h'.tris, List.mem_flatMap] at hp' hr'
  obtain ⟨t, ht, hp'⟩ := hp'
  obtain ⟨u, hu, hr'⟩ := hr'
  exact table_differ h'.cuts h'.ties t ht u hu p' hp' r' hr' (match_trans (match_symm (.inl s1)) (match_trans hpr (.inl s2)))

/-! ## Examples -/

/-- Faces that have only vertices and edges in common have no vertices but their corners. -/
theorem conforming_vertices (hW : Complex (orig true ++ orig false)) : NoFourVertices orig := by
  intro b t ht o w x y z hw hx hy hz _ _ _
  have mem : ∀ {x t}, t ∈ orig x → t ∈ orig true ++ orig false := by
    intro x t h
    cases x
    exacts [List.mem_append_right _ h, List.mem_append_left _ h]
  have key : ∀ {x}, VertexOf orig b t x → x = t.a ∨ x = t.b ∨ x = t.c := by
    rintro x (hx | ⟨u, hu, hx⟩)
    · simpa [Tri.toList] using hx
    · have := Cutting.ext_corner (Cutting.ext_face (Cutting.complex_face hW (mem ht) (mem hu)) (Cutting.extreme_iff.1 hx))
      simpa [Tri.toList] using this
  rcases key hw with rfl | rfl | rfl <;> rcases key hx with rfl | rfl | rfl <;> rcases key hy with rfl | rfl | rfl <;> rcases key hz with rfl | rfl | rfl <;> simp

/-- Two tetrahedra with a common face, on two machines. -/
example {E F : Env} {E' F' : Mix.Env} (hE : E.Valid doubleOrig) (hF : F.Valid doubleOrig) (hE' : E'.Valid doubleOrig) (hF' : F'.Valid doubleOrig) {bb bb' : Builder P3 Unit} {w w' : Global.Warnings}
    (h : Mix.Built E' (Gives E) (doubleSolid true) (doubleSolid false) bb w) (h' : Mix.Built F' (Gives F) (doubleSolid true) (doubleSolid false) bb' w') :
    ∃ c c', bb.run .union true = ok c ∧ bb'.run .union true = ok c' ∧ c.kind = c'.kind ∧ SameFaces c.boundary c'.boundary :=
  C113_result (χ := doubleSets) (doubleSolid_is true) (doubleSolid_is false) hE hF (conforming_vertices double_complex) double_manifold hE' hF' h h' .union true

/-- Two tetrahedra whose common face has four corners on a circle, if ties are broken by the coordinates: there are such executions, and they all give the same faces. -/
example : ∃ E : Env, E.Valid (both tableLeft tableBelow) ∧ (∃ m border, GivesBy lexicographic E (simplex ⟨0, 0, 0⟩ ⟨4, 0, 0⟩ ⟨0, 4, 0⟩ ⟨0, 0, 4⟩).boundary (simplex ⟨2, 2, 0⟩ ⟨2, -2, 0⟩ ⟨-2, 2, 0⟩ ⟨2, 2, -8⟩).boundary m border) ∧
    ∀ F : Env, F.Valid (both tableLeft tableBelow) → ∀ m m' border border', GivesBy lexicographic E (simplex ⟨0, 0, 0⟩ ⟨4, 0, 0⟩ ⟨0, 4, 0⟩ ⟨0, 0, 4⟩).boundary (simplex ⟨2, 2, 0⟩ ⟨2, -2, 0⟩ ⟨-2, 2, 0⟩ ⟨2, 2, -8⟩).boundary m border →
      GivesBy lexicographic F (simplex ⟨0, 0, 0⟩ ⟨4, 0, 0⟩ ⟨0, 4, 0⟩ ⟨0, 0, 4⟩).boundary (simplex ⟨2, 2, 0⟩ ⟨2, -2, 0⟩ ⟨-2, 2, 0⟩ ⟨2, 2, -8⟩).boundary m' border' → m.faces.length = m'.faces.length := by
  have ho := solid_operands (orig := both tableLeft tableBelow) (χ := both (Within tableLeft) (Within tableBelow)) (simplex_is table_det.1) (simplex_is below_det)
  exact ⟨_, C74_consistent _, C81_mixed lexicographic_orders ho (C74_consistent _), fun F hF m m' _ _ hm hm' => (C113_mixed_ties lexicographic_orders ho (C74_consistent _) hF hm hm').1⟩

end Kigumi.Props

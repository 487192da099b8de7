import Verif.Proofs.Constructed
import Verif.Proofs.Parallel

/-! # Executions of the constructor exist -/
namespace Kigumi.Corefine
open Kigumi Outcome Geo Spec.Triangles Spec.Side
open Kigumi.Spec (SameTri HasCorners FaceCorners Box)
open Kigumi.Side (Ok ok_of_proper)
open Kigumi.Cutting (Q)
variable {op : Bool → List (Tri P3)} {D : Type} {s : Bool → Soup P3 D} {pts : List P3} {infos : List Info} {E : Env}

theorem andThen_exists {α β : Type} {x : Outcomes α} {f : α → Outcomes β} (hx : ∃ o, x o) (hf : ∀ a, x (ok a) → ∃ o, f a o) : ∃ o, Outcomes.andThen x f o := by
  obtain ⟨o, ho⟩ := hx
  cases o with
  | ok a =>
    obtain ⟨o', h⟩ := hf a ho
    exact ⟨o', .inl ⟨a, ho, h⟩⟩
  | exn e => exact ⟨exn e, .inr (.inl ⟨e, ho, rfl⟩)⟩
  | ub e => exact ⟨ub e, .inr (.inr ⟨e, ho, rfl⟩)⟩

theorem sortBy_exists (key : Info → Nat) (l : List Info) : ∃ o, sortBy key l o := by
  let r : Info → Info → Prop := fun x y => key x ≤ key y
  have : Std.Total r := ⟨fun a b => Nat.le_total _ _⟩
  have : IsTrans _ r := ⟨fun a b c hab hbc => Nat.le_trans hab hbc⟩
  exact ⟨_, l.insertionSort r, ⟨List.perm_insertionSort r l, (List.pairwise_insertionSort r l).imp fun h => Nat.not_lt.2 h⟩, rfl⟩

theorem buildAll_exists (E : Env) (points : List P3) (fc : Region.Code) (key : Info → Nat) (faces : List (Tri Nat)) (ids : List Nat) (culprit : String) (sorted : List Info) : ∃ o, buildAll E points fc key faces ids culprit sorted o := by
  refine andThen_exists ?_ fun r _ => ⟨_, rfl⟩
  obtain ⟨r, hr⟩ := Props.C15_has_result (buildLoop (E.crosses points) fc key faces ids (ranges key sorted)) E.configured E.hardware ()
  exact ⟨_, _, ⟨r, hr, rfl⟩, rfl⟩

theorem construct_exists (s : Bool → Soup P3 D) : ∃ o, construct E (s true) (s false) o := by
  unfold construct
  refine andThen_exists ?_ fun tags _ => andThen_exists ?_ fun pairs _ => andThen_exists ?_ fun found _ => andThen_exists ⟨_, rfl⟩ fun made _ =>
    andThen_exists (sortBy_exists _ _) fun byLeft _ => andThen_exists (buildAll_exists ..) fun lm _ => andThen_exists (sortBy_exists _ _) fun byRight _ => andThen_exists (buildAll_exists ..) fun rm _ => ⟨_, rfl⟩
  · exact Coplanar.execute_exists
  · obtain ⟨mem, hm⟩ := Prog.exec_complete (AABB.construct Candidates.boxOps E.arr E.limit (Candidates.leavesOf (if decide ((E.treeBoxes true).length < (E.treeBoxes false).length) then E.treeBoxes true else E.treeBoxes false)).length)
      (AABB.initial E.nodes (Candidates.leavesOf (if decide ((E.treeBoxes true).length < (E.treeBoxes false).length) then E.treeBoxes true else E.treeBoxes false)) E.dflt)
    obtain ⟨r, hr⟩ := Props.C15_has_result (Candidates.loop (decide ((E.treeBoxes true).length < (E.treeBoxes false).length)) mem
      (if decide ((E.treeBoxes true).length < (E.treeBoxes false).length) then E.treeBoxes true else E.treeBoxes false).length
      (if decide ((E.treeBoxes true).length < (E.treeBoxes false).length) then E.queryBoxes false else E.queryBoxes true).length
      (if decide ((E.treeBoxes true).length < (E.treeBoxes false).length) then tags.1 else tags.2)
      (if decide ((E.treeBoxes true).length < (E.treeBoxes false).length) then tags.2 else tags.1)
      (if decide ((E.treeBoxes true).length < (E.treeBoxes false).length) then E.queryBoxes false else E.queryBoxes true)) E.configured E.hardware []
    exact ⟨_, r, ⟨mem, hm, hr⟩, rfl⟩
  · obtain ⟨r, hr⟩ := Props.C15_has_result (symLoop (corefinePoints (s true).points (s false).points).1.points (s true).faces (s false).faces (corefinePoints (s true).points (s false).points).2.1 (corefinePoints (s true).points (s false).points).2.2 pairs) E.configured E.hardware []
    exact ⟨_, r, hr, rfl⟩

/-! ## An environment -/

/-- The smallest box around a triangle. -/
def boxOf (t : Tri P3) : Box := Candidates.faceBox ⟨⟨t.a, t.a⟩, ⟨t.b, t.b⟩, ⟨t.c, t.c⟩⟩

theorem boxOf_encloses (ts : List (Tri P3)) : Props.Encloses (ts.map boxOf) ts := by
  refine ⟨by simp, ?_⟩
  intro i t b ht hb p hp
  rw [List.getElem?_map, ht] at hb
  simp only [Option.map_some, Option.some.injEq] at hb
  subst hb
  exact Props.C32_faceBox t _ (by simp [Box.Mem]) (by simp [Box.Mem]) (by simp [Box.Mem]) p hp

open Classical in
/-- Exact constructions, smallest boxes, and a triangulation that throws only if constraints cross. -/
noncomputable def exactEnv (op : Bool → List (Tri P3)) : Env where
  kernel := ⟨fun a b p q => if h : ∃ x, OnlyCommon (OnLine a b) (OnLine p q) x then h.choose else ⟨0, 0, 0⟩, fun a b c p q => if h : ∃ x, OnlyCommon (InPlane a b c) (OnLine p q) x then h.choose else ⟨0, 0, 0⟩⟩
  treeBoxes b := (op b).map boxOf
  queryBoxes b := (op b).map boxOf
  arr _ l := l
  limit := 2
  nodes _ := ⟨none, .null, .null⟩
  dflt := (0, ⟨⟨0, 0, 0⟩, ⟨0, 0, 0⟩⟩)
  configured := 2
  hardware := 4
  crosses points t i j := decide (∀ f, ¬ ({ t with constraints := t.constraints ++ [(i, j)] } : Cdt).Expected points f)

theorem exactEnv_valid (op : Bool → List (Tri P3)) : (exactEnv op).Valid op where
  lines a b p q x _ _ h := by
    have hx : ∃ x, OnlyCommon (OnLine a b) (OnLine p q) x := ⟨x, h⟩
    simp only [exactEnv, dif_pos hx]
    exact h.2.2 _ hx.choose_spec.1 hx.choose_spec.2.1
  planes a b c p q x _ _ h := by
    have hx : ∃ x, OnlyCommon (InPlane a b c) (OnLine p q) x := ⟨x, h⟩
    simp only [exactEnv, dif_pos hx]
    exact h.2.2 _ hx.choose_spec.1 hx.choose_spec.2.1
  tree b := boxOf_encloses _
  query b := boxOf_encloses _
  arr k l := .refl l
  threads := by simp [exactEnv]
  crosses points t i j f h := by
    simp only [exactEnv, decide_eq_true_eq] at h
    exact h f

/-! ## The rest of the corefinement does not throw -/

theorem mixed_ok (h : Operands op s) {st : State} (hst : Constructed op s st) (finite : Cdt → List (Tri Nat)) :
    (∃ fs ds, mixedFaces finite (s true).faces (s false).faces st.leftMap st.rightMap st.leftIds st.rightIds st.leftTags st.rightTags (s true).data (s false).data = ok (fs, ds)) ∧ ∃ edges, intersectingEdges st.infos [] = ok edges := by
  have vids : ∀ b, ∀ f ∈ (s b).faces, ∀ v ∈ f.toList, v < (idsOf s b).length := by
    intro b f hf v hv
    rw [ids_length]
    obtain ⟨h1, h2, h3⟩ := valid h.soups b f hf
    simp only [Tri.toList, List.mem_cons, List.not_mem_nil, or_false] at hv
    rcases hv with rfl | rfl | rfl
    exacts [h1, h2, h3]
  have hno : ∀ {b : Bool} {mp : Slots}, Built op s st.points st.infos b mp → ∀ fi, mp fi ≠ some none := by
    intro b mp hb fi e
    by_cases hx : ∃ x ∈ st.infos, keyOf b x = fi
    · obtain ⟨_, _, c, -, -, e', -⟩ := hb.some fi hx
      rw [e] at e'; cases e'
    · rw [hb.none fi hx] at e; cases e
  have tl : st.leftTags.length = (s true).faces.length := by rw [face_length h.soups true]; exact hst.tags.length true
  have tr : st.rightTags.length = (s false).faces.length := by rw [face_length h.soups false]; exact hst.tags.length false
  obtain ⟨lp, rp, e, -⟩ := Props.C62_assembly finite (s true).faces (s false).faces st.leftMap st.rightMap st.leftIds st.rightIds st.leftTags st.rightTags (s true).data (s false).data
    (by rw [hst.leftIds]; exact vids true) (by rw [hst.rightIds]; exact vids false) (hno hst.left) (hno hst.right) tl tr (h.data true) (h.data false)
  obtain ⟨edges, e', -⟩ := Props.C63_border st.infos
  exact ⟨⟨_, _, e⟩, edges, e'⟩

/-- If every expected triangulation exists, mixed faces exist. -/
theorem givesOf_exists {correct : List P3 → Cdt → Tri P3 → List (Tri Nat) → Prop} (h : Operands op s) (hE : E.Valid op)
    (hfin : ∀ st, Constructed op s st → ∀ b t f c, t ∈ op b → Entry op st.points st.infos b t f c → ∃ gs, correct st.points c t gs) : ∃ m border, GivesOf correct E (s true) (s false) m border := by
  classical
  obtain ⟨o, ho⟩ := construct_exists (E := E) s
  obtain ⟨st, rfl, hst⟩ := construct_ok h hE ho
  have hcor : ∀ c, (∃ fi, st.leftMap fi = some (some c) ∨ st.rightMap fi = some (some c)) → ∃ gs, ∀ f, c.Expected st.points f → correct st.points c f gs := by
    rintro c ⟨fi, hc⟩
    have key : ∀ b mp, Built op s st.points st.infos b mp → mp fi = some (some c) → ∃ gs, ∀ f, c.Expected st.points f → correct st.points c f gs := by
      intro b mp hb hm
      by_cases hx : ∃ x ∈ st.infos, keyOf b x = fi
      · obtain ⟨t, f, c', ht, -, e, hent⟩ := hb.some fi hx
        rw [hm] at e; cases e
        obtain ⟨gs, hgs⟩ := hfin st hst b t f c (List.mem_of_getElem? ht) hent
        refine ⟨gs, fun f' hf' => ?_⟩
        have : f' = t := by
          obtain ⟨a1, a2, a3⟩ := hf'.corners
          obtain ⟨b1, b2, b3⟩ := hent.expected.corners
          rw [b1] at a1; rw [b2] at a2; rw [b3] at a3
          obtain ⟨x, y, z⟩ := f'
          obtain ⟨x', y', z'⟩ := t
          cases a1; cases a2; cases a3; rfl
        rw [this]; exact hgs
      · rw [hb.none fi hx] at hm; cases hm
    rcases hc with hc | hc
    · exact key true _ hst.left hc
    · exact key false _ hst.right hc
  let finite : Cdt → List (Tri Nat) := fun c => if hc : ∃ fi, st.leftMap fi = some (some c) ∨ st.rightMap fi = some (some c) then (hcor c hc).choose else []
  obtain ⟨⟨fs, ds, h1⟩, edges, h2⟩ := mixed_ok h hst finite
  refine ⟨_, edges, st, finite, fs, ds, edges, ho, ?_, h1, h2, .refl _, rfl⟩
  intro c fi f hc hexp
  have hc' : ∃ fi, st.leftMap fi = some (some c) ∨ st.rightMap fi = some (some c) := ⟨fi, hc⟩
  simp only [finite, dif_pos hc']
  exact (hcor c hc').choose_spec f hexp

theorem gives_exists (h : Operands op s) (hE : E.Valid op)
    (hfin : ∀ st, Constructed op s st → ∀ b t f c, t ∈ op b → Entry op st.points st.infos b t f c → ∃ gs, c.Correct st.points t gs) : ∃ m border, Gives E (s true) (s false) m border := givesOf_exists h hE hfin

/-- If the operands already meet only in common vertices and edges, there is nothing to triangulate. -/
theorem conforming_correct (hW : Complex (op true ++ op false)) {b : Bool} {t : Tri P3} {f : Tri Nat} {c : Cdt} (ht : t ∈ op b) (hent : Entry op pts infos b t f c) : c.Correct pts t [⟨c.a, c.b, c.c⟩] := by
  have mem : ∀ b, ∀ t ∈ op b, t ∈ op true ++ op false := by
    intro b t ht
    cases b
    · exact List.mem_append_right _ ht
    · exact List.mem_append_left _ ht
  have hcut : ∀ x, CutVertex op b t x → x ∈ t.toList := by
    rintro x ⟨-, u, hu, -, hx⟩
    exact Cutting.ext_corner (Cutting.ext_face (Cutting.complex_face hW (mem b t ht) (mem _ u hu)) (Cutting.extreme_iff.1 hx))
  obtain ⟨k1, k2, k3⟩ := hent.expected.corners
  have hk : c.known = [] := by
    rw [List.eq_nil_iff_forall_not_mem]
    intro id hid
    obtain ⟨x, hx, -⟩ := hent.expected.inside id hid
    have hc : x ∈ t.toList := ((hent.vertices x).1 (.inl ⟨id, hid, hx⟩)).elim (hcut x) (fun h => h)
    have hn := hent.expected.distinct
    unfold Cdt.vertexIds at hn
    simp only [List.map_cons, k1, k2, k3, List.nodup_cons, List.mem_cons, not_or] at hn
    have hm : some x ∈ c.known.map (pts[·]?) := List.mem_map.2 ⟨id, hid, hx⟩
    simp only [Tri.toList, List.mem_cons, List.not_mem_nil, or_false] at hc
    rcases hc with rfl | rfl | rfl
    exacts [hn.1.2.2 hm, hn.2.1.2 hm, hn.2.2.1 hm]
  refine ⟨?_, [t], List.Forall₂.cons ⟨k1, k2, k3⟩ .nil, ?_⟩
  · intro g hg v hv
    simp only [List.mem_cons, List.not_mem_nil, or_false] at hg
    subst hg
    unfold Cdt.vertexIds
    simp only [Tri.toList, List.mem_cons, List.not_mem_nil, or_false] at hv
    rcases hv with rfl | rfl | rfl <;> simp
  · refine Cutting.triangulates_self hent.expected.proper (by rw [hk]; simp) ?_
    intro x y hxy
    obtain ⟨h0, u, hu, h1, hj⟩ := hent.sound x y hxy
    exact ⟨hcut x ⟨h0, u, hu, h1, hj.1⟩, hcut y ⟨h0, u, hu, h1, hj.2.1⟩⟩

end Kigumi.Corefine

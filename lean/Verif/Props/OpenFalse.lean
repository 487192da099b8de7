import Verif.Proofs.LoneEdge
import Verif.Proofs.Spill
import Verif.Props.NonManifold
import Verif.Props.Open

/-! # C93: open meshes with a common edge at the end of the convex set -/
namespace Kigumi.Props
open Kigumi Outcome Geo Spec.Triangles Spec.Side FaceFace Space
open Kigumi.Spec (SameTri SameFace HasCorners operandTris truth onSets RegionInv)
open Kigumi.Corefine (Env Gives construct Operands both)
variable {D : Type} {E : Env} {E' : Mix.Env} {m0 : Soup P3 (MixedData D)} {border : List (Nat × Nat)}

/-- Another triangle with the same edge as `wall`. -/
def door : Tri P3 := ⟨⟨0, 0, 0⟩, ⟨0, 0, 4⟩, ⟨1, 3, 0⟩⟩

theorem door_det (x : P3) : det4 door.a door.b door.c x = 4 * (x.y - 3 * x.x) := by simp only [door, det4, dot, cross, sub]; ring

theorem door_panel : Panel nook door where
  proper := by unfold Proper; decide +kernel
  within := by
    rintro x ⟨u, v, w, one, rfl, hu, hv, hw⟩
    simp only [Weight, if_true] at hu hv hw
    simp only [nook, door, combo]
    exact ⟨by linarith, by linarith, by linarith, by linarith⟩
  all := by
    rintro x ⟨h1, h2, h3, h4⟩ h
    rw [door_det] at h
    exact ⟨1 - x.z / 4 - x.x, x.z / 4, x.x, by ring, by apply p3_ext <;> simp only [door, combo] <;> linarith, by linarith, by linarith, by linarith⟩

theorem inCommon_refl {t : Tri P3} {x : P3} (h : In t x) : InCommon t t x := by
  obtain ⟨u, v, w, one, hx, hu, hv, hw⟩ := h
  exact ⟨u, v, w, one, hx, hu, hv, hw, by simp [Tri.toList], by simp [Tri.toList], by simp [Tri.toList]⟩

/-- The two triangles have nothing in common but their common edge. -/
theorem wall_door {x : P3} (h : In wall x) (h' : In door x) : x.x = 0 ∧ x.y = 0 := by
  have e1 := (Side.eval_plane wall x).symm.trans (Side.plane_in h)
  have e2 := (Side.eval_plane door x).symm.trans (Side.plane_in h')
  rw [wall_det] at e1
  rw [door_det] at e2
  constructor <;> linarith

theorem hinge_complex : Complex ([wall] ++ [door]) where
  proper := by
    intro t ht
    simp only [List.cons_append, List.nil_append, List.mem_cons, List.not_mem_nil, or_false] at ht
    rcases ht with rfl | rfl
    exacts [wall_panel.proper, door_panel.proper]
  meet := by
    intro t ht u hu x hx hy
    simp only [List.cons_append, List.nil_append, List.mem_cons, List.not_mem_nil, or_false] at ht hu
    have on : ∀ {t u : Tri P3}, t.a = ⟨0, 0, 0⟩ → t.b = ⟨0, 0, 4⟩ → t.c.x ≠ 0 → u.a = ⟨0, 0, 0⟩ → u.b = ⟨0, 0, 4⟩ → In t x → x.x = 0 → InCommon t u x := by
      rintro ⟨a, b, c⟩ ⟨a', b', c'⟩ ha hb hc ha' hb' ⟨u, v, w, one, hx, hu, hv, hw⟩ h0
      simp only at ha hb hc ha' hb' hx
      subst ha hb ha' hb' hx
      simp only [combo] at h0
      have hw0 : w = 0 := by
        have : w * c.x = 0 := by linarith
        rcases mul_eq_zero.1 this with h | h
        · exact h
        · exact absurd h hc
      exact ⟨u, v, w, one, rfl, hu, hv, hw, by simp [Tri.toList], by simp [Tri.toList], fun h => absurd hw0 h⟩
    rcases ht with rfl | rfl <;> rcases hu with rfl | rfl
    · exact inCommon_refl hx
    · exact on rfl rfl (by simp [wall]) rfl rfl hx (wall_door hx hy).1
    · exact on rfl rfl (by simp [door]) rfl rfl hx (wall_door hy hx).1
    · exact inCommon_refl hx

theorem hinge_apart : ¬ Match wall door := by unfold Match; decide +kernel

theorem hinge_border {x y : P3} : BorderEdge (both [wall] [door]) x y ↔ (x = ⟨0, 0, 0⟩ ∧ y = ⟨0, 0, 4⟩) ∨ (x = ⟨0, 0, 4⟩ ∧ y = ⟨0, 0, 0⟩) := by
  constructor
  · intro h
    obtain ⟨hne, t, ht, u, hu, -, -, ⟨h1, h2⟩, h3, h4⟩ := Cutting.conforming_border (op := both [wall] [door]) hinge_complex h
    obtain rfl := List.mem_singleton.1 ht
    obtain rfl := List.mem_singleton.1 hu
    have key : ∀ z ∈ wall.toList, z ∈ door.toList → z = ⟨0, 0, 0⟩ ∨ z = ⟨0, 0, 4⟩ := by decide +kernel
    rcases key x h1 h2 with rfl | rfl <;> rcases key y h3 h4 with rfl | rfl
    · exact absurd rfl hne
    · exact .inl ⟨rfl, rfl⟩
    · exact .inr ⟨rfl, rfl⟩
    · exact absurd rfl hne
  · have hz : ∀ {t : Tri P3} {z : P3}, t.a = ⟨0, 0, 0⟩ → t.b = ⟨0, 0, 4⟩ → t.c.z = 0 → In t z → 0 ≤ z.z ∧ z.z ≤ 4 := by
      rintro ⟨a, b, c⟩ z ha hb hc ⟨u, v, w, one, hx, hu, hv, hw⟩
      simp only at ha hb hc hx
      subst ha hb hx
      simp only [combo, hc]
      constructor <;> linarith
    have ext : ∀ z : P3, z = ⟨0, 0, 0⟩ ∨ z = ⟨0, 0, 4⟩ → Extreme (Common wall door) z := by
      intro z h
      refine ⟨?_, ?_⟩
      · rcases h with rfl | rfl
        · exact ⟨⟨1, 0, 0, by norm_num, by simp [wall, combo], by norm_num, le_refl _, le_refl _⟩, ⟨1, 0, 0, by norm_num, by simp [door, combo], by norm_num, le_refl _, le_refl _⟩⟩
        · exact ⟨⟨0, 1, 0, by norm_num, by simp [wall, combo], le_refl _, by norm_num, le_refl _⟩, ⟨0, 1, 0, by norm_num, by simp [door, combo], le_refl _, by norm_num, le_refl _⟩⟩
      · rintro y y' ⟨hy, hy1⟩ ⟨hy', hy1'⟩ ⟨s, t, one, s0, t0, e⟩
        obtain ⟨a1, a2⟩ := wall_door hy hy1
        obtain ⟨b1, b2⟩ := wall_door hy' hy1'
        obtain ⟨a3, a4⟩ := hz (t := wall) rfl rfl rfl hy
        obtain ⟨b3, b4⟩ := hz (t := wall) rfl rfl rfl hy'
        have ez : z.z = s * y.z + t * y'.z := by rw [e]
        obtain rfl : t = 1 - s := by linarith
        have zx : z.x = 0 ∧ z.y = 0 := by rcases h with rfl | rfl <;> exact ⟨rfl, rfl⟩
        suffices y.z = z.z ∨ y'.z = z.z by
          rcases this with h | h
          · exact .inl (p3_ext (a1.trans zx.1.symm) (a2.trans zx.2.symm) h)
          · exact .inr (p3_ext (b1.trans zx.1.symm) (b2.trans zx.2.symm) h)
        rcases eq_or_lt_of_le s0 with h0 | h0
        · right; rw [ez, ← h0]; ring
        · left
          rcases h with rfl | rfl
          · simp only at ez ⊢
            have := mul_nonneg t0 b3
            have h1 : s * y.z ≤ 0 := by linarith
            have h2 := mul_nonneg s0 a3
            rcases mul_eq_zero.1 (le_antisymm h1 h2) with h | h
            · exact absurd h h0.ne'
            · exact h
          · simp only at ez ⊢
            have h1 : s * (4 - y.z) = - ((1 - s) * (4 - y'.z)) := by linarith
            have h2 := mul_nonneg t0 (sub_nonneg.2 b4)
            have h3 := mul_nonneg s0 (sub_nonneg.2 a4)
            rcases mul_eq_zero.1 (le_antisymm (by linarith) h3 : s * (4 - y.z) = 0) with h | h
            · exact absurd h h0.ne'
            · linarith
    have edge : ∀ z : P3, z = ⟨0, 0, 0⟩ ∨ z = ⟨0, 0, 4⟩ → OnSegment wall.a wall.b z := by
      rintro z (rfl | rfl)
      · exact ⟨1, 0, by norm_num, by norm_num, le_refl _, by simp [wall]⟩
      · exact ⟨0, 1, by norm_num, le_refl _, by norm_num, by simp [wall]⟩
    have co : ¬ Coincides (both [wall] [door]) true wall := by
      rintro ⟨u, hu, hm⟩
      obtain rfl := List.mem_singleton.1 hu
      exact hinge_apart hm
    have co' : ¬ Coincides (both [wall] [door]) false door := by
      rintro ⟨u, hu, hm⟩
      obtain rfl := List.mem_singleton.1 hu
      exact hinge_apart (match_symm hm)
    intro h
    have hx : x = ⟨0, 0, 0⟩ ∨ x = ⟨0, 0, 4⟩ := by rcases h with h | h; exacts [.inl h.1, .inr h.1]
    have hy : y = ⟨0, 0, 0⟩ ∨ y = ⟨0, 0, 4⟩ := by rcases h with h | h; exacts [.inr h.2, .inl h.2]
    have hne : x ≠ y := by rcases h with ⟨rfl, rfl⟩ | ⟨rfl, rfl⟩ <;> simp
    exact ⟨wall, by simp [both], door, by simp [both], co, co', ext x hx, ext y hy, hne, .inl (.inl ⟨edge x hx, edge y hy⟩)⟩

/-- The mixed faces: the two triangles, with their numbers, and the common edge. -/
structure Hinge (m0 : Soup P3 (MixedData D)) (border : List (Nat × Nat)) (i j : Nat) (f g : Tri Nat) (o z r s : Nat) : Prop where
  data : m0.data.length = m0.faces.length
  hf : m0.faces[i]? = some f
  hg : m0.faces[j]? = some g
  fi : Mix.owner m0.data i = true
  gj : Mix.owner m0.data j = false
  ti : Mix.tag m0.data i = .unknown
  tj : Mix.tag m0.data j = .unknown
  all : ∀ k, k < m0.faces.length → k = i ∨ k = j
  sf : SameFace ⟨o, z, r⟩ f
  sg : SameFace ⟨o, z, s⟩ g
  po : Mix.pts m0.points o = ⟨0, 0, 0⟩
  pz : Mix.pts m0.points z = ⟨0, 0, 4⟩
  pr : Mix.pts m0.points r = ⟨2, 2, 0⟩
  ps : Mix.pts m0.points s = ⟨1, 3, 0⟩
  border : border = [(min o z, max o z)]

theorem mem_same {α : Type} {f : Tri α} {o z r : α} (h : SameFace ⟨o, z, r⟩ f) : o ∈ f.toList ∧ z ∈ f.toList ∧ r ∈ f.toList := by
  rcases h with rfl | rfl | rfl <;> simp [Tri.toList, Tri.rot]

theorem list_single {α : Type} {l : List α} {x : α} (hn : l.Nodup) (hx : x ∈ l) (h : ∀ y ∈ l, y = x) : l = [x] := by
  match l with
  | [] => cases hx
  | [a] => rw [h a (by simp)]
  | a :: b :: l =>
    have h1 := h a (by simp)
    have h2 := h b (by simp)
    subst h1
    simp [h2] at hn

theorem hinge_gives {l r : Soup P3 D} (hops : Operands (both [wall] [door]) (both l r)) (hE : E.Valid (both [wall] [door])) (h : Gives E l r m0 border) : ∃ i j f g o z r s, Hinge m0 border i j f g o z r s := by
  obtain ⟨cut, ts, hc, hl⟩ := Corefine.gives_laid (s := both l r) hops hE h
  have hnd : border.Nodup ∧ ∀ e ∈ border, ∃ u v, Spec.IsEdgeOf e u v := by
    obtain ⟨s, finite, fs, ds, edges, -, -, -, he, hp, -⟩ := h
    obtain ⟨s', h1, h2, h3⟩ := C63_border s.infos
    rw [he] at h1
    cases h1
    refine ⟨hp.nodup_iff.2 h2, fun e hmem => ?_⟩
    obtain ⟨x, -, -, u, v, -, hu⟩ := (h3 e).1 (hp.subset hmem)
    exact ⟨u, v, hu⟩
  have hcut := cut_in (Cutting.laid_cutInto hc (Cutting.agree_of hc (conforming_circle hinge_complex)) hl) nook_zone (χ := both (fun x => det4 wall.a wall.b wall.c x < 0) (fun x => det4 door.a door.b door.c x < 0))
    (by intro b; cases b; exacts [(door_panel.is nook_zone).within, (wall_panel.is nook_zone).within]) (by intro b; cases b; exacts [(door_panel.is nook_zone).bounds, (wall_panel.is nook_zone).bounds])
  have sc := scene_of_cut hcut hl.points
  obtain ⟨i, f, hf, fi, sf⟩ := Cutting.conforming_has (b := true) hinge_complex hc hl (t := wall) (by simp [both])
  obtain ⟨j, g, hg, gj, sg⟩ := Cutting.conforming_has (b := false) hinge_complex hc hl (t := door) (by simp [both])
  obtain ⟨o, z, r, sf', po, pz, pr⟩ := same_face sf
  obtain ⟨o', z', s, sg', po', pz', ps⟩ := same_face sg
  have mf := List.mem_of_getElem? hf
  have mg := List.mem_of_getElem? hg
  obtain ⟨f1, f2, f3⟩ := mem_same sf'
  obtain ⟨g1, g2, g3⟩ := mem_same sg'
  obtain rfl : o = o' := sc.inj f mf g mg o f1 o' g1 (by rw [po, po']; rfl)
  obtain rfl : z = z' := sc.inj f mf g mg z f2 z' g2 (by rw [pz, pz']; rfl)
  have tag : ∀ {k : Nat} {e : Tri Nat}, m0.faces[k]? = some e → Mix.tag m0.data k = .unknown ∧ ((Mix.owner m0.data k = true ∧ SameTri (tri (Mix.pts m0.points) e) wall) ∨ (Mix.owner m0.data k = false ∧ SameTri (tri (Mix.pts m0.points) e) door)) := by
    intro k e he
    obtain ⟨t, ht, hs, htag⟩ := Cutting.conforming_face hinge_complex hc hl he
    have no : ∀ {b t u}, t ∈ both [wall] [door] b → u ∈ both [wall] [door] (!b) → ¬ Match t u := by
      intro b t u ht hu
      cases b
      · rw [List.mem_singleton.1 ht, List.mem_singleton.1 hu]; exact fun h => hinge_apart (match_symm h)
      · rw [List.mem_singleton.1 ht, List.mem_singleton.1 hu]; exact hinge_apart
    refine ⟨?_, ?_⟩
    · rcases htag with h | ⟨-, u, hu, h⟩ | ⟨-, u, hu, h⟩
      · exact h.1
      · exact absurd (.inl h) (no ht hu)
      · exact absurd (.inr h) (no ht hu)
    · cases ho : Mix.owner m0.data k <;> rw [ho] at ht
      · rw [List.mem_singleton.1 ht] at hs; exact .inr ⟨rfl, hs⟩
      · rw [List.mem_singleton.1 ht] at hs; exact .inl ⟨rfl, hs⟩
  have hoz : o ≠ z := by
    rintro rfl
    rw [po] at pz
    simp [wall] at pz
  have vert : ∀ {v}, (∃ e ∈ m0.faces, v ∈ e.toList) → ∀ x, m0.points[v]? = some x → Mix.pts m0.points v = x := by
    intro v _ x hx
    simp [Mix.pts, List.getD_eq_getElem?_getD, hx]
  have hsub : ∀ e ∈ border, (e.1 = o ∧ e.2 = z) ∨ (e.1 = z ∧ e.2 = o) := by
    intro e he
    obtain ⟨x, y, hx, hy, hb⟩ := hl.joined e he
    obtain ⟨hu1, hu2⟩ := hl.used e he
    have e1 := vert hu1 x hx
    have e2 := vert hu2 y hy
    obtain ⟨a, ha, ha'⟩ := hu1
    obtain ⟨b, hb1, hb'⟩ := hu2
    rcases hinge_border.1 hb with ⟨rfl, rfl⟩ | ⟨rfl, rfl⟩
    · exact .inl ⟨sc.inj a ha f mf _ ha' o f1 (e1.trans po.symm), sc.inj b hb1 f mf _ hb' z f2 (e2.trans pz.symm)⟩
    · exact .inr ⟨sc.inj a ha f mf _ ha' z f2 (e1.trans pz.symm), sc.inj b hb1 f mf _ hb' o f1 (e2.trans po.symm)⟩
  have hin : (min o z, max o z) ∈ border :=
    hl.border f mf o f1 z f2 _ _ ((Cutting.laid_point hl hf f1).1.trans (congrArg some po)) ((Cutting.laid_point hl hf f2).1.trans (congrArg some pz)) (hinge_border.2 (.inl ⟨rfl, rfl⟩))
  have hone : border = [(min o z, max o z)] := by
    refine list_single hnd.1 hin fun e he => ?_
    obtain ⟨u, v, hu⟩ := hnd.2 e he
    obtain ⟨a, b⟩ := e
    have := hsub _ he
    simp only at this
    unfold Spec.IsEdgeOf at hu
    simp only [Prod.mk.injEq] at hu ⊢
    omega
  refine ⟨i, j, f, g, o, z, r, s, hl.data, hf, hg, fi, gj, (tag hf).1, (tag hg).1, ?_, sf', sg', po, pz, pr, ps, ?_⟩
  · intro k hk
    have he : m0.faces[k]? = some m0.faces[k] := List.getElem?_eq_getElem hk
    rcases (tag he).2 with ⟨h1, h2⟩ | ⟨h1, h2⟩
    · exact .inl (sc.once k i _ _ he hf (h1.trans fi.symm) (match_trans (.inl h2) (match_symm (.inl sf))))
    · exact .inr (sc.once k j _ _ he hg (h1.trans gj.symm) (match_trans (.inl h2) (match_symm (.inl sg))))
  · exact hone

/-- What the classification is given for the edge, if the base vector in the plane orthogonal to the edge is that of the x-axis. -/
theorem hinge_input (hE' : E'.Valid (both [wall] [door])) (hbase : ∀ k, k ≠ 0 → (E'.base ⟨0, 0, k⟩).1 = ⟨1, 0, 0⟩) {i j : Nat} {f g : Tri Nat} {o z r s : Nat} (h : Hinge m0 border i j f g o z r s) {m : Mesh.Mesh}
    (hm : Mesh.Finalized m0.faces m) {edges : List (List Nat × Option (List Local.Entry))} (he : Mix.edgeInputs E' m0.faces m (Mix.pts m0.points) border = ok edges) :
    ∃ around, i ∈ around ∧ j ∈ around ∧ (edges = [(around, some [⟨i, r, true⟩, ⟨j, s, true⟩])] ∨ edges = [(around, some [⟨j, s, false⟩, ⟨i, r, false⟩])]) := by
  have hoz : o ≠ z := by rintro rfl; have := h.po.symm.trans h.pz; simp at this
  have hor : o ≠ r := by rintro rfl; have := h.po.symm.trans h.pr; simp at this
  have hos : o ≠ s := by rintro rfl; have := h.po.symm.trans h.ps; simp at this
  have hzr : z ≠ r := by rintro rfl; have := h.pz.symm.trans h.pr; simp at this
  have hzs : z ≠ s := by rintro rfl; have := h.pz.symm.trans h.ps; simp at this
  have hrs : r ≠ s := by rintro rfl; have := h.pr.symm.trans h.ps; simp at this
  have hij : i ≠ j := by rintro rfl; have := h.fi.symm.trans h.gj; simp at this
  obtain ⟨f1, f2, f3⟩ := mem_same h.sf
  obtain ⟨g1, g2, g3⟩ := mem_same h.sg
  have base : ∀ k, k ≠ 0 → E'.base ⟨0, 0, k⟩ = (⟨1, 0, 0⟩, ⟨0, k, 0⟩) := by
    intro k hk
    obtain ⟨-, -, h2⟩ := hE'.base ⟨0, 0, k⟩ (by simp [hk])
    have h1 := hbase k hk
    rw [h1] at h2
    refine Prod.ext h1 (h2.trans ?_)
    simp [cross]
  have key : ∀ p q, (p = o ∧ q = z) ∨ (p = z ∧ q = o) → Mix.edgeInputs E' m0.faces m (Mix.pts m0.points) [(p, q)] = ok edges →
      ∃ around l, i ∈ around ∧ j ∈ around ∧ (l = [(i, f), (j, g)] ∨ l = [(j, g), (i, f)]) ∧
        ∀ es, Radial.mkFaces (Mix.pts m0.points) (E'.base (sub (Mix.pts m0.points q) (Mix.pts m0.points p))).1 (E'.base (sub (Mix.pts m0.points q) (Mix.pts m0.points p))).2 p q l = ok es →
          edges = [(around, some ((E'.sort es).map (·.entry)))] := by
    intro p q hpq he
    have hne : p ≠ q := by rcases hpq with ⟨rfl, rfl⟩ | ⟨rfl, rfl⟩; exacts [hoz, hoz.symm]
    unfold Mix.edgeInputs at he
    rw [bind_eq_ok] at he
    obtain ⟨x, hx, he⟩ := he
    simp only [Mix.edgeInputs, ok_bind] at he
    cases he
    unfold Mix.edgeInput at hx
    rw [bind_eq_ok] at hx
    obtain ⟨around, ha, hx⟩ := hx
    rw [bind_eq_ok] at hx
    obtain ⟨l, hl, hx⟩ := hx
    simp only at hx ha
    obtain ⟨hu1, hu2⟩ := aroundEdge_used hm ha
    obtain ⟨around', ha', hsorted, hmem⟩ := C23_faces_around_edge hm hne hu1 hu2
    rw [ha] at ha'; cases ha'
    have inc : ∀ {v k : Nat} {e : Tri Nat}, m0.faces[k]? = some e → v ∈ e.toList → Spec.Incident m0.faces v k := fun hk hv => ⟨_, hk, by simpa [Tri.toList] using hv⟩
    have hi : i ∈ around := (hmem i).2 (by rcases hpq with ⟨rfl, rfl⟩ | ⟨rfl, rfl⟩; exacts [⟨inc h.hf f1, inc h.hf f2⟩, ⟨inc h.hf f2, inc h.hf f1⟩])
    have hj : j ∈ around := (hmem j).2 (by rcases hpq with ⟨rfl, rfl⟩ | ⟨rfl, rfl⟩; exacts [⟨inc h.hg g1, inc h.hg g2⟩, ⟨inc h.hg g2, inc h.hg g1⟩])
    have htwo := two_increasing hsorted hij fun k => ⟨fun hk => by
      obtain ⟨⟨e, he, -⟩, -⟩ := (hmem k).1 hk
      exact h.all k (List.getElem?_eq_some_iff.1 he).1, by rintro (rfl | rfl); exacts [hi, hj]⟩
    refine ⟨around, l, hi, hj, ?_, ?_⟩
    · rcases htwo with rfl | rfl
      · simp [Mix.numbered, at!, h.hf, h.hg] at hl
        exact .inl hl.symm
      · simp [Mix.numbered, at!, h.hf, h.hg] at hl
        exact .inr hl.symm
    · intro es hes
      rw [hes] at hx
      cases hx
      rfl
  have hb : border = [(o, z)] ∨ border = [(z, o)] := by
    rw [h.border]
    rcases Nat.le_total o z with h | h
    · rw [Nat.min_eq_left h, Nat.max_eq_right h]; exact .inl rfl
    · rw [Nat.min_eq_right h, Nat.max_eq_left h]; exact .inr rfl
  rcases hb with hb | hb <;> rw [hb] at he
  · obtain ⟨around, l, hi, hj, hl, hes⟩ := key o z (.inl ⟨rfl, rfl⟩) he
    refine ⟨around, hi, hj, .inl ?_⟩
    have eb : E'.base (sub (Mix.pts m0.points z) (Mix.pts m0.points o)) = (⟨1, 0, 0⟩, ⟨0, 4, 0⟩) := by rw [h.po, h.pz, ← base 4 (by norm_num)]; norm_num [sub]
    rw [eb] at hes
    have ef : Radial.mkFace (Mix.pts m0.points) ⟨1, 0, 0⟩ ⟨0, 4, 0⟩ o z i f = ok ⟨⟨i, r, true⟩, ⟨2, 8⟩, 1⟩ := by
      unfold Radial.mkFace
      rw [entry_along h.sf hoz hzr hor]
      norm_num [ok_bind, h.pr, h.po, sub, dot, Radial.radialBin, sgn]
    have eg : Radial.mkFace (Mix.pts m0.points) ⟨1, 0, 0⟩ ⟨0, 4, 0⟩ o z j g = ok ⟨⟨j, s, true⟩, ⟨1, 12⟩, 1⟩ := by
      unfold Radial.mkFace
      rw [entry_along h.sg hoz hzs hos]
      norm_num [ok_bind, h.ps, h.po, sub, dot, Radial.radialBin, sgn]
    have hes' : ∃ es, Radial.mkFaces (Mix.pts m0.points) ⟨1, 0, 0⟩ ⟨0, 4, 0⟩ o z l = ok es ∧ (es = [⟨⟨i, r, true⟩, ⟨2, 8⟩, 1⟩, ⟨⟨j, s, true⟩, ⟨1, 12⟩, 1⟩] ∨ es = [⟨⟨j, s, true⟩, ⟨1, 12⟩, 1⟩, ⟨⟨i, r, true⟩, ⟨2, 8⟩, 1⟩]) := by
      rcases hl with rfl | rfl
      · exact ⟨_, by simp only [Radial.mkFaces, ef, eg, ok_bind], .inl rfl⟩
      · exact ⟨_, by simp only [Radial.mkFaces, ef, eg, ok_bind], .inr rfl⟩
    obtain ⟨es, h1, h2⟩ := hes'
    rw [hes es h1, sort_two hE' (by simp [Radial.radialLt]) (by simp [Radial.radialLt]) (by norm_num [Radial.radialLt, hrs, Geo.det2, sgn]) (by norm_num [Radial.radialLt, hrs.symm, Geo.det2, sgn]) h2]
    rfl
  · obtain ⟨around, l, hi, hj, hl, hes⟩ := key z o (.inr ⟨rfl, rfl⟩) he
    refine ⟨around, hi, hj, .inr ?_⟩
    have eb : E'.base (sub (Mix.pts m0.points o) (Mix.pts m0.points z)) = (⟨1, 0, 0⟩, ⟨0, -4, 0⟩) := by rw [h.po, h.pz, ← base (-4) (by norm_num)]; norm_num [sub]
    rw [eb] at hes
    have ef : Radial.mkFace (Mix.pts m0.points) ⟨1, 0, 0⟩ ⟨0, -4, 0⟩ z o i f = ok ⟨⟨i, r, false⟩, ⟨2, -8⟩, 7⟩ := by
      unfold Radial.mkFace
      rw [entry_against h.sf hoz.symm hor hzr]
      norm_num [ok_bind, h.pr, h.pz, sub, dot, Radial.radialBin, sgn]
    have eg : Radial.mkFace (Mix.pts m0.points) ⟨1, 0, 0⟩ ⟨0, -4, 0⟩ z o j g = ok ⟨⟨j, s, false⟩, ⟨1, -12⟩, 7⟩ := by
      unfold Radial.mkFace
      rw [entry_against h.sg hoz.symm hos hzs]
      norm_num [ok_bind, h.ps, h.pz, sub, dot, Radial.radialBin, sgn]
    have hes' : ∃ es, Radial.mkFaces (Mix.pts m0.points) ⟨1, 0, 0⟩ ⟨0, -4, 0⟩ z o l = ok es ∧ (es = [⟨⟨j, s, false⟩, ⟨1, -12⟩, 7⟩, ⟨⟨i, r, false⟩, ⟨2, -8⟩, 7⟩] ∨ es = [⟨⟨i, r, false⟩, ⟨2, -8⟩, 7⟩, ⟨⟨j, s, false⟩, ⟨1, -12⟩, 7⟩]) := by
      rcases hl with rfl | rfl
      · exact ⟨_, by simp only [Radial.mkFaces, ef, eg, ok_bind], .inr rfl⟩
      · exact ⟨_, by simp only [Radial.mkFaces, ef, eg, ok_bind], .inl rfl⟩
    obtain ⟨es, h1, h2⟩ := hes'
    rw [hes es h1, sort_two hE' (by simp [Radial.radialLt]) (by simp [Radial.radialLt]) (by norm_num [Radial.radialLt, hrs.symm, Geo.det2, sgn]) (by norm_num [Radial.radialLt, hrs, Geo.det2, sgn]) h2]
    rfl

theorem side_ends {e : Tri Nat} {v w : Nat} (h : Spec.IsSide e v w) : (v = e.a ∨ v = e.b ∨ v = e.c) ∧ (w = e.a ∨ w = e.b ∨ w = e.c) := by
  rcases h with ⟨rfl, rfl⟩ | ⟨rfl, rfl⟩ | ⟨rfl, rfl⟩ <;> simp

theorem side_ne {o z t v w : Nat} {e : Tri Nat} (h : SameFace ⟨o, z, t⟩ e) (hs : Spec.IsSide e v w) (h1 : o ≠ z) (h2 : o ≠ t) (h3 : z ≠ t) : v ≠ w := by
  rcases h with rfl | rfl | rfl <;> rcases hs with ⟨rfl, rfl⟩ | ⟨rfl, rfl⟩ | ⟨rfl, rfl⟩ <;> first | assumption | (apply Ne.symm; assumption)

theorem ends_same {o z t v w : Nat} {e : Tri Nat} (h : SameFace ⟨o, z, t⟩ e) (hs : (v = e.a ∨ v = e.b ∨ v = e.c) ∧ (w = e.a ∨ w = e.b ∨ w = e.c)) : (v = o ∨ v = z ∨ v = t) ∧ (w = o ∨ w = z ∨ w = t) := by
  rcases h with rfl | rfl | rfl <;> simp only [Tri.rot] at hs <;> tauto

theorem two_common {o z r s v w : Nat} (hrs : r ≠ s) (hvw : v ≠ w) (h : (v = o ∨ v = z ∨ v = r) ∧ (w = o ∨ w = z ∨ w = r)) (h' : (v = o ∨ v = z ∨ v = s) ∧ (w = o ∨ w = z ∨ w = s)) : (v = o ∧ w = z) ∨ (v = z ∧ w = o) := by
  have h1 : v = o ∨ v = z := by
    rcases h.1 with h | h | h
    · exact .inl h
    · exact .inr h
    · rcases h'.1 with k | k | k
      · exact .inl k
      · exact .inr k
      · exact absurd (h.symm.trans k) hrs
  have h2 : w = o ∨ w = z := by
    rcases h.2 with h | h | h
    · exact .inl h
    · exact .inr h
    · rcases h'.2 with k | k | k
      · exact .inl k
      · exact .inr k
      · exact absurd (h.symm.trans k) hrs
  rcases h1 with h1 | h1 <;> rcases h2 with h2 | h2
  · exact absurd (h1.trans h2.symm) hvw
  · exact .inl ⟨h1, h2⟩
  · exact .inr ⟨h1, h2⟩
  · exact absurd (h1.trans h2.symm) hvw

/-- The classification is wrong about both triangles, and does not warn. -/
theorem hinge_tags {l r0 : Soup P3 D} (hE' : E'.Valid (both [wall] [door])) (hbase : ∀ k, k ≠ 0 → (E'.base ⟨0, 0, k⟩).1 = ⟨1, 0, 0⟩) {i j : Nat} {f g : Tri Nat} {o z r s : Nat} (h : Hinge m0 border i j f g o z r s)
    {out : Soup P3 (MixedData D)} {w : Global.Warnings} (hr : Mix.Result E' l r0 m0 border out w) :
    w = .none ∧ ∃ tags, out = ⟨m0.points, m0.faces, Mix.retag tags 0 m0.data⟩ ∧ tags i = .exterior ∧ tags j = .interior := by
  obtain ⟨m, edges, tags1, tags2, w1, w2, hm, he, hloc, hglob, rfl, rfl⟩ := hr
  have hrs : r ≠ s := by rintro rfl; have := h.pr.symm.trans h.ps; simp at this
  have hij : i ≠ j := by rintro rfl; have := h.fi.symm.trans h.gj; simp at this
  have hoz : o ≠ z := by rintro rfl; have := h.po.symm.trans h.pz; simp at this
  have hor : o ≠ r := by rintro rfl; have := h.po.symm.trans h.pr; simp at this
  have hos : o ≠ s := by rintro rfl; have := h.po.symm.trans h.ps; simp at this
  have hzr : z ≠ r := by rintro rfl; have := h.pz.symm.trans h.pr; simp at this
  have hzs : z ≠ s := by rintro rfl; have := h.pz.symm.trans h.ps; simp at this
  have hB : ∀ v w, (v = o ∧ w = z) ∨ (v = z ∧ w = o) → Spec.IsBorder border v w := by
    rw [h.border]
    unfold Spec.IsBorder
    rintro v w (⟨rfl, rfl⟩ | ⟨rfl, rfl⟩)
    · simp
    · simp [Nat.min_comm, Nat.max_comm]
  have apart : ∀ {k k' : Nat}, (k = i ∧ k' = j) ∨ (k = j ∧ k' = i) → ¬ Spec.SharesNonBorder m0.faces border k k' := by
    rintro k k' hk ⟨e, v, w, he, hs, hn, ⟨e1, he1, hv⟩, e2, he2, hw⟩
    rw [he1] at he2; cases he2
    have hs' := side_ends hs
    have fin : v ≠ w → (v = o ∨ v = z ∨ v = r) ∧ (w = o ∨ w = z ∨ w = r) → (v = o ∨ v = z ∨ v = s) ∧ (w = o ∨ w = z ∨ w = s) → False := by
      intro h1 h2 h3
      exact hn (hB v w (two_common hrs h1 h2 h3))
    rcases hk with ⟨rfl, rfl⟩ | ⟨rfl, rfl⟩
    · rw [h.hf] at he; cases he
      rw [h.hg] at he1; cases he1
      exact fin (side_ne h.sf hs hoz hor hzr) (ends_same h.sf hs') (ends_same h.sg ⟨hv, hw⟩)
    · rw [h.hg] at he; cases he
      rw [h.hf] at he1; cases he1
      exact fin (side_ne h.sg hs hoz hos hzs) (ends_same h.sf ⟨hv, hw⟩) (ends_same h.sg hs')
  obtain ⟨around, hi, hj, hed⟩ := hinge_input hE' hbase h hm he
  have nbr := (Local.meshEnv_nbr hm border (Mix.owner m0.data)).1
  have all1 : ∀ {k k'}, Spec.SharesNonBorder m0.faces border k k' → k' = i ∨ k' = j := by
    rintro k k' ⟨e, v, w, he, hs, hn, ⟨e1, he1, hv⟩, -⟩
    exact h.all k' (List.getElem?_eq_some_iff.1 he1).1
  have ni : ∀ k ∈ (Mix.env m0.faces m border (Mix.owner m0.data)).nbr i, k = i := by
    intro k hk
    have hs := nbr i k hk
    rcases all1 hs with rfl | rfl
    · rfl
    · exact absurd hs (apart (.inl ⟨rfl, rfl⟩))
  have nj : ∀ k ∈ (Mix.env m0.faces m border (Mix.owner m0.data)).nbr j, k = j := by
    intro k hk
    have hs := nbr j k hk
    rcases all1 hs with rfl | rfl
    · exact absurd hs (apart (.inr ⟨rfl, rfl⟩))
    · rfl
  have res : w1 = .none ∧ tags1 i = .exterior ∧ tags1 j = .interior := by
    rcases hed with rfl | rfl
    · obtain ⟨tags', h1, h2, h3⟩ := Local.pair_run hij hrs h.ti h.tj ni nj hi (Local.one_edge hloc)
      cases h1
      exact ⟨rfl, h2, h3⟩
    · obtain ⟨tags', h1, h2, h3⟩ := Local.pair_run hij.symm hrs.symm h.tj h.ti nj ni hj (Local.one_edge hloc)
      cases h1
      exact ⟨rfl, h3, h2⟩
  obtain ⟨rfl, h2, h3⟩ := res
  obtain ⟨rfl, rfl⟩ := Global.nothing_left hglob (by
    intro k hk
    rcases h.all k hk with rfl | rfl
    · rw [h2]; simp
    · rw [h3]; simp)
  exact ⟨rfl, tags2, rfl, h2, h3⟩

/-- Faces inside of the other operand are not in the union. -/
theorem outTris_union {ts : List (Tri P3)} {data : List (MixedData D)} {pf : Bool} {p : Tri P3} (h : p ∈ outTris ts data .union pf) :
    ∃ (i : Nat) (t : Tri P3) (d : MixedData D), ts[i]? = some t ∧ data[i]? = some d ∧ d.tag ≠ .interior ∧ (p = t ∨ p = t.flip) := by
  unfold outTris at h
  rw [List.mem_filterMap] at h
  obtain ⟨⟨t, d⟩, hmem, h⟩ := h
  obtain ⟨i, hi⟩ := List.getElem?_of_mem hmem
  rw [List.getElem?_zip_eq_some] at hi
  rw [Option.map_eq_some_iff] at h
  obtain ⟨inv, hs, rfl⟩ := h
  refine ⟨i, t, d, hi.1, hi.2, ?_, ?_⟩
  · intro hu
    simp only [hu] at hs
    revert hs
    cases pf <;> cases d.fromLeft <;> decide +revert
  · cases inv <;> simp

theorem hinge_operands : Operands (both [wall] [door]) (both (panel wall).boundary (panel door).boundary) :=
  open_operands (orig := both [wall] [door]) (χ := both (fun x => det4 wall.a wall.b wall.c x < 0) (fun x => det4 door.a door.b door.c x < 0)) (wall_panel.is nook_zone) (door_panel.is nook_zone)

/-- **Open meshes with a common edge at the end of the convex set.** Two triangles that cut a tetrahedron, without self-intersections, meet in one of its edges. If the first base vector that CGAL gives for planes orthogonal to the edge
is (1, 0, 0), the operation returns, and whatever the threads do and whatever triangulations CGAL gives, there is no warning, and the boundary of the union is the boundary of the smaller one of the sets; it does not bound the union. -/
theorem C93_common_edge_false (hE : E.Valid (both [wall] [door])) (hE' : E'.Valid (both [wall] [door])) (hbase : ∀ k, k ≠ 0 → (E'.base ⟨0, 0, k⟩).1 = ⟨1, 0, 0⟩) :
    (∃ bb w, Mix.Built E' (Gives E) (panel wall) (panel door) bb w) ∧ ∀ bb w, Mix.Built E' (Gives E) (panel wall) (panel door) bb w → w = .none ∧ ∀ pf, ∃ r, bb.run .union pf = ok r ∧
      (∀ ts, HasCorners r.boundary.points r.boundary.faces ts → ∀ x, Surface ts x → In wall x) ∧
      ¬ DenotesIn nook r (fun x => x ∈ onSets .union {x | x.y < x.x} {x | x.y < 3 * x.x}) (fun x => In wall x ∨ In door x) := by
  refine ⟨panels_return nook_zone wall_panel door_panel (Crossing.of_normals (by decide +kernel)) hE hE', fun bb w h => ?_⟩
  unfold Mix.Built at h
  rw [if_neg (by simp [panel, Region.isEmptyOrFull, Region.isEmpty, Region.isFull])] at h
  obtain ⟨m0, border, hm0, hres, -, -⟩ := h
  obtain ⟨cut, ts0, hc, hl⟩ := Corefine.gives_laid hinge_operands hE hm0
  obtain ⟨i, j, f, g, o, z, r, s, hh⟩ := hinge_gives hinge_operands hE hm0
  obtain ⟨hw, tags, hout, ti, tj⟩ := hinge_tags hE' hbase hh hres
  refine ⟨hw, fun pf => ?_⟩
  have hlen : bb.m.data.length = bb.m.faces.length := by rw [hout]; simp only [retag_length]; exact hh.data
  obtain ⟨so, hs, hsc, -, -⟩ := extract_corners (m := bb.m) (ts := ts0) (by rw [hout]; exact hl.corners) hlen .union pf
  have hti := corner_tri hl.corners hh.hf
  have hne : so.faces.length ≠ 0 := by
    rw [List.Forall₂.length_eq hsc]
    intro h0
    rw [List.length_eq_zero_iff, List.eq_nil_iff_forall_not_mem] at h0
    obtain ⟨d, hd, -, -⟩ := Cutting.laid_data hl hh.hf
    have hd' : bb.m.data[i]? = some { d with tag := .exterior } := by rw [hout]; simp only [retag_get, hd, Option.map_some, Nat.zero_add, ti]
    refine h0 (tri (Mix.pts m0.points) f) (List.mem_filterMap.2 ⟨(tri (Mix.pts m0.points) f, { d with tag := .exterior }), List.mem_of_getElem? (i := i) (List.getElem?_zip_eq_some.2 ⟨hti, hd'⟩), ?_⟩)
    cases pf <;> cases hdl : d.fromLeft <;> simp only [hdl] <;> rfl
  have hsurf : ∀ ts, HasCorners so.points so.faces ts → ∀ x, Surface ts x → In wall x := by
    intro ts hts x hx
    rw [hasCorners_unique hts hsc] at hx
    obtain ⟨p, hp, hin⟩ := hx
    obtain ⟨k, t, d, ht, hd, htag, hpt⟩ := outTris_union hp
    have hk : k < m0.faces.length := by rw [hl.corners.length_eq]; exact (List.getElem?_eq_some_iff.1 ht).1
    rcases hh.all k hk with rfl | rfl
    · have hin' : In t x := by
        rcases hpt with rfl | rfl
        · exact hin
        · exact in_match (.inr (.inl (by cases t; rfl))) hin
      rw [hti] at ht
      cases ht
      obtain ⟨t', ht', hsame, -⟩ := Cutting.conforming_face (op := both [wall] [door]) hinge_complex hc hl hh.hf
      rw [hh.fi] at ht'
      rw [List.mem_singleton.1 ht'] at hsame
      exact in_match (.inl hsame) hin'
    · exfalso
      rw [hout, retag_get, Option.map_eq_some_iff] at hd
      obtain ⟨d', -, rfl⟩ := hd
      simp [tj] at htag
  refine ⟨⟨.boundaryDefined, so⟩, ?_, hsurf, ?_⟩
  · unfold Builder.run
    rw [hs, ok_bind, if_pos hne]
    unfold Region.ofSoup
    rw [if_neg hne]
  · rintro ⟨ts, χ', hsol, -, hag⟩
    have hon := hsurf ts hsol.corners
    have off : ∀ x : P3, x.y ≠ x.x → x.y ≠ 3 * x.x → ¬ (In wall x ∨ In door x) := by
      rintro x h1 h2 (h | h)
      · have e1 := (Side.eval_plane wall x).symm.trans (Side.plane_in h)
        rw [wall_det] at e1
        exact h1 (by linarith)
      · have e1 := (Side.eval_plane door x).symm.trans (Side.plane_in h)
        rw [door_det] at e1
        exact h2 (by linarith)
    have k1 : nook ⟨1, 2, 1 / 4⟩ := by norm_num [nook]
    have k2 : nook ⟨1 / 2, 2, 1 / 4⟩ := by norm_num [nook]
    have hconst := hsol.bounds.const _ _ k1 k2 (by
      rintro y ⟨s, t, one, s0, t0, rfl⟩ hy
      have h := hon _ hy
      have e1 := (Side.eval_plane wall _).symm.trans (Side.plane_in h)
      rw [wall_det] at e1
      simp only at e1
      linarith)
    have a1 := hag _ k1 (off _ (by norm_num) (by norm_num))
    have a2 := hag _ k2 (off _ (by norm_num) (by norm_num))
    rw [a1, a2] at hconst
    have : (⟨1 / 2, 2, 1 / 4⟩ : P3) ∈ onSets .union {x : P3 | x.y < x.x} {x : P3 | x.y < 3 * x.x} := hconst.1 (.inr (by norm_num))
    rcases this with h | h <;> norm_num at h

/-- **The conditions on open meshes (README.md) are not enough**: there are two open meshes without degenerate faces and self-intersections in a convex set whose union, computed without a warning in every execution, is wrong. -/
theorem C93_full_claim_false : ∃ (K : P3 → Prop) (a b : Region P3 Unit) (orig : Bool → List (Tri P3)) (χ : Bool → P3 → Prop) (E : Env) (E' : Mix.Env), Zone K ∧ IsSolidIn K a (orig true) (χ true) ∧ IsSolidIn K b (orig false) (χ false) ∧
    E.Valid orig ∧ E'.Valid orig ∧ NoOverlap orig ∧ (∃ bb w, Mix.Built E' (Gives E) a b bb w) ∧ ∀ bb w, Mix.Built E' (Gives E) a b bb w → w = .none ∧
      ∃ r, bb.run .union false = ok r ∧ ¬ DenotesIn K r (fun x => x ∈ onSets .union {x | χ true x} {x | χ false x}) (fun x => Surface (orig true) x ∨ Surface (orig false) x) := by
  have hE' : (someEnv (both [wall] [door])).Valid (both [wall] [door]) := C70_consistent (orig := both [wall] [door]) (by
    intro c v hv
    cases c
    · rw [List.mem_singleton.1 hv]; exact door_panel.proper
    · rw [List.mem_singleton.1 hv]; exact wall_panel.proper)
  obtain ⟨h1, h2⟩ := C93_common_edge_false (C74_consistent _) hE' (by intro k hk; simp [someEnv])
  refine ⟨nook, panel wall, panel door, both [wall] [door], both (fun x => det4 wall.a wall.b wall.c x < 0) (fun x => det4 door.a door.b door.c x < 0), Corefine.exactEnv (both [wall] [door]), someEnv (both [wall] [door]), nook_zone,
    wall_panel.is nook_zone, door_panel.is nook_zone, C74_consistent _, hE', Crossing.of_normals (by decide +kernel), h1, fun bb w h => ?_⟩
  obtain ⟨hw, hr⟩ := h2 bb w h
  obtain ⟨r, hr, -, hd⟩ := hr false
  refine ⟨hw, r, hr, ?_⟩
  have e : (fun x => x ∈ onSets .union {x : P3 | x.y < x.x} {x : P3 | x.y < 3 * x.x}) = fun x => x ∈ onSets .union {x | both (fun x => det4 wall.a wall.b wall.c x < 0) (fun x => det4 door.a door.b door.c x < 0) true x}
      {x | both (fun x => det4 wall.a wall.b wall.c x < 0) (fun x => det4 door.a door.b door.c x < 0) false x} := by
    have e1 : {x : P3 | x.y < x.x} = {x | det4 wall.a wall.b wall.c x < 0} := by ext x; simp only [wall_det, Set.mem_setOf_eq]; constructor <;> intro h <;> linarith
    have e2 : {x : P3 | x.y < 3 * x.x} = {x | det4 door.a door.b door.c x < 0} := by ext x; simp only [door_det, Set.mem_setOf_eq]; constructor <;> intro h <;> linarith
    rw [e1, e2]; rfl
  rw [e] at hd
  simpa only [both, Surface, if_true, Bool.false_eq_true, if_false, List.mem_singleton, exists_eq_left] using hd

end Kigumi.Props

import Verif.Proofs.Mixed

/-! # The classification returns -/
namespace Kigumi.TagProg
open Kigumi Global
open Kigumi.Flood (set_same set_other)

/-- No path throws. -/
def NoFail : Prog → Prop
  | .ret _ => True
  | .fail => False
  | .diverge => True
  | .read _ k => ∀ t, NoFail (k t)
  | .write _ _ k => NoFail k

theorem Exec.trans {a b c : Cfg} (h : Exec a b) (h' : Exec b c) : Exec a c := by
  induction h' with
  | init => exact h
  | step _ st ih => exact ih.step st

/-- A program that does not throw can be run to its end. -/
theorem run_one {c0 : Cfg} (hd : ∀ c, Exec c0 c → ∀ i, c.prog i ≠ .diverge) (i : Nat) (p : Prog) (hp : NoFail p) (c : Cfg) (h : Exec c0 c) (hi : c.prog i = p) :
    ∃ c', Exec c0 c' ∧ (∃ w, c'.prog i = .ret w) ∧ ∀ j, j ≠ i → c'.prog j = c.prog j := by
  induction p generalizing c with
  | ret w => exact ⟨c, h, ⟨w, hi⟩, fun _ _ => rfl⟩
  | fail => exact hp.elim
  | diverge => exact absurd hi (hd c h i)
  | read f k ih =>
    obtain ⟨c', h1, h2, h3⟩ := ih (c.tags f) (hp _) _ (h.step (Step.read hi)) (set_same _ _ _)
    exact ⟨c', h1, h2, fun j hj => by rw [h3 j hj]; exact set_other _ _ hj⟩
  | write f t k ih =>
    obtain ⟨c', h1, h2, h3⟩ := ih hp _ (h.step (Step.write hi)) (set_same _ _ _)
    exact ⟨c', h1, h2, fun j hj => by rw [h3 j hj]; exact set_other _ _ hj⟩

theorem run_all {c0 : Cfg} (hd : ∀ c, Exec c0 c → ∀ i, c.prog i ≠ .diverge) (hp : ∀ i, NoFail (c0.prog i)) (n : Nat) :
    ∃ c, Exec c0 c ∧ (∀ i, i < n → ∃ w, c.prog i = .ret w) ∧ ∀ i, n ≤ i → c.prog i = c0.prog i := by
  induction n with
  | zero => exact ⟨c0, .init, by simp, fun _ _ => rfl⟩
  | succ n ih =>
    obtain ⟨c, h1, h2, h3⟩ := ih
    obtain ⟨c', h4, h5, h6⟩ := run_one hd n _ (h3 n (le_refl _) ▸ hp n) c h1 rfl
    refine ⟨c', h4, fun i hi => ?_, fun i hi => ?_⟩
    · by_cases h : i = n
      · exact h ▸ h5
      · rw [h6 i h]; exact h2 i (by omega)
    · rw [h6 i (by omega)]; exact h3 i (by omega)

end Kigumi.TagProg

namespace Kigumi.Local
open Kigumi TagProg Global

theorem floodLoop_noFail {E : Env} {tag : Tag} {fl : Warnings} {k : Warnings → Prog} (hk : ∀ w, NoFail (k w)) (fuel : Nat) (pending queue : List Nat) (w : Warnings) : NoFail (floodLoop E tag fl k fuel pending queue w) := by
  fun_induction floodLoop E tag fl k fuel pending queue w with
  | case1 => exact hk _
  | case2 => trivial
  | case3 => assumption
  | case4 fuel w g p q ih1 ih2 =>
    intro t
    dsimp only
    split
    · exact ih1
    · intro t'; exact ih2 t'

theorem flood_noFail {E : Env} {seed : Nat} {k : Warnings → Prog} (hk : ∀ w, NoFail (k w)) : NoFail (flood E seed k) := fun _ => floodLoop_noFail hk _ _ _ _

theorem propagate_noFail {E : Env} (cs : List Entry) (w : Warnings) : NoFail (propagate E cs w) := by
  induction cs generalizing w with
  | nil => trivial
  | cons f fs ih =>
    intro t
    dsimp only
    split
    · exact flood_noFail fun _ => ih _
    · exact ih _

theorem findUntagged_noFail {k : Bool → Prog} (hk : ∀ b, NoFail (k b)) (l : List Nat) : NoFail (findUntagged l k) := by
  induction l with
  | nil => exact hk _
  | cons f fs ih =>
    intro t
    dsimp only
    split
    · exact hk _
    · exact ih

theorem step1_noFail {cs : List Entry} {k : Prog} (hk : NoFail k) (is : List Nat) : NoFail (step1 cs is k) := by
  induction is with
  | nil => exact hk
  | cons i is ih =>
    simp only [step1]
    split
    · exact ih
    · exact ih

theorem isOverlapping_noFail {f : Nat} {k : Bool → Prog} (hk : ∀ b, NoFail (k b)) : NoFail (isOverlapping f k) := by
  intro t
  dsimp only
  split
  · exact hk _
  · intro t'; exact hk _

theorem step2_noFail {cs : List Entry} {k : Option Nat → Prog} (hk : ∀ b, NoFail (k b)) (is : List Nat) (st : Option Nat) : NoFail (step2 cs is st k) := by
  induction is generalizing st with
  | nil => exact hk _
  | cons i is ih =>
    simp only [step2]
    refine isOverlapping_noFail fun b => ?_
    split
    · exact ih _
    · refine isOverlapping_noFail fun b => ?_
      split
      · exact ih _
      · split
        · split
          · exact ih _
          · exact ih _
        · exact ih _

theorem tour_noFail {cs : List Entry} {dry : Bool} {k : Bool → Prog} (hk : ∀ b, NoFail (k b)) (is : List Nat) (tag : Tag) (ccw : Bool) : NoFail (tour cs dry is tag ccw k) := by
  induction is generalizing tag ccw with
  | nil => exact hk _
  | cons i is ih =>
    simp only [tour]
    have check : ∀ (tag tag' : Tag) (c : Bool), NoFail (Prog.read (nth cs (i % cs.length)).fi fun t => if t ≠ tag then k false else tour cs dry is tag' c k) := by
      intro tag tag' c t
      dsimp only
      split
      · exact hk _
      · exact ih _ _
    intro t
    dsimp only
    split
    · split
      · exact ih _ _
      · exact ih _ _
    · intro t
      dsimp only
      split
      · exact check _ _ _
      · intro t
        dsimp only
        split
        · exact check _ _ _
        · exact ih _ _

theorem step3_noFail {cs : List Entry} {k : Nat} {rest : Prog} (hr : NoFail rest) : NoFail (step3 cs k rest) := by
  intro t
  refine tour_noFail (fun b => ?_) _ _ _
  split
  · intro t; exact tour_noFail (fun _ => hr) _ _ _
  · exact hr

theorem body_noFail (E : Env) (around : List Nat) (cs : List Entry) : NoFail (body E around (some cs)) := by
  refine findUntagged_noFail (fun b => ?_) _
  split
  · refine step1_noFail (step2_noFail (fun st => ?_) _ _) _
    cases st with
    | none => exact propagate_noFail _ _
    | some k => exact step3_noFail (propagate_noFail _ _)
  · trivial

/-- If no entry throws, the local classification has a result. -/
theorem local_exists {E : Env} (hn : ∀ f, ∀ g ∈ E.nbr f, g < E.n) {edges : List (List Nat × Option (List Entry))} (he : ∀ e ∈ edges, e.2 ≠ none) (tags0 : Nat → Tag) :
    ∃ tags w, Result E edges tags0 tags w ∧ ∀ g, tags0 g ≠ .unknown → tags g ≠ .unknown := by
  classical
  have hd : ∀ c, Exec (start E edges tags0) c → ∀ i, c.prog i ≠ .diverge := fun c hc =>
    (local_result (ok := fun _ _ => True) hn (by intro _ _ _ _ _; trivial) (by intros; trivial) (fun _ => False) (by intro e _ cs _; exact ⟨_, _, edge_any cs, by simp⟩) hc).2.1
  obtain ⟨c, h1, h2, -⟩ := run_all hd (by
    intro i
    simp only [start]
    cases hei : edges[i]? with
    | none => trivial
    | some e =>
      obtain ⟨around, sorted⟩ := e
      cases sorted with
      | none => exact absurd rfl (he _ (List.mem_of_getElem? hei))
      | some cs => exact body_noFail _ _ _) edges.length
  choose ws hws using h2
  refine ⟨c.tags, _, ⟨c, fun i => if h : i < edges.length then ws i h else .none, List.range edges.length, h1, rfl, fun i hi => ?_, List.Perm.refl _, rfl⟩, local_stays hn h1⟩
  rw [hws i hi]; simp [hi]

end Kigumi.Local

namespace Kigumi.Mesh
open Kigumi

/-- The pairs can be sorted. -/
theorem finalized_exists (fs : List (Tri Nat)) : ∃ m, Finalized fs m := by
  classical
  refine ⟨_, (pairs 0 fs).mergeSort (fun x y => decide (¬ pairLt y x)), List.mergeSort_perm _ _, ?_, rfl⟩
  have := List.pairwise_mergeSort (le := fun x y => decide (¬ pairLt y x)) (by
    rintro ⟨a1, a2⟩ ⟨b1, b2⟩ ⟨c1, c2⟩ h1 h2
    replace h1 := of_decide_eq_true h1
    replace h2 := of_decide_eq_true h2
    refine decide_eq_true ?_
    simp only [pairLt] at h1 h2 ⊢; omega) (by
    rintro ⟨a1, a2⟩ ⟨b1, b2⟩
    rw [Bool.or_eq_true]
    by_cases h : pairLt (b1, b2) (a1, a2)
    · refine Or.inr (decide_eq_true ?_)
      simp only [pairLt] at h ⊢; omega
    · exact Or.inl (decide_eq_true h)) (pairs 0 fs)
  exact this.imp (by simp)

end Kigumi.Mesh

namespace Kigumi.Space
open Kigumi Outcome Geo Radial Local Spec.Triangles Spec.Side
open Kigumi.Spec (SameTri Apex HasCorners operandTris)
variable {D : Type}

theorem mkEntry_exists {p q r fi : Nat} {f : Tri Nat} (hd : f.a ≠ f.b ∧ f.b ≠ f.c ∧ f.a ≠ f.c) (h : Apex p q f r) : ∃ e, mkEntry p q fi f = ok e ∧ e.r = r := by
  obtain ⟨a, b, c⟩ := f
  simp only at hd
  obtain ⟨h1, h2, h3⟩ := hd
  simp only [Apex, Spec.SameFace, Tri.rot, Tri.mk.injEq] at h
  rcases h with (⟨rfl, rfl, rfl⟩ | ⟨rfl, rfl, rfl⟩ | ⟨rfl, rfl, rfl⟩) | (⟨rfl, rfl, rfl⟩ | ⟨rfl, rfl, rfl⟩ | ⟨rfl, rfl, rfl⟩) <;>
    simp [mkEntry, findCorner, cornerAt, h1, h2, h3, h1.symm, h2.symm, h3.symm]

theorem proper_off_line {a b c : P3} (h : Proper ⟨a, b, c⟩) : ¬ Spec.OnLine a b c := by
  rintro ⟨t, h1, h2, h3⟩
  refine h ?_
  unfold outward
  simp only [Spec.P3.mk.injEq]
  rw [h1, h2, h3]
  refine ⟨by ring, by ring, by ring⟩

theorem mkFaces_exists {pts : Nat → P3} {u v : P3} {p q : Nat} {l : List (Nat × Tri Nat)} (h : ∀ g ∈ l, ∃ e, mkFace pts u v p q g.1 g.2 = ok e) : ∃ es, mkFaces pts u v p q l = ok es := by
  induction l with
  | nil => exact ⟨[], rfl⟩
  | cons g l ih =>
    obtain ⟨es, hes⟩ := ih fun g hg => h g (by simp [hg])
    obtain ⟨e, he⟩ := h g (by simp)
    obtain ⟨i, f⟩ := g
    exact ⟨e :: es, by simp only [mkFaces]; rw [he, ok_bind, hes, ok_bind]⟩

theorem numbered_exists {fs : List (Tri Nat)} {is : List Nat} (h : ∀ i ∈ is, i < fs.length) : ∃ l, Mix.numbered fs is = ok l := by
  induction is with
  | nil => exact ⟨[], rfl⟩
  | cons i is ih =>
    obtain ⟨l, hl⟩ := ih fun i hi => h i (by simp [hi])
    have := at!_ok.2 (List.getElem?_eq_getElem (h i (by simp)))
    exact ⟨(i, fs[i]'(h i (by simp))) :: l, by simp only [Mix.numbered]; rw [this, ok_bind, hl, ok_bind]⟩

theorem edgeInput_exists {K : P3 → Prop} {fs : List (Tri Nat)} {pts : Nat → P3} {owner : Nat → Bool} {χ : Bool → P3 → Prop} (S : Scene K fs pts owner χ) {E : Mix.Env} {orig : Bool → List (Tri P3)} (hE : E.Valid orig)
    {m : Mesh.Mesh} (hm : Mesh.Finalized fs m) {e : Nat × Nat} (he : e.1 ≠ e.2) (h1 : ∃ i, Spec.Incident fs e.1 i) (h2 : ∃ i, Spec.Incident fs e.2 i) :
    ∃ x, Mix.edgeInput E fs m pts e = ok x ∧ x.2 ≠ none := by
  obtain ⟨p, q⟩ := e
  simp only at he h1 h2
  obtain ⟨i1, h1⟩ := h1
  obtain ⟨i2, h2⟩ := h2
  obtain ⟨around, ha, -, hmem⟩ := Props.C23_faces_around_edge hm he ⟨_, _, le_refl _, h1⟩ ⟨_, _, le_refl _, h2⟩
  obtain ⟨l, hl⟩ := numbered_exists (fs := fs) (is := around) (by
    intro i hi
    obtain ⟨⟨f, hf, -⟩, -⟩ := (hmem i).1 hi
    exact (List.getElem?_eq_some_iff.1 hf).1)
  obtain ⟨hl1, hl2⟩ := numbered_spec hl
  obtain ⟨es, hes⟩ := mkFaces_exists (pts := pts) (u := (E.base (sub (pts q) (pts p))).1) (v := (E.base (sub (pts q) (pts p))).2) (p := p) (q := q) (l := l) (by
    intro g hg
    have hi : g.1 ∈ around := by rw [← hl1]; exact List.mem_map_of_mem hg
    obtain ⟨⟨f, hf, hp⟩, f', hf', hq⟩ := (hmem _).1 hi
    rw [hl2 g hg] at hf hf'
    cases hf; cases hf'
    obtain ⟨r, hr⟩ := apex_exists he (f := g.2) (by simpa [Tri.toList] using hp) (by simpa [Tri.toList] using hq)
    have hgf := List.mem_of_getElem? (hl2 g hg)
    have hP := S.apex_ok hgf hr
    have hpq := (proper_distinct hP).1
    obtain ⟨e, he1, he2⟩ := mkEntry_exists (fi := g.1) (S.distinct hgf) hr
    obtain ⟨a, ha, -⟩ := ((Props.C29_degenerate_throws hpq (hE.base _ (Radial.sub_ne hpq)) he1).2 (by rw [he2]; exact proper_off_line hP)).1
    exact ⟨a, ha⟩)
  refine ⟨(around, some ((E.sort es).map (·.entry))), ?_, by simp⟩
  unfold Mix.edgeInput
  simp only
  rw [ha, ok_bind, hl, ok_bind, hes]

theorem edgeInputs_exists {E : Mix.Env} {fs : List (Tri Nat)} {m : Mesh.Mesh} {pts : Nat → P3} {border : List (Nat × Nat)} (h : ∀ e ∈ border, ∃ x, Mix.edgeInput E fs m pts e = ok x ∧ x.2 ≠ none) :
    ∃ edges, Mix.edgeInputs E fs m pts border = ok edges ∧ ∀ x ∈ edges, x.2 ≠ none := by
  induction border with
  | nil => exact ⟨[], rfl, by simp⟩
  | cons e es ih =>
    obtain ⟨xs, h1, h2⟩ := ih fun e he => h e (by simp [he])
    obtain ⟨x, h3, h4⟩ := h e (by simp)
    refine ⟨x :: xs, by simp only [Mix.edgeInputs]; rw [h3, ok_bind, h1, ok_bind], ?_⟩
    intro y hy
    rcases List.mem_cons.1 hy with rfl | hy
    · exact h4
    · exact h2 y hy

/-- The classification has a result if no search for a side throws. -/
theorem mixed_returns {orig : Bool → List (Tri P3)} {m0 : Soup P3 (MixedData D)} {ts : List (Tri P3)} {border : List (Nat × Nat)} (h : Corefined orig m0 ts border) {K : P3 → Prop} (hK : Zone K) (hwi : ∀ b, StaysIn K (orig b))
    {χ : Bool → P3 → Prop} (hb : ∀ b, BoundsIn K (orig b) (χ b)) {E : Mix.Env} (hE : E.Valid orig) {left right : Soup P3 D} (hu : ∀ e ∈ border, (∃ f ∈ m0.faces, e.1 ∈ f.toList) ∧ ∃ f ∈ m0.faces, e.2 ∈ f.toList)
    (hall : ∀ i, i < m0.faces.length → Mix.tag m0.data i = .unknown → Mix.sideTag E left right m0.faces (Mix.pts m0.points) (Mix.owner m0.data) i ≠ none) :
    ∃ out w, Mix.Result E left right m0 border out w := by
  have S := scene_of_cut (cut_in h.toCutInto hK hwi hb) h.points
  obtain ⟨m, hm⟩ := Mesh.finalized_exists m0.faces
  have inc : ∀ v, (∃ f ∈ m0.faces, v ∈ f.toList) → ∃ i, Spec.Incident m0.faces v i := by
    rintro v ⟨f, hf, hv⟩
    obtain ⟨i, hi⟩ := List.mem_iff_getElem?.1 hf
    exact ⟨i, f, hi, by simpa [Tri.toList] using hv⟩
  obtain ⟨edges, he1, he2⟩ := edgeInputs_exists (E := E) (m := m) (pts := Mix.pts m0.points) (border := border) fun e he =>
    edgeInput_exists S hE hm (h.edges e he) (inc _ (hu e he).1) (inc _ (hu e he).2)
  have hp : Spec.Proper m0.faces := fun f hf => S.distinct hf
  have ha := meshEnv_adj hm hp border (Mix.owner m0.data)
  obtain ⟨tags1, w1, hl, hstay⟩ := local_exists (E := meshEnv m0.faces m border (Mix.owner m0.data)) ha.lt he2 (Mix.tag m0.data)
  obtain ⟨tags2, w2, hg⟩ := Props.C26_global_finishes hm hp border (Mix.owner m0.data) (side := Mix.sideTag E left right m0.faces (Mix.pts m0.points) (Mix.owner m0.data)) (tags0 := tags1) (by
    intro r t ht
    unfold Mix.sideTag at ht
    split at ht
    · cases ht
    · split at ht
      · cases ht; exact Or.inl rfl
      · cases ht; exact Or.inr rfl
      · cases ht) (fun r hr hr' => hall r hr (by by_contra hc; exact hstay r hc hr'))
  exact ⟨_, _, m, edges, tags1, tags2, w1, w2, hm, he1, hl, hg, rfl, rfl⟩

end Kigumi.Space

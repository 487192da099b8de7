import Verif.Spec.MeshLife
import Verif.Props.Mesh
import Mathlib.Data.List.Sort

/-! # C99: adjacency queries and the life of a mesh -/
namespace Kigumi.MeshLife
open Kigumi Outcome Kigumi.Mesh Kigumi.Spec.MeshLife

variable {P : Type}

/-- What C16 promises of `parallel_sort`. -/
def Sorts (sort : List (Nat × Nat) → List (Nat × Nat)) : Prop := ∀ l, (sort l).Perm l ∧ (sort l).Pairwise (fun x y => ¬ pairLt y x)

/-- What the vectors of a mesh are like in each stage. -/
def Keeps (g : Stage) (m : Mesh) : Prop :=
  match g with
  | .building => m = ofFaces m.faces
  | .final => Finalized m.faces m
  | .spoiled => True

theorem vertexRange_beyond {fs : List (Tri Nat)} {m : Mesh} (h : Finalized fs m) {v : Nat} (hv : ¬ ∃ u i, v ≤ u ∧ Spec.Incident fs u i) :
    vertexRange m v = exn "out_of_range" := by
  have h' : aroundEdge m v v = exn "out_of_range" :=
    Props.C23_unused_vertex_throws h (fun u i hi => Nat.lt_of_not_le fun hu => hv ⟨u, i, hu, hi⟩)
  unfold aroundEdge at h'
  cases hx : vertexRange m v with
  | ok l => rw [hx] at h'; cases h'
  | exn e => rw [hx] at h'; cases h'; rfl
  | ub e => rw [hx] at h'; cases h'

/-- In a finalised mesh a vertex has a range exactly if it is not beyond all used vertices. -/
theorem vertexRange_cases {fs : List (Tri Nat)} {m : Mesh} (h : Finalized fs m) (v : Nat) :
    ((∃ u i, v ≤ u ∧ Spec.Incident fs u i) ∧ ∃ l, vertexRange m v = ok l) ∨ vertexRange m v = exn "out_of_range" := by
  by_cases hv : ∃ u i, v ≤ u ∧ Spec.Incident fs u i
  · refine Or.inl ⟨hv, ?_⟩
    obtain ⟨l, h1, -⟩ := aroundEdge_ok h hv hv
    unfold aroundEdge at h1
    rw [bind_eq_ok] at h1
    exact ⟨_, h1.choose_spec.1⟩
  · exact Or.inr (vertexRange_beyond h hv)

theorem aroundEdge_cases {fs : List (Tri Nat)} {m : Mesh} (h : Finalized fs m) (v w : Nat) :
    ((∃ u i, v ≤ u ∧ Spec.Incident fs u i) ∧ (∃ u i, w ≤ u ∧ Spec.Incident fs u i)) ∨ aroundEdge m v w = exn "out_of_range" := by
  rcases vertexRange_cases h v with ⟨hv, l, h1⟩ | h1
  · rcases vertexRange_cases h w with ⟨hw, -⟩ | h2
    · exact Or.inl ⟨hv, hw⟩
    · refine Or.inr ?_
      unfold aroundEdge; rw [h1, h2]; rfl
  · refine Or.inr ?_
    unfold aroundEdge; rw [h1]; rfl

theorem aroundEdge_building {m : Mesh} (h : m = ofFaces m.faces) (v w : Nat) : aroundEdge m v w = exn "out_of_range" := by
  rw [h]; rfl

theorem aroundFace_building {m : Mesh} (h : m = ofFaces m.faces) (border : List (Nat × Nat)) (fi : Nat) :
    aroundFace m border fi = exn "out_of_range" := by
  rw [h]
  unfold aroundFace
  show at! m.faces fi >>= _ = _
  unfold at!
  cases m.faces[fi]? <;> rfl

theorem aroundFace_cases {fs : List (Tri Nat)} {m : Mesh} (h : Finalized fs m) (border : List (Nat × Nat)) (fi : Nat) :
    fi < fs.length ∨ aroundFace m border fi = exn "out_of_range" := by
  by_cases hf : fi < fs.length
  · exact Or.inl hf
  · refine Or.inr ?_
    have hm : m.faces = fs := by obtain ⟨s, -, -, rfl⟩ := h; rfl
    unfold aroundFace
    rw [hm]
    unfold at!
    rw [List.getElem?_eq_none (by omega)]
    rfl

theorem keeps_finalize {sort : List (Nat × Nat) → List (Nat × Nat)} (hs : Sorts sort) {m : Mesh} (h : m = ofFaces m.faces) :
    Finalized m.faces (Mesh.finalize m (sort (pairs 0 m.faces))) :=
  ⟨_, (hs _).1, (hs _).2, by rw [← h]⟩

/-- The stages say the truth about the vectors. -/
def Inv (g : Nat → Stage) (s : Store P) : Prop := ∀ v, Keeps (g v) (s v).mesh

theorem Inv.upd {g : Nat → Stage} {s : Store P} (h : Inv g s) {v : Nat} {x : Stage} {o : Obj P} (hx : Keeps x o.mesh) :
    Inv (Spec.MeshLife.set g v x) (upd s v o) := by
  intro w
  unfold Spec.MeshLife.set MeshLife.upd
  split
  · exact hx
  · exact h w

theorem step_inv {sort : List (Nat × Nat) → List (Nat × Nat)} (hs : Sorts sort) {g : Nat → Stage} {s s' : Store P} {op : Op P} {out : Out P}
    (h : Inv g s) (e : step sort s op = ok (s', out)) : Inv (after g op) s' := by
  cases op with
  | construct v pts fs => cases e; exact h.upd rfl
  | copyCtor d c =>
    simp only [step] at e; split at e
    · cases e
    · cases e; exact h.upd (h c)
  | moveCtor d c =>
    simp only [step] at e; split at e
    · cases e
    · cases e; exact (h.upd (h c)).upd rfl
  | copyAssign d c =>
    simp only [step] at e; split at e
    · cases e
      rename_i hd
      subst hd
      intro w
      show Keeps (Spec.MeshLife.set g d (g d) w) _
      unfold Spec.MeshLife.set; split
      · rename_i hw; subst hw; exact h w
      · exact h w
    · cases e; exact h.upd (h c)
  | moveAssign d c =>
    simp only [step] at e; split at e
    · cases e
    · cases e; exact (h.upd (h c)).upd rfl
  | addVertex v p =>
    cases e
    intro w
    show Keeps (g w) (MeshLife.upd s v _ w).mesh
    unfold MeshLife.upd; split
    · rename_i hw; subst hw; exact h w
    · exact h w
  | addFace v f =>
    cases e
    refine h.upd ?_
    have hv := h v
    split
    · rename_i hg
      rw [hg] at hv
      have hv' : (s v).mesh = ofFaces (s v).mesh.faces := hv
      show ({ (s v).mesh with faces := (s v).mesh.faces ++ [f] } : Mesh) = ofFaces ((s v).mesh.faces ++ [f])
      rw [hv']; rfl
    · trivial
  | finalize v =>
    cases e
    refine h.upd ?_
    have hv := h v
    split
    · rename_i hg
      rw [hg] at hv
      exact keeps_finalize hs hv
    · trivial
  | aroundEdge v a b =>
    simp only [step] at e
    rw [bind_eq_ok] at e
    obtain ⟨l, -, e⟩ := e
    cases e; exact h
  | aroundFace v border fi =>
    simp only [step] at e
    rw [bind_eq_ok] at e
    obtain ⟨l, -, e⟩ := e
    cases e; exact h
  | take v =>
    cases e
    refine h.upd ?_
    have hv := h v
    split
    · rename_i hg
      rw [hg] at hv
      have hv' : (s v).mesh = ofFaces (s v).mesh.faces := hv
      show ({ (s v).mesh with faces := [] } : Mesh) = ofFaces []
      rw [hv']; rfl
    · trivial

/-- One step of an orderly program: the answer is right. -/
theorem step_right {sort : List (Nat × Nat) → List (Nat × Nat)} {g : Nat → Stage} {s s' : Store P} {op : Op P} {out : Out P}
    {ops : List (Op P)} (h : Inv g s) (ho : Orderly g (op :: ops)) (e : step sort s op = ok (s', out)) : Right s op out := by
  cases op with
  | aroundEdge v a b =>
    simp only [step] at e
    rw [bind_eq_ok] at e
    obtain ⟨l, hl, e⟩ := e
    cases e
    have hg : g v ≠ .spoiled := ho.1
    have hv := h v
    cases hgv : g v with
    | spoiled => exact absurd hgv hg
    | building =>
      rw [hgv] at hv
      rw [aroundEdge_building hv] at hl; cases hl
    | final =>
      rw [hgv] at hv
      rcases aroundEdge_cases hv a b with ⟨ha, hb⟩ | hx
      · obtain ⟨l', h1, -, h3, h4⟩ := aroundEdge_ok hv ha hb
        rw [h1] at hl; cases hl
        exact ⟨_, rfl, h3, h4⟩
      · rw [hx] at hl; cases hl
  | aroundFace v border fi =>
    simp only [step] at e
    rw [bind_eq_ok] at e
    obtain ⟨l, hl, e⟩ := e
    cases e
    have hg : g v ≠ .spoiled := ho.1
    have hv := h v
    cases hgv : g v with
    | spoiled => exact absurd hgv hg
    | building =>
      rw [hgv] at hv
      rw [aroundFace_building hv] at hl; cases hl
    | final =>
      rw [hgv] at hv
      rcases aroundFace_cases hv border fi with hf | hx
      · obtain ⟨l', h1, h2, h3, -⟩ := Props.C24_faces_around_face hv border hf
        rw [h1] at hl; cases hl
        exact ⟨_, rfl, h2, h3⟩
      · rw [hx] at hl; cases hl
  | take v => cases e; rfl
  | _ => trivial

theorem step_no_ub {sort : List (Nat × Nat) → List (Nat × Nat)} {g : Nat → Stage} {s : Store P} {op : Op P}
    {ops : List (Op P)} (h : Inv g s) (ho : Orderly g (op :: ops)) (hn : NoSelf op) (e : String) : step sort s op ≠ ub e := by
  intro he
  cases op with
  | aroundEdge v a b =>
    simp only [step] at he
    have hg : g v ≠ .spoiled := ho.1
    have hv := h v
    cases hgv : g v with
    | spoiled => exact absurd hgv hg
    | building =>
      rw [hgv] at hv
      rw [aroundEdge_building hv] at he; cases he
    | final =>
      rw [hgv] at hv
      rcases aroundEdge_cases hv a b with ⟨ha, hb⟩ | hx
      · obtain ⟨l', h1, -⟩ := aroundEdge_ok hv ha hb
        rw [h1] at he; cases he
      · rw [hx] at he; cases he
  | aroundFace v border fi =>
    simp only [step] at he
    have hg : g v ≠ .spoiled := ho.1
    have hv := h v
    cases hgv : g v with
    | spoiled => exact absurd hgv hg
    | building =>
      rw [hgv] at hv
      rw [aroundFace_building hv] at he; cases he
    | final =>
      rw [hgv] at hv
      rcases aroundFace_cases hv border fi with hf | hx
      · obtain ⟨l', h1, -⟩ := Props.C24_faces_around_face hv border hf
        rw [h1] at he; cases he
      · rw [hx] at he; cases he
  | copyCtor d c =>
    simp only [step] at he; split at he
    · exact hn ‹_›
    · cases he
  | moveCtor d c =>
    simp only [step] at he; split at he
    · exact hn ‹_›
    · cases he
  | moveAssign d c =>
    simp only [step] at he; split at he
    · exact hn ‹_›
    · cases he
  | copyAssign d c => simp only [step] at he; split at he <;> cases he
  | _ => cases he

theorem run_right {sort : List (Nat × Nat) → List (Nat × Nat)} (hs : Sorts sort) : ∀ {ops : List (Op P)} {g : Nat → Stage} {s s' : Store P} {log},
    Inv g s → Orderly g ops → run sort s ops = ok (s', log) → ∀ x ∈ log, Right x.1 x.2.1 x.2.2 := by
  intro ops
  induction ops with
  | nil => intro g s s' log _ _ e; cases e; simp
  | cons op ops ih =>
    intro g s s' log h ho e
    unfold run at e
    simp only [bind_eq_ok] at e
    obtain ⟨⟨s1, out⟩, e1, ⟨s2, log'⟩, e2, e⟩ := e
    cases e
    intro x hx
    rcases List.mem_cons.1 hx with rfl | hx
    · exact step_right h ho e1
    · exact ih (step_inv hs h e1) ho.2 e2 x hx

theorem run_no_ub {sort : List (Nat × Nat) → List (Nat × Nat)} (hs : Sorts sort) : ∀ {ops : List (Op P)} {g : Nat → Stage} {s : Store P},
    Inv g s → Orderly g ops → (∀ op ∈ ops, NoSelf op) → ∀ e, run sort s ops ≠ ub e := by
  intro ops
  induction ops with
  | nil => intro g s _ _ _ e he; cases he
  | cons op ops ih =>
    intro g s h ho hn e he
    unfold run at he
    cases e1 : step sort s op with
    | ub e' => exact step_no_ub h ho (hn op (by simp)) e' e1
    | exn e' => rw [e1] at he; cases he
    | ok r =>
      obtain ⟨s1, out⟩ := r
      rw [e1, ok_bind] at he
      have := ih (step_inv hs h e1) ho.2 (fun o h' => hn o (by simp [h']))
      cases e2 : run sort s1 ops with
      | ub e' => exact this e' e2
      | exn e' => simp only [e2] at he; cases he
      | ok r => simp only [e2] at he; cases he

theorem inv_fresh : Inv (fun _ => .building) (fun _ => (Obj.fresh : Obj P)) := fun _ => rfl

theorem foldl_prefix (sorted : List (Nat × Nat)) : ∀ s : Loop, ∃ X Y, (sorted.foldl Loop.step s).indices = s.indices ++ X ∧
    (sorted.foldl Loop.step s).faceIndices = s.faceIndices ++ Y := by
  induction sorted with
  | nil => intro s; exact ⟨[], [], by simp, by simp⟩
  | cons p sorted ih =>
    intro s
    obtain ⟨X, Y, h1, h2⟩ := ih (s.step p)
    exact ⟨List.replicate ((p.1 : Int) - s.prev).toNat s.index ++ X, [p.2] ++ Y,
      by rw [List.foldl_cons, h1]; simp [Loop.step], by rw [List.foldl_cons, h2]; simp [Loop.step]⟩

/-- Nothing that is already in the vectors is changed by finalising. -/
theorem finalize_prefix (m : Mesh) (sorted : List (Nat × Nat)) : ∃ X Y, (Mesh.finalize m sorted).indices = m.indices ++ X ∧
    (Mesh.finalize m sorted).faceIndices = m.faceIndices ++ Y := by
  obtain ⟨X, Y, h1, h2⟩ := foldl_prefix sorted ⟨m.faceIndices, m.indices, 0, -1⟩
  refine ⟨X ++ [(sorted.foldl Loop.step ⟨m.faceIndices, m.indices, 0, -1⟩).index], Y, ?_, h2⟩
  show _ ++ [_] = _
  rw [h1, List.append_assoc]

theorem vertexRange_prefix {m m' : Mesh} {X Y : List Nat} (h1 : m'.indices = m.indices ++ X) (h2 : m'.faceIndices = m.faceIndices ++ Y)
    {v : Nat} {l : List Nat} (h : vertexRange m v = ok l) : vertexRange m' v = ok l := by
  unfold vertexRange at h ⊢
  simp only [bind_eq_ok, at!_ok] at h
  obtain ⟨a, ha, b, hb, h⟩ := h
  have ha' : m'.indices[v]? = some a := by
    rw [h1, List.getElem?_append_left (List.getElem?_eq_some_iff.1 ha).1]; exact ha
  have hb' : m'.indices[v + 1]? = some b := by
    rw [h1, List.getElem?_append_left (List.getElem?_eq_some_iff.1 hb).1]; exact hb
  rw [at!_ok.2 ha', ok_bind, at!_ok.2 hb', ok_bind]
  split at h
  · rename_i hab
    rw [if_pos ⟨hab.1, by rw [h2, List.length_append]; omega⟩, ← h, h2]
    congr 1
    rw [List.drop_append_of_le_length (by omega), List.take_append_of_le_length (by rw [List.length_drop]; omega)]
  · cases h

theorem aroundEdge_prefix {m m' : Mesh} {X Y : List Nat} (h1 : m'.indices = m.indices ++ X) (h2 : m'.faceIndices = m.faceIndices ++ Y)
    {v w : Nat} {l : List Nat} (h : Mesh.aroundEdge m v w = ok l) : Mesh.aroundEdge m' v w = ok l := by
  unfold Mesh.aroundEdge at h ⊢
  simp only [bind_eq_ok] at h
  obtain ⟨is, hi, js, hj, h⟩ := h
  rw [vertexRange_prefix h1 h2 hi, ok_bind, vertexRange_prefix h1 h2 hj, ok_bind, h]

end Kigumi.MeshLife

namespace Kigumi.Spec.MeshLife
open Kigumi Kigumi.MeshLife
variable {P : Type}

/-- The operation gives the variable another object. -/
def Replaces (v : Nat) : Op P → Prop
  | .construct w _ _ => w = v
  | .copyCtor d _ => d = v
  | .moveCtor d c => d = v ∨ c = v
  | .copyAssign d _ => d = v
  | .moveAssign d c => d = v ∨ c = v
  | _ => False

end Kigumi.Spec.MeshLife

namespace Kigumi.Props
open Kigumi Outcome Kigumi.Mesh Kigumi.MeshLife Kigumi.Spec.MeshLife

variable {P : Type}

/-- **Adjacency queries and the life of a mesh (partial).** In every program over mesh variables in which no mesh is asked after it was finalised and
then changed, finalised again or emptied, every query that returns gives the faces around the edge or face in the mesh as it is then, also in meshes that were
copied or moved.  Queries of meshes that were never finalised throw. -/
theorem C99_right_partial {sort : List (Nat × Nat) → List (Nat × Nat)} (hs : Sorts sort) {ops : List (Op P)}
    (ho : Orderly (fun _ => .building) ops) {s : Store P} {log : List (Store P × Op P × Out P)}
    (e : run sort (fun _ => .fresh) ops = ok (s, log)) : ∀ x ∈ log, Right x.1 x.2.1 x.2.2 :=
  run_right hs inv_fresh ho e

/-- In such programs nothing undefined happens: a query returns or throws. -/
theorem C99_defined_partial {sort : List (Nat × Nat) → List (Nat × Nat)} (hs : Sorts sort) {ops : List (Op P)}
    (ho : Orderly (fun _ => .building) ops) (hn : ∀ op ∈ ops, NoSelf op) (e : String) : run sort (fun _ => .fresh) ops ≠ ub e :=
  run_no_ub hs inv_fresh ho hn e

/-- Once a mesh has given an answer for an edge it gives this answer for ever, whatever faces are added and however often it is finalised. -/
theorem C99_answers_are_final {sort : List (Nat × Nat) → List (Nat × Nat)} {v a b : Nat} {l : List Nat} : ∀ {ops : List (Op P)} {s s' : Store P} {log},
    (∀ op ∈ ops, ¬ Replaces v op) → run sort s ops = ok (s', log) → Mesh.aroundEdge (s v).mesh a b = ok l → Mesh.aroundEdge (s' v).mesh a b = ok l := by
  intro ops
  induction ops with
  | nil => intro s s' log _ e h; cases e; exact h
  | cons op ops ih =>
    intro s s' log hr e h
    unfold run at e
    simp only [bind_eq_ok] at e
    obtain ⟨⟨s1, out⟩, e1, ⟨s2, log'⟩, e2, e⟩ := e
    cases e
    refine ih (fun o ho => hr o (by simp [ho])) e2 ?_
    have hop := hr op (by simp)
    have pick : ∀ {w : Nat} {x : Obj P}, (w = v → Mesh.aroundEdge x.mesh a b = ok l) → Mesh.aroundEdge (upd s w x v).mesh a b = ok l := by
      intro w x hx
      unfold upd; split
      · exact hx (Eq.symm ‹_›)
      · exact h
    have other : ∀ {w : Nat} {x : Obj P} {t : Store P}, w ≠ v → upd t w x v = t v := by
      intro w x t hx
      unfold upd; split
      · exact absurd (Eq.symm ‹_›) hx
      · rfl
    cases op with
    | construct w pts fs => cases e1; dsimp only; rw [other hop]; exact h
    | copyCtor d c =>
      simp only [step] at e1; split at e1
      · cases e1
      · cases e1; dsimp only; rw [other hop]; exact h
    | moveCtor d c =>
      have hop' := not_or.1 hop
      simp only [step] at e1; split at e1
      · cases e1
      · cases e1; dsimp only; rw [other hop'.2, other hop'.1]; exact h
    | copyAssign d c =>
      simp only [step] at e1; split at e1
      · cases e1; exact h
      · cases e1; dsimp only; rw [other hop]; exact h
    | moveAssign d c =>
      have hop' := not_or.1 hop
      simp only [step] at e1; split at e1
      · cases e1
      · cases e1; dsimp only; rw [other hop'.2, other hop'.1]; exact h
    | addVertex w p => cases e1; exact pick fun hw => by subst hw; exact h
    | addFace w f => cases e1; exact pick fun hw => by subst hw; exact h
    | finalize w =>
      cases e1
      refine pick fun hw => ?_
      subst hw
      obtain ⟨X, Y, h1, h2⟩ := finalize_prefix (s w).mesh (sort (pairs 0 (s w).mesh.faces))
      exact aroundEdge_prefix h1 h2 h
    | aroundEdge w x y =>
      simp only [step] at e1
      rw [bind_eq_ok] at e1
      obtain ⟨l, -, e1⟩ := e1
      cases e1; exact h
    | aroundFace w border fi =>
      simp only [step] at e1
      rw [bind_eq_ok] at e1
      obtain ⟨l, -, e1⟩ := e1
      cases e1; exact h
    | take w => cases e1; exact pick fun hw => by subst hw; exact h

/-- A sort, for the examples. -/
def insertSort : List (Nat × Nat) → List (Nat × Nat) := List.insertionSort (fun x y => x.1 < y.1 ∨ (x.1 = y.1 ∧ x.2 ≤ y.2))

theorem insertSort_sorts : Sorts insertSort := by
  intro l
  refine ⟨List.perm_insertionSort _ l, ?_⟩
  haveI : Std.Total (fun x y : Nat × Nat => x.1 < y.1 ∨ (x.1 = y.1 ∧ x.2 ≤ y.2)) := ⟨fun x y => by omega⟩
  haveI : IsTrans (Nat × Nat) (fun x y : Nat × Nat => x.1 < y.1 ∨ (x.1 = y.1 ∧ x.2 ≤ y.2)) := ⟨fun x y z => by omega⟩
  exact (List.pairwise_insertionSort (fun x y : Nat × Nat => x.1 < y.1 ∨ (x.1 = y.1 ∧ x.2 ≤ y.2)) l).imp (by intro x y h; unfold pairLt; omega)

/-- What a program returns, without the stores. -/
def outs (o : Outcome (Store Nat × List (Store Nat × Op Nat × Out Nat))) : Outcome (List (Out Nat)) := do
  let r ← o
  ok (r.2.map (·.2.2))

/-- A face is added to a finalised mesh, which is then finalised again. -/
def again : List (Op Nat) := [.construct 0 [7, 8, 9, 6] [⟨0, 1, 2⟩], .finalize 0, .addFace 0 ⟨1, 0, 3⟩, .finalize 0, .aroundEdge 0 0 1]

/-- **False as stated.** Finalising a mesh once more does not take up the faces that were added: the face at an edge is not found. -/
theorem C99_full_claim_false : ¬ ∀ (sort : List (Nat × Nat) → List (Nat × Nat)), Sorts sort → ∀ (ops : List (Op Nat)) (s : Store Nat) log,
    run sort (fun _ => .fresh) ops = ok (s, log) → ∀ x ∈ log, Right x.1 x.2.1 x.2.2 := by
  intro h
  have e : outs (run insertSort (fun _ => .fresh) again) = ok [.nothing, .nothing, .nothing, .nothing, .faces [0]] := by decide +kernel
  unfold outs at e
  rw [bind_eq_ok] at e
  obtain ⟨⟨s, log⟩, e1, e2⟩ := e
  have hr := h _ insertSort_sorts _ _ _ e1
  unfold again at e1
  simp only [run, step, ok_bind, bind_eq_ok] at e1
  obtain ⟨r1, ⟨r2, ⟨r3, ⟨r4, ⟨r5, ⟨l, -, e0⟩, e3⟩, e4⟩, e5⟩, e6⟩, e7⟩ := e1
  cases e0
  cases e3
  cases e4
  cases e5
  cases e6
  cases e7
  have hlast := hr _ (List.mem_cons_of_mem _ (List.mem_cons_of_mem _ (List.mem_cons_of_mem _ (List.mem_cons_of_mem _ (List.mem_cons_self ..)))))
  obtain ⟨l', h1, h2, -⟩ := hlast
  have hl0 : l = [0] := by
    have : (Out.faces l : Out Nat) = .faces [0] := by
      simpa using e2
    cases this; rfl
  cases h1
  subst hl0
  have : 1 ∈ [0] := (h2 1).2 ⟨⟨⟨1, 0, 3⟩, rfl, by simp⟩, ⟨⟨1, 0, 3⟩, rfl, by simp⟩⟩
  simp at this

/-- … and a query of a vertex that only the new face uses is undefined behaviour. -/
theorem C99_defined_false : ¬ ∀ (sort : List (Nat × Nat) → List (Nat × Nat)), Sorts sort → ∀ ops : List (Op Nat), (∀ op ∈ ops, NoSelf op) →
    ∀ e, run sort (fun _ => .fresh) ops ≠ ub e := by
  intro h
  refine h insertSort insertSort_sorts [.construct 0 [7, 8, 9, 6] [⟨0, 1, 2⟩], .finalize 0, .addFace 0 ⟨1, 0, 3⟩, .finalize 0, .aroundEdge 0 0 3] ?_ "iterator range" ?_
  · simp [NoSelf]
  · have e : outs (run insertSort (fun _ => .fresh) [.construct 0 [7, 8, 9, 6] [⟨0, 1, 2⟩], .finalize 0, .addFace 0 ⟨1, 0, 3⟩, .finalize 0, .aroundEdge 0 0 3]) = ub "iterator range" := by
      decide +kernel
    revert e
    cases run insertSort (fun _ => .fresh) [.construct 0 [7, 8, 9, 6] [⟨0, 1, 2⟩], .finalize 0, .addFace 0 ⟨1, 0, 3⟩, .finalize 0, .aroundEdge 0 0 3] with
    | ok r => intro e; cases e
    | exn e' => intro e; cases e
    | ub e' => intro e; cases e; rfl

/-- Two faces; the mesh is copied, the copy is moved, and both are asked. -/
def orderly : List (Op Nat) := [.construct 0 [7, 8, 9] [⟨0, 1, 2⟩], .addVertex 0 6, .addFace 0 ⟨1, 0, 3⟩, .finalize 0, .copyCtor 1 0, .moveAssign 2 1, .aroundEdge 2 0 1,
  .aroundFace 0 [] 1, .construct 0 [5] [], .aroundFace 2 [(0, 1)] 1, .take 2]

example : Orderly (fun _ => .building) orderly ∧ (∀ op ∈ orderly, NoSelf op) := by
  simp [orderly, Orderly, after, Spec.MeshLife.set, NoSelf]
example : outs (run insertSort (fun _ => .fresh) orderly) = ok [.nothing, .nothing, .nothing, .nothing, .nothing, .nothing, .faces [0, 1], .faces [0], .nothing,
    .faces [1], .soup [7, 8, 9, 6] [⟨0, 1, 2⟩, ⟨1, 0, 3⟩]] := by decide +kernel
/-- After the faces were taken the mesh, which has none, still lists them. -/
example : outs (run insertSort (fun _ => .fresh) [.construct 0 [7, 8, 9] [⟨0, 1, 2⟩], .finalize 0, .take 0, .aroundEdge 0 0 1]) =
    ok [.nothing, .nothing, .soup [7, 8, 9] [⟨0, 1, 2⟩], .faces [0]] := by decide +kernel
example : ∀ op ∈ again.drop 2, ¬ Replaces 0 op := by simp [again, Replaces]

end Kigumi.Props

import Verif.Model.SoupCache
import Verif.Tactics

/-! # C22: the spatial index of a soup describes its faces -/
namespace Kigumi.Spec
variable {P : Type}

/-- The leaves describe the faces: as many leaves as faces, the `i`-th leaf is face `i` with its current corner coordinates. -/
def Describes (points : List P) (faces : List (Tri Nat)) (leaves : List (Nat × Tri P)) : Prop :=
  leaves.length = faces.length ∧
  ∀ (i : Nat) (f : Tri Nat), faces[i]? = some f → ∃ t : Tri P, leaves[i]? = some (i, t) ∧
    points[f.a]? = some t.a ∧ points[f.b]? = some t.b ∧ points[f.c]? = some t.c

end Kigumi.Spec

namespace Kigumi.SoupCache
open Kigumi Outcome
variable {P : Type}

theorem corners_ok {pts : List P} {f : Tri Nat} {t : Tri P} (h : corners pts f = ok t) :
    pts[f.a]? = some t.a ∧ pts[f.b]? = some t.b ∧ pts[f.c]? = some t.c := by
  unfold corners at h
  simp only [bind_eq_ok, at!_ok] at h
  obtain ⟨a, ha, b, hb, c, hc, h⟩ := h
  cases h
  exact ⟨ha, hb, hc⟩

theorem makeLeaves_ok {pts : List P} : ∀ {fs : List (Tri Nat)} {i : Nat} {ls}, makeLeaves pts i fs = ok ls →
    ls.length = fs.length ∧ ∀ (j : Nat) f, fs[j]? = some f → ∃ t : Tri P, ls[j]? = some (i + j, t) ∧
      pts[f.a]? = some t.a ∧ pts[f.b]? = some t.b ∧ pts[f.c]? = some t.c := by
  intro fs
  induction fs with
  | nil => intro i ls h; cases h; simp
  | cons f fs ih =>
    intro i ls h
    simp only [makeLeaves, bind_eq_ok] at h
    obtain ⟨t, ht, ls', hls, h⟩ := h
    cases h
    obtain ⟨h1, h2⟩ := ih hls
    refine ⟨by simp [h1], ?_⟩
    intro j g hj
    cases j with
    | zero =>
      simp at hj; subst hj
      exact ⟨t, by simp, corners_ok ht⟩
    | succ j =>
      simp at hj
      obtain ⟨t', a, b⟩ := h2 j g hj
      refine ⟨t', ?_, b⟩
      simp only [List.getElem?_cons_succ]
      rw [a]; congr 2; omega

theorem describes_of_makeLeaves {pts : List P} {fs : List (Tri Nat)} {ls} (h : makeLeaves pts 0 fs = ok ls) : Spec.Describes pts fs ls := by
  obtain ⟨h1, h2⟩ := makeLeaves_ok h
  refine ⟨h1, ?_⟩
  intro i f hf
  obtain ⟨t, a, b⟩ := h2 i f hf
  exact ⟨t, by simpa using a, b⟩

theorem describes_append {pts : List P} {fs : List (Tri Nat)} {ls} (p : P) (h : Spec.Describes pts fs ls) : Spec.Describes (pts ++ [p]) fs ls := by
  refine ⟨h.1, ?_⟩
  intro i f hf
  obtain ⟨t, a, b, c, d⟩ := h.2 i f hf
  have ext : ∀ {k : Nat} {x}, pts[k]? = some x → (pts ++ [p])[k]? = some x := by
    intro k x hk
    rw [List.getElem?_append_left (by have := List.getElem?_eq_some_iff.1 hk; exact this.1)]; exact hk
  exact ⟨t, a, ext b, ext c, ext d⟩

end Kigumi.SoupCache

namespace Kigumi.Spec
open Kigumi.SoupCache
/-- A history in which no face is added to a soup after its index has been requested.  `used v` says that the
index of the soup in variable `v` has been requested; copies start afresh, moves carry the index along. -/
def NoFaceAfterIndex {P : Type} : (Nat → Bool) → List (Op P) → Prop
  | _, [] => True
  | used, .addVertex _ _ :: ops => NoFaceAfterIndex used ops
  | used, .addFace v _ :: ops => used v = false ∧ NoFaceAfterIndex used ops
  | used, .construct v _ _ :: ops => NoFaceAfterIndex (fun w => if w = v then false else used w) ops
  | used, .copyCtor d _ :: ops => NoFaceAfterIndex (fun w => if w = d then false else used w) ops
  | used, .moveCtor d c :: ops => NoFaceAfterIndex (fun w => if w = c then false else if w = d then used c else used w) ops
  | used, .copyAssign d c :: ops => NoFaceAfterIndex (fun w => if w = d then (if d = c then used w else false) else used w) ops
  | used, .moveAssign d c :: ops => NoFaceAfterIndex (fun w => if w = c then false else if w = d then used c else used w) ops
  | used, .index v :: ops => NoFaceAfterIndex (fun w => if w = v then true else used w) ops
end Kigumi.Spec

namespace Kigumi.Props
open Kigumi SoupCache Outcome
variable {P : Type}

/-- Invariant: cached trees describe their soups, and a tree is cached only if the index has been requested. -/
private def Inv (used : Nat → Bool) (s : Store P) : Prop :=
  ∀ v, (∀ t, (s v).tree = some t → Spec.Describes (s v).points (s v).faces t) ∧ ((s v).tree ≠ none → used v = true)

private theorem inv_upd {used used' : Nat → Bool} {s : Store P} {v : Nat} {x : CSoup P} (h : Inv used s)
    (hx : (∀ t, x.tree = some t → Spec.Describes x.points x.faces t) ∧ (x.tree ≠ none → used' v = true))
    (hu : ∀ w, w ≠ v → used w = true → used' w = true) : Inv used' (upd s v x) := by
  intro w
  unfold upd
  by_cases hw : w = v
  · subst hw; simpa using hx
  · simp only [if_neg hw]
    exact ⟨(h w).1, fun ht => hu w hw ((h w).2 ht)⟩

private theorem C22_aux : ∀ (ops : List (Op P)) (used : Nat → Bool) (s : Store P), Inv used s → Spec.NoFaceAfterIndex used ops →
    ∀ {s' log}, run s ops = ok (s', log) → ∀ e ∈ log, Spec.Describes (e.1 e.2.1).points (e.1 e.2.1).faces e.2.2 := by
  intro ops
  induction ops with
  | nil => intro used s _ _ s' log h; simp [run] at h; obtain ⟨-, rfl⟩ := h; simp
  | cons op ops ih =>
    intro used s hinv hno s' log h
    simp only [run, bind_eq_ok] at h
    obtain ⟨⟨s1, out⟩, h1, ⟨s2, log2⟩, h2, h3⟩ := h
    cases op with
    | addVertex v p =>
      simp only [step] at h1; cases h1; simp at h3; obtain ⟨-, rfl⟩ := h3
      refine ih used _ (inv_upd hinv ⟨?_, ?_⟩ (fun _ _ h => h)) hno h2
      · intro t ht; exact describes_append p ((hinv v).1 t ht)
      · exact (hinv v).2
    | addFace v f =>
      simp only [step] at h1; cases h1; simp at h3; obtain ⟨-, rfl⟩ := h3
      obtain ⟨hv, hno⟩ := hno
      have hnone : (s v).tree = none := by
        by_contra hc; have := (hinv v).2 hc; rw [hv] at this; simp at this
      refine ih used _ (inv_upd hinv ⟨?_, ?_⟩ (fun _ _ h => h)) hno h2
      · intro t ht; simp [hnone] at ht
      · intro ht; simp [hnone] at ht
    | construct v pts fs =>
      simp only [step] at h1; cases h1; simp at h3; obtain ⟨-, rfl⟩ := h3
      refine ih _ _ (inv_upd hinv (by simp) ?_) hno h2
      intro w hw hu; simp [hw, hu]
    | copyCtor d c =>
      simp only [step] at h1
      split at h1
      · cases h1
      · cases h1; simp at h3; obtain ⟨-, rfl⟩ := h3
        refine ih _ _ (inv_upd hinv (by simp) ?_) hno h2
        intro w hw hu; simp [hw, hu]
    | copyAssign d c =>
      simp only [step] at h1
      split at h1
      · rename_i hdc
        cases h1; simp at h3; obtain ⟨-, rfl⟩ := h3
        refine ih _ _ ?_ hno h2
        intro w
        refine ⟨(hinv w).1, fun ht => ?_⟩
        have := (hinv w).2 ht
        simp [hdc, this]
      · cases h1; simp at h3; obtain ⟨-, rfl⟩ := h3
        refine ih _ _ (inv_upd hinv (by simp) ?_) hno h2
        intro w hw hu; simp [hw, hu]
    | moveCtor d c =>
      simp only [step] at h1
      split at h1
      · cases h1
      · rename_i hdc
        cases h1; simp at h3; obtain ⟨-, rfl⟩ := h3
        refine ih _ _ ?_ hno h2
        refine inv_upd (used := fun w => if w = d then used c else used w) (inv_upd hinv ⟨(hinv c).1, ?_⟩ ?_) (by simp [movedFrom]) ?_
        · intro ht; simpa using (hinv c).2 ht
        · intro w hw hu; simp [hw, hu]
        · intro w hw hu; simpa [hw] using hu
    | moveAssign d c =>
      simp only [step] at h1
      split at h1
      · cases h1
      · rename_i hdc
        cases h1; simp at h3; obtain ⟨-, rfl⟩ := h3
        refine ih _ _ ?_ hno h2
        refine inv_upd (used := fun w => if w = d then used c else used w) (inv_upd hinv ⟨(hinv c).1, ?_⟩ ?_) (by simp [movedFrom]) ?_
        · intro ht; simpa using (hinv c).2 ht
        · intro w hw hu; simp [hw, hu]
        · intro w hw hu; simpa [hw] using hu
    | index v =>
      simp only [step] at h1
      cases ht : (s v).tree with
      | some t =>
        rw [ht] at h1
        cases h1; simp at h3; obtain ⟨-, rfl⟩ := h3
        intro e he
        rcases List.mem_cons.1 he with rfl | he
        · exact (hinv v).1 t ht
        · refine ih _ _ ?_ hno h2 e he
          intro w
          refine ⟨(hinv w).1, fun hw => ?_⟩
          have := (hinv w).2 hw
          simp [this]
      | none =>
        rw [ht] at h1
        simp only [bind_eq_ok] at h1
        obtain ⟨t, hmk, h1⟩ := h1
        cases h1; simp at h3; obtain ⟨-, rfl⟩ := h3
        have hd := describes_of_makeLeaves hmk
        intro e he
        rcases List.mem_cons.1 he with rfl | he
        · exact hd
        · refine ih _ _ (inv_upd hinv ⟨?_, by simp⟩ ?_) hno h2 e he
          · intro t' ht'; simp at ht'; subst ht'; exact hd
          · intro w hw hu; simp [hw, hu]

/-- **The index describes the faces** (`_partial`): in every program that adds no face to a soup after requesting its index,
every index returned describes exactly the faces (and current corner coordinates) that the soup has at that moment; adding vertices, copying, moving and assigning are unrestricted.
Missing: programs that add faces after a query, for which the claim is false, see `C22_full_claim_false`. -/
theorem C22_index_describes_faces_partial (ops : List (Op P)) (h : Spec.NoFaceAfterIndex (fun _ => false) ops) {s : Store P} {log}
    (hr : run (fun _ => CSoup.fresh) ops = ok (s, log)) : ∀ e ∈ log, Spec.Describes (e.1 e.2.1).points (e.1 e.2.1).faces e.2.2 :=
  C22_aux ops _ _ (by intro v; simp [CSoup.fresh]) h hr

/-- A program that meets the hypotheses: build, query, add an unused vertex, copy, extend the copy, query both, move and query. -/
def goodProgram : List (Op (Nat × Nat)) :=
  [.addVertex 0 (0, 0), .addVertex 0 (1, 0), .addVertex 0 (0, 1), .addFace 0 ⟨0, 1, 2⟩, .index 0, .addVertex 0 (5, 5),
   .copyCtor 1 0, .addFace 1 ⟨1, 2, 3⟩, .index 1, .index 0, .moveAssign 2 1, .index 2, .index 1]

example : Spec.NoFaceAfterIndex (fun _ => false) goodProgram ∧
    (match run (fun _ => CSoup.fresh) goodProgram with | .ok r => r.2.map (fun e => (e.2.1, e.2.2.length)) | _ => []) = [(0, 1), (1, 2), (0, 1), (2, 2), (1, 0)] := by
  refine ⟨by simp [goodProgram, Spec.NoFaceAfterIndex], by decide +kernel⟩

/-- Query, add a face, query again. -/
def staleProgram : List (Op (Nat × Nat)) :=
  [.addVertex 0 (0, 0), .addVertex 0 (1, 0), .addVertex 0 (0, 1), .addFace 0 ⟨0, 1, 2⟩, .index 0, .addFace 0 ⟨2, 1, 0⟩, .index 0]

/-- **The full claim is false**: after a query, an added face is missing from the index returned by the next query. -/
theorem C22_full_claim_false : ∃ s log, run (fun _ => CSoup.fresh) staleProgram = ok (s, log) ∧
    ∃ e ∈ log, ¬ Spec.Describes (e.1 e.2.1).points (e.1 e.2.1).faces e.2.2 := by
  refine ⟨_, _, rfl, _, List.mem_cons_of_mem _ (List.mem_cons_self), ?_⟩
  intro h
  have := h.1
  revert this
  decide

end Kigumi.Props

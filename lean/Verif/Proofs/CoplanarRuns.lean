import Verif.Model.Corefinement
import Verif.Props.Coplanar
import Verif.Props.ParallelDo

/-! # Executions of the search for coincident faces, with vertices that do not exist -/
namespace Kigumi.Coplanar
open Kigumi Outcome
open Kigumi.Spec (ValidFaces)

theorem at!_bad {α : Type} {l : List α} {i : Nat} (h : ¬ i < l.length) : at! l i = exn "out_of_range" := by
  unfold at!
  rw [List.getElem?_eq_none (Nat.not_lt.1 h)]

theorem at!_good {α : Type} {l : List α} {i : Nat} (h : i < l.length) : at! l i = ok l[i] := by
  unfold at!
  rw [List.getElem?_eq_getElem h]

theorem exn_bind {α β : Type} {e : String} {f : α → Outcome β} : (exn e >>= f) = exn e := rfl

theorem triangle_bad {f : Tri Nat} {points : List Nat} (h : ¬ (f.a < points.length ∧ f.b < points.length ∧ f.c < points.length)) : triangle f points = exn "out_of_range" := by
  unfold triangle
  by_cases ha : f.a < points.length
  · rw [at!_good ha, ok_bind]
    by_cases hb : f.b < points.length
    · rw [at!_good hb, ok_bind, at!_bad fun hc => h ⟨ha, hb, hc⟩, exn_bind]
    · rw [at!_bad hb, exn_bind]
  · rw [at!_bad ha, exn_bind]

theorem buildMap_bad {points : List Nat} : ∀ (fs : List (Tri Nat)) (k : Nat) (m : TriMap), ¬ ValidFaces points fs → buildMap points k fs m = exn "out_of_range" := by
  intro fs
  induction fs with
  | nil => intro k m h; exact absurd (fun f hf => nomatch hf) h
  | cons f fs ih =>
    intro k m h
    by_cases hf : f.a < points.length ∧ f.b < points.length ∧ f.c < points.length
    · rw [buildMap, triangle_ok hf, ok_bind]
      exact ih _ _ fun hv => h fun g hg => by
        rcases List.mem_cons.1 hg with rfl | hg
        · exact hf
        · exact hv g hg
    · rw [buildMap, triangle_bad hf, exn_bind]

theorem body_good {m : TriMap} {points : List Nat} {i : Nat} {f : Tri Nat} (h : f.a < points.length ∧ f.b < points.length ∧ f.c < points.length) : ∃ l, body m points i f = ok l := by
  simp only [body, triangle_ok h, ok_bind]
  split
  · exact ⟨_, rfl⟩
  · split <;> exact ⟨_, rfl⟩

theorem body_bad {m : TriMap} {points : List Nat} {i : Nat} {f : Tri Nat} (h : ¬ (f.a < points.length ∧ f.b < points.length ∧ f.c < points.length)) : body m points i f = exn "out_of_range" := by
  rw [body, triangle_bad h, exn_bind]

/-- The loop without a merge does not depend on the configured number of threads. -/
theorem configured_any {S G : Type} {P : ParallelDo.Params S String G} (hp : P.hasPost = false) {c c' h : Nat} {g : G} {r : ParallelDo.Result String G} (hr : ParallelDo.Returns P c h g r) : ParallelDo.Returns P c' h g r := by
  have e : ∀ c, ParallelDo.numThreads P.hasPost c h P.size = min (max h 1) P.size := by intro c; rw [hp]; rfl
  unfold ParallelDo.Returns at hr ⊢
  rw [e] at hr ⊢
  exact hr

theorem loop_body {m : TriMap} {points : List Nat} {b : List (Tri Nat)} {i : Nat} {f : Tri Nat} (h : b[i]? = some f) (u : Unit) :
    (loop m points b).body i u = Candidates.toExcept ((body m points i f).bind fun _ => ok ()) := by
  show (match b[i]? with | none => _ | some f => _) = _
  rw [h]

/-- The loop throws iff a face has a vertex that does not exist. -/
theorem loop_runs {m : TriMap} {points : List Nat} {b : List (Tri Nat)} {c h : Nat} {o : Outcome (ParallelDo.Result String Unit)} (ho : Outcomes.parallel (loop m points b) c h () o) :
    (ValidFaces points b → ∃ r, o = ok r) ∧ (¬ ValidFaces points b → o = exn "out_of_range") := by
  obtain ⟨r, hr, rfl⟩ := ho
  have hr := configured_any (c' := 1) rfl hr
  obtain ⟨h1, h2, h3, -⟩ := Props.C14_exceptions _ (Nat.le_refl 1) hr
  have hs := Props.C14_success _ (Nat.le_refl 1) hr
  have thrown : ∀ e, r.exc = some e → e = "out_of_range" ∧ ¬ ValidFaces points b := by
    intro e he
    rcases h3 e (h2 e he) with ⟨i, s, hi, hb⟩ | ⟨hp, -⟩
    · have hi : i < b.length := hi
      rw [loop_body (List.getElem?_eq_getElem hi)] at hb
      by_cases hf : b[i].a < points.length ∧ b[i].b < points.length ∧ b[i].c < points.length
      · obtain ⟨l, hl⟩ := body_good (m := m) (i := i) hf
        rw [hl] at hb; cases hb
      · rw [body_bad hf] at hb; cases hb
        exact ⟨rfl, fun hv => hf (hv _ (List.getElem_mem hi))⟩
    · cases hp
  constructor
  · intro hv
    cases he : r.exc with
    | none => exact ⟨r, rfl⟩
    | some e => exact absurd hv (thrown e he).2
  · intro hv
    cases he : r.exc with
    | some e => rw [(thrown e he).1]
    | none =>
      refine absurd (fun f hf => ?_) hv
      obtain ⟨i, hi, rfl⟩ := List.getElem_of_mem hf
      by_contra hbad
      obtain ⟨s, s', e⟩ := hs he i hi
      rw [loop_body (List.getElem?_eq_getElem hi), body_bad hbad] at e
      cases e

variable {c h : Nat} {left right : List (Tri Nat)} {lp rp : List Nat} {o : Outcome (List Tag × List Tag)}

/-- The faces of the smaller operand and of the other one. -/
theorem sides (q : Bool) : (ValidFaces lp left ∧ ValidFaces rp right) ↔ ValidFaces (if q then lp else rp) (if q then left else right) ∧ ValidFaces (if q then rp else lp) (if q then right else left) := by
  cases q
  · exact and_comm
  · exact Iff.rfl

theorem execute_valid (vl : ValidFaces lp left) (vr : ValidFaces rp right) (ho : execute c h left right lp rp o) : ∃ t, o = ok t ∧ Returns left right lp rp t.1 t.2 := by
  obtain ⟨va, vb⟩ := (sides (decide (left.length < right.length))).1 ⟨vl, vr⟩
  obtain ⟨m, hm, -⟩ := buildMap_ok _ _ 0 [] va
  rcases ho with ⟨m', e, ho⟩ | ⟨e, he, -⟩ | ⟨e, he, -⟩
  · rcases ho with ⟨r, -, t, ht, rfl⟩ | ⟨e, he, -⟩ | ⟨e, he, -⟩
    · exact ⟨t, rfl, ht⟩
    · obtain ⟨r, hr⟩ := (loop_runs he).1 vb; cases hr
    · obtain ⟨r, hr⟩ := (loop_runs he).1 vb; cases hr
  · have he : exn e = buildMap _ _ _ _ := he
    rw [hm] at he; cases he
  · have he : ub e = buildMap _ _ _ _ := he
    rw [hm] at he; cases he

theorem execute_invalid (hv : ¬ (ValidFaces lp left ∧ ValidFaces rp right)) (ho : execute c h left right lp rp o) : o = exn "out_of_range" := by
  rw [sides (decide (left.length < right.length))] at hv
  by_cases va : ValidFaces (if decide (left.length < right.length) then lp else rp) (if decide (left.length < right.length) then left else right)
  · have vb := fun vb => hv ⟨va, vb⟩
    obtain ⟨m, hm, -⟩ := buildMap_ok _ _ 0 [] va
    rcases ho with ⟨m', e, ho⟩ | ⟨e, he, -⟩ | ⟨e, he, -⟩
    · rcases ho with ⟨r, hr, -⟩ | ⟨e, he, rfl⟩ | ⟨e, he, -⟩
      · cases (loop_runs hr).2 vb
      · cases (loop_runs he).2 vb; rfl
      · cases (loop_runs he).2 vb
    · have he : exn e = buildMap _ _ _ _ := he
      rw [hm] at he; cases he
    · have he : ub e = buildMap _ _ _ _ := he
      rw [hm] at he; cases he
  · have hm := buildMap_bad _ 0 [] va
    rcases ho with ⟨m', e, -⟩ | ⟨e, he, rfl⟩ | ⟨e, he, -⟩
    · have e : ok m' = buildMap _ _ _ _ := e
      rw [hm] at e; cases e
    · have he : exn e = buildMap _ _ _ _ := he
      rw [hm] at he; cases he; rfl
    · have he : ub e = buildMap _ _ _ _ := he
      rw [hm] at he; cases he

theorem returns_exists (vl : ValidFaces lp left) (vr : ValidFaces rp right) : ∃ lt rt, Returns left right lp rp lt rt := by
  obtain ⟨va, vb⟩ := (sides (decide (left.length < right.length))).1 ⟨vl, vr⟩
  obtain ⟨m, hm, -⟩ := buildMap_ok _ _ 0 [] va
  obtain ⟨ws, hw, -⟩ := bodies_ok m _ _ 0 vb
  exact ⟨_, _, m, ws, ws, hm, hw, .refl _, rfl, rfl⟩

/-- There is always an execution. -/
theorem execute_exists : ∃ o, execute c h left right lp rp o := by
  by_cases va : ValidFaces (if decide (left.length < right.length) then lp else rp) (if decide (left.length < right.length) then left else right)
  · obtain ⟨m, hm, -⟩ := buildMap_ok _ _ 0 [] va
    obtain ⟨r, hr⟩ := Props.C15_has_result (loop m (if decide (left.length < right.length) then rp else lp) (if decide (left.length < right.length) then right else left)) c h ()
    have ho : Outcomes.parallel (loop m (if decide (left.length < right.length) then rp else lp) (if decide (left.length < right.length) then right else left)) c h () _ := ⟨r, hr, rfl⟩
    by_cases vb : ValidFaces (if decide (left.length < right.length) then rp else lp) (if decide (left.length < right.length) then right else left)
    · obtain ⟨vl, vr⟩ := (sides (decide (left.length < right.length))).2 ⟨va, vb⟩
      obtain ⟨lt, rt, ht⟩ := returns_exists vl vr
      obtain ⟨r', hr'⟩ := (loop_runs ho).1 vb
      rw [hr'] at ho
      exact ⟨_, .inl ⟨m, hm.symm, .inl ⟨r', ho, (lt, rt), ht, rfl⟩⟩⟩
    · have hb := (loop_runs ho).2 vb
      rw [hb] at ho
      exact ⟨_, .inl ⟨m, hm.symm, .inr (.inl ⟨_, ho, rfl⟩)⟩⟩
  · exact ⟨_, .inr (.inl ⟨_, (buildMap_bad _ 0 [] va).symm, rfl⟩)⟩

end Kigumi.Coplanar

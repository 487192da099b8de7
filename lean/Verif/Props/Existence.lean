import Verif.Proofs.Crossing
import Verif.Props.Corefinement

/-! # C78: the triangulations that are asked for exist -/
namespace Kigumi.Props
open Kigumi Outcome Spec.Triangles Spec.Side
open Kigumi.Spec (P3 HasCorners)
open Kigumi.Corefine (Env Gives construct Operands Cdt State both exactEnv)
variable {D : Type} {op : Bool → List (Tri P3)} {s : Bool → Soup P3 D} {E : Env}

/-- **Constrained Delaunay triangulations exist.** A triangle with area, finitely many points in it, and constraints between different ones of these points or the corners: if no constraints cross, there is a constrained Delaunay triangulation. -/
theorem C78_triangulation {t : Tri P3} (ht : Proper t) {V : P3 → Prop} {S : P3 → P3 → Prop} (L : List P3) (hL : ∀ x, V x ↔ x ∈ L) (hin : ∀ x, V x → In t x)
    (hS : ∀ c d, S c d → (V c ∨ c ∈ t.toList) ∧ (V d ∨ d ∈ t.toList) ∧ c ≠ d) (hap : ∀ c d c' d', S c d → S c' d' → ¬ Cross c d c' d') : ∃ ps, Triangulates t V S ps :=
  Cdt3.cdt_exists ht L hL hin hS hap

/-- **Nothing impossible is asked of CGAL.** For operands whose triangles have nothing in common but vertices and edges, whatever the threads do: every triangulation that is asked for exists. -/
theorem C78_asked (h : Operands op s) (hE : E.Valid op) {st : State} (hst : construct E (s true) (s false) (ok st)) (b : Bool) (fi : Nat) (t : Tri P3) (ht : (op b)[fi]? = some t) (c : Cdt) (hc : both st.leftMap st.rightMap b fi = some (some c)) :
    ∃ gs, c.Correct st.points t gs := by
  rcases C74_triangulations h hE hst b fi t ht with ⟨h0, -⟩ | ⟨c', h1, h2, -⟩
  · rw [h0] at hc; cases hc
  · rw [h1] at hc; cases hc
    exact Corefine.correct_exists h2

/-- **The corefinement has an execution** for all such operands. -/
theorem C78_mixed (h : Operands op s) (hE : E.Valid op) : ∃ m border, Gives E (s true) (s false) m border :=
  Corefine.gives_exists h hE fun _ _ _ _ _ _ _ hent => Corefine.correct_exists hent.expected

/-! A square's half with a point inside and a constraint to a corner. -/

example : ∃ ps, Triangulates (⟨⟨0, 0, 0⟩, ⟨4, 0, 0⟩, ⟨0, 4, 0⟩⟩ : Tri P3) (· = ⟨1, 1, 0⟩) (fun c d => c = ⟨0, 0, 0⟩ ∧ d = ⟨1, 1, 0⟩) ps := by
  refine C78_triangulation (by unfold Proper; decide +kernel) [⟨1, 1, 0⟩] (by simp) ?_ ?_ ?_
  · rintro x rfl
    exact ⟨1 / 2, 1 / 4, 1 / 4, by norm_num, by decide +kernel, by norm_num, by norm_num, by norm_num⟩
  · rintro c d ⟨rfl, rfl⟩
    exact ⟨.inr (by decide +kernel), .inl rfl, by decide +kernel⟩
  · rintro c d c' d' ⟨rfl, rfl⟩ ⟨rfl, rfl⟩ ⟨-, h⟩
    exact h ⟨⟨1, 0, by norm_num, by decide +kernel⟩, 0, 1, by norm_num, by decide +kernel⟩

end Kigumi.Props

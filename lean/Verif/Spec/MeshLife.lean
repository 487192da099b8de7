import Verif.Spec.Mesh
import Verif.Model.MeshLife

/-!
# What a mesh is asked, and when
-/
namespace Kigumi.Spec.MeshLife
open Kigumi Kigumi.MeshLife

variable {P : Type}

/-- Where a mesh is in its life: faces are still added, it was finalised since, or something was done to it after that. -/
inductive Stage where
  | building | final | spoiled
  deriving DecidableEq, Repr

def set (g : Nat → Stage) (v : Nat) (x : Stage) : Nat → Stage := fun w => if w = v then x else g w

/-- The stages after an operation. Vertices may be added at any time. -/
def after (g : Nat → Stage) : Op P → Nat → Stage
  | .construct v _ _ => set g v .building
  | .copyCtor d c => set g d (g c)
  | .moveCtor d c => set (set g d (g c)) c .building
  | .copyAssign d c => set g d (g c)
  | .moveAssign d c => set (set g d (g c)) c .building
  | .addVertex _ _ => g
  | .addFace v _ => set g v (if g v = .building then .building else .spoiled)
  | .finalize v => set g v (if g v = .building then .final else .spoiled)
  | .aroundEdge _ _ _ => g
  | .aroundFace _ _ _ => g
  | .take v => set g v (if g v = .building then .building else .spoiled)

/-- No query is made where faces were added, the mesh was finalised again or its faces were taken after it was finalised. -/
def Orderly : (Nat → Stage) → List (Op P) → Prop
  | _, [] => True
  | g, op :: ops => (match op with
      | .aroundEdge v _ _ => g v ≠ .spoiled
      | .aroundFace v _ _ => g v ≠ .spoiled
      | _ => True) ∧ Orderly (after g op) ops

/-- The answer is right for the faces that the mesh has at the moment. -/
def Right (s : Store P) : Op P → Out P → Prop
  | .aroundEdge v a b, out => ∃ l, out = .faces l ∧ (∀ i, i ∈ l ↔ Incident (s v).mesh.faces a i ∧ Incident (s v).mesh.faces b i) ∧ (a ≠ b → l.Pairwise (· < ·))
  | .aroundFace v border fi, out => ∃ l, out = .faces l ∧ (∀ j ∈ l, SharesNonBorder (s v).mesh.faces border fi j) ∧ ∀ j, j ≠ fi → SharesNonBorder (s v).mesh.faces border fi j → j ∈ l
  | .take v, out => out = .soup (s v).points (s v).mesh.faces
  | _, _ => True

/-- No variable is constructed from itself or moved to itself. -/
def NoSelf : Op P → Prop
  | .copyCtor d c => d ≠ c
  | .moveCtor d c => d ≠ c
  | .moveAssign d c => d ≠ c
  | _ => True

end Kigumi.Spec.MeshLife

import Verif.Model.Overlaps
import Verif.Model.Corefinement

/-!
# The constructor of `Find_defects` (include/kigumi/Find_defects.h:34-45)

All searches are made by the constructor, one after the other, on the soup with merged vertices.
-/
namespace Kigumi.Defects
open Kigumi Outcome
open Kigumi.Spec (Box)

/-- The members that are reported (Find_defects.h:48-67, 367-376). -/
structure Report where
  isolatedVertices : List Nat
  nonManifoldVertices : List Nat
  boundaryEdges : List (Nat × Nat)
  inconsistentEdges : List (Nat × Nat)
  nonManifoldEdges : List (Nat × Nat)
  trivialDegenerateFaces : List Nat
  nonTrivialDegenerateFaces : List Nat
  overlappingFaces : List Nat
  deriving DecidableEq, Repr

/-- What CGAL, the standard library and the machine contribute, as in `Overlaps.Returns`. -/
structure Env where
  arr : Nat → List (Nat × Box) → List (Nat × Box)
  limit : Nat
  configured : Nat
  hardware : Nat
  nodes : Nat → AABB.Node (Option Box)
  dflt : Nat × Box
  /-- boxes of the faces in the tree and when they are used as queries -/
  treeBoxes : List Box
  queryBoxes : List Box

/-- `non_manifold_vertices`, whose loops over the links end: the result does not depend on the bound if it is large enough. -/
def nonManifold (n : Nat) (faces : List (Tri Nat)) : Outcomes (List Nat) := fun o => ∃ k, ∀ fuel, k ≤ fuel → nonManifoldVertices fuel n faces = o

/-- The constructor (Find_defects.h:34-45). A map may be iterated over in any order. -/
def find (E : Env) (points : List Geo.P3) (faces : List (Tri Nat)) : Outcomes Report :=
  Outcomes.andThen (Outcomes.one (merge points faces)) fun m =>
  Outcomes.andThen (Outcomes.one (isolated m.1.length m.2)) fun iso =>
  Outcomes.andThen (nonManifold m.1.length m.2) fun nmv =>
  Outcomes.andThen (Outcomes.any fun order : Counts => order.Perm (collect m.2 [])) fun order =>
  Outcomes.andThen (Outcomes.parallel (degenerateLoop m.1 m.2) E.configured E.hardware []) fun deg =>
  Outcomes.andThen (fun o => ∃ r, Overlaps.Returns E.arr E.limit E.configured E.hardware E.nodes E.dflt m.1 m.2 (trivialLoop 0 m.2 []) deg.acc E.treeBoxes E.queryBoxes r ∧
    o = match r.exc with | some e => exn e | none => ok r.acc) fun over =>
  Outcomes.one (ok ⟨iso, nmv, oneWay 1 (collect m.2 []) order, oneWay 2 (collect m.2 []) order, Defects.nonManifoldEdges (collect m.2 []) order, trivialLoop 0 m.2 [], deg.acc, over⟩)

/-- The numbers printed by the command (cli/defects_command.cc:64-102). -/
def Report.counts (r : Report) : Fin 8 → Nat
  | 0 => r.isolatedVertices.length
  | 1 => r.nonManifoldVertices.length
  | 2 => r.boundaryEdges.length
  | 3 => r.inconsistentEdges.length
  | 4 => r.nonManifoldEdges.length
  | 5 => r.trivialDegenerateFaces.length
  | 6 => r.nonTrivialDegenerateFaces.length
  | 7 => r.overlappingFaces.length

end Kigumi.Defects

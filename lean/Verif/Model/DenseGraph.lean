import Verif.Model.Prelude

/-!
# The packed undirected multigraph (include/kigumi/Dense_undirected_graph.h)

`Value` is `unsigned`, taken as 32 bits: additions wrap modulo `2^32`.  `std::size_t` is `Nat`.
-/
namespace Kigumi.DenseGraph
open Kigumi Outcome

/-- One past the largest `unsigned` (Dense_undirected_graph.h:12). -/
def valueMod : Nat := 4294967296

/-- Members `order_` and `m_` (Dense_undirected_graph.h:102-103). -/
structure Graph where
  order : Nat
  m : List Nat
  deriving DecidableEq, Repr

/-- Constructor (Dense_undirected_graph.h:15). -/
def create (order : Nat) : Graph := ⟨order, List.replicate (order * (order + 1) / 2) 0⟩

/-- The position computed by both `at` functions (Dense_undirected_graph.h:76-100), with their exceptions. -/
def cell (g : Graph) (i j : Nat) : Outcome Nat :=
  if i ≥ g.order then exn "out_of_range: i"
  else if j ≥ g.order then exn "out_of_range: j"
  else
    let (i, j) := if i > j then (j, i) else (i, j)
    ok (g.order * i + j - i * (i + 1) / 2)

/-- `at(i, j)` read access (Dense_undirected_graph.h:89-100). -/
def get (g : Graph) (i j : Nat) : Outcome Nat := do
  let c ← cell g i j
  at! g.m c

/-- `add_edge` (Dense_undirected_graph.h:17, 76-87). -/
def addEdge (g : Graph) (i j : Nat) : Outcome Graph := do
  let c ← cell g i j
  let v ← at! g.m c
  ok { g with m := g.m.set c ((v + 1) % valueMod) }

/-- A sequence of `add_edge` calls. -/
def addEdges (g : Graph) : List (Nat × Nat) → Outcome Graph
  | [] => ok g
  | e :: es => do
    let g ← addEdge g e.1 e.2
    addEdges g es

/-- The accumulation loop of `degree` (Dense_undirected_graph.h:19-25). -/
def degreeLoop (g : Graph) (i : Nat) : List Nat → Nat → Outcome Nat
  | [], d => ok d
  | j :: js, d => do
    let v ← get g i j
    degreeLoop g i js ((d + v) % valueMod)

/-- `degree` (Dense_undirected_graph.h:19-25). -/
def degree (g : Graph) (i : Nat) : Outcome Nat := degreeLoop g i (List.range g.order) 0

/-- `has_edge` (Dense_undirected_graph.h:27). -/
def hasEdge (g : Graph) (i j : Nat) : Outcome Bool := do
  let v ← get g i j
  ok (v != 0)

/-- The `for` loop pushing unvisited neighbours (Dense_undirected_graph.h:39-43); head of the list = top of stack. -/
def pushLoop (g : Graph) (i : Nat) (visited : List Bool) : List Nat → List Nat → Outcome (List Nat)
  | [], stack => ok stack
  | j :: js, stack => do
    let e ← hasEdge g i j
    if e then do
      let v ← at! visited j
      pushLoop g i visited js (if v then stack else j :: stack)
    else pushLoop g i visited js stack

/-- The `while` loop of `is_connected` (Dense_undirected_graph.h:34-44), `none` when `fuel` iterations do not
suffice (the theorems show that for every graph some fuel suffices and that more changes nothing). -/
def searchLoop (g : Graph) : Nat → List Bool → List Nat → Option (Outcome (List Bool))
  | _, visited, [] => some (ok visited)
  | 0, _, _ :: _ => none
  | fuel + 1, visited, i :: stack =>
    if i < visited.length then
      let visited := visited.set i true
      match pushLoop g i visited (List.range g.order) stack with
      | ok stack => searchLoop g fuel visited stack
      | exn e => some (exn e)
      | ub e => some (ub e)
    else some (exn "out_of_range")

/-- `is_connected` (Dense_undirected_graph.h:29-47). -/
def isConnected (g : Graph) (fuel : Nat) : Option (Outcome Bool) :=
  match searchLoop g fuel (List.replicate g.order false) [0] with
  | none => none
  | some (ok visited) => some (ok (visited.all id))
  | some (exn e) => some (exn e)
  | some (ub e) => some (ub e)

/-- The inner loop of `is_simple` (Dense_undirected_graph.h:55-59). -/
def simpleRow (g : Graph) (i : Nat) : List Nat → Outcome Bool
  | [] => ok true
  | j :: js => do
    let v ← get g i j
    if v > 1 then ok false else simpleRow g i js

/-- The outer loop of `is_simple` (Dense_undirected_graph.h:50-62). -/
def simpleLoop (g : Graph) : List Nat → Outcome Bool
  | [] => ok true
  | i :: is => do
    let v ← get g i i
    if v != 0 then ok false
    else do
      let r ← simpleRow g i ((List.range g.order).filter (fun j => i + 1 ≤ j))
      if r then simpleLoop g is else ok false

/-- `is_simple` (Dense_undirected_graph.h:49-63). -/
def isSimple (g : Graph) : Outcome Bool := simpleLoop g (List.range g.order)

/-- The loop of `max_degree` (Dense_undirected_graph.h:65-71). -/
def maxDegreeLoop (g : Graph) : List Nat → Nat → Outcome Nat
  | [], d => ok d
  | i :: is, d => do
    let di ← degree g i
    maxDegreeLoop g is (max d di)

/-- `max_degree` (Dense_undirected_graph.h:65-71). -/
def maxDegree (g : Graph) : Outcome Nat := maxDegreeLoop g (List.range g.order) 0

end Kigumi.DenseGraph

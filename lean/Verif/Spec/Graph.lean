/-!
# Multigraphs as lists of edges

Specification of the graph queries, independent of any storage.
-/
namespace Kigumi.Spec.Graph
variable {V : Type}

/-- Do the two ends of `e` equal `i` and `j` in either order? -/
def Joins (e : V × V) (i j : V) : Prop := e = (i, j) ∨ e = (j, i)

instance [DecidableEq V] (e : V × V) (i j : V) : Decidable (Joins e i j) := inferInstanceAs (Decidable (_ ∨ _))

/-- Number of edges joining `i` and `j`. -/
def mult [DecidableEq V] (es : List (V × V)) (i j : V) : Nat := es.countP (fun e => decide (Joins e i j))

/-- Number of edges with an end at `i` (a loop counts once, as in the code). -/
def deg [DecidableEq V] (es : List (V × V)) (i : V) : Nat := es.countP (fun e => decide (e.1 = i ∨ e.2 = i))

/-- `j` can be reached from `i` along edges. -/
inductive Reach (es : List (V × V)) (i : V) : V → Prop
  | refl : Reach es i i
  | step {j k e} : Reach es i j → e ∈ es → Joins e j k → Reach es i k

/-- Any two vertices below `n` are connected. -/
def Connected (n : Nat) (es : List (Nat × Nat)) : Prop := ∀ i j, i < n → j < n → Reach es i j

/-- No loops, no multiple edges. -/
def Simple [DecidableEq V] (es : List (V × V)) : Prop := (∀ e ∈ es, e.1 ≠ e.2) ∧ ∀ i j, mult es i j ≤ 1

end Kigumi.Spec.Graph

/-!
# Outcomes of C++ computations

A C++ call either returns, throws, or has undefined behaviour.  Exceptions and undefined behaviour are
distinct outcomes of the model; nothing is assumed away.
-/
namespace Kigumi

/-- Result of a modelled C++ computation: a value, a thrown exception (with its message), or undefined behaviour. -/
inductive Outcome (α : Type) where
  | ok (a : α)
  | exn (msg : String)
  | ub (what : String)
  deriving DecidableEq, Repr

namespace Outcome

/-- Sequencing: the first exception or undefined behaviour ends the computation. -/
@[simp] def bind {α β : Type} (x : Outcome α) (f : α → Outcome β) : Outcome β :=
  match x with
  | ok a => f a
  | exn m => exn m
  | ub w => ub w

instance : Monad Outcome where
  pure := ok
  bind := bind

instance : LawfulMonad Outcome := LawfulMonad.mk'
  (id_map := fun x => by cases x <;> rfl)
  (pure_bind := fun _ _ => rfl)
  (bind_assoc := fun x _ _ => by cases x <;> rfl)

@[simp] theorem pure_eq {α : Type} (a : α) : (pure a : Outcome α) = ok a := rfl
@[simp] theorem ok_bind {α β : Type} (a : α) (f : α → Outcome β) : (ok a >>= f) = f a := rfl
@[simp] theorem exn_bind {α β : Type} (m : String) (f : α → Outcome β) : ((exn m : Outcome α) >>= f) = exn m := rfl
@[simp] theorem ub_bind {α β : Type} (m : String) (f : α → Outcome β) : ((ub m : Outcome α) >>= f) = ub m := rfl

theorem bind_eq_ok {α β : Type} {x : Outcome α} {f : α → Outcome β} {b : β} :
    (x >>= f) = ok b ↔ ∃ a, x = ok a ∧ f a = ok b := by
  cases x <;> simp

/-- `std::vector::at` and friends: throws `std::out_of_range` when the index is not in range. -/
def at! {α : Type} (l : List α) (i : Nat) : Outcome α :=
  match l[i]? with
  | some a => ok a
  | none => exn "out_of_range"

theorem at!_ok {α : Type} {l : List α} {i : Nat} {a : α} : at! l i = ok a ↔ l[i]? = some a := by
  unfold at!; cases l[i]? <;> simp

end Outcome

/-- Three things, used for faces (vertex indices) and for corner coordinates.
`Face` is `std::array<Vertex_index, 3>` (include/kigumi/Mesh_entities.h). -/
structure Tri (α : Type) where
  a : α
  b : α
  c : α
  deriving DecidableEq, Repr

namespace Tri
variable {α β : Type}
/-- Apply a function to the three corners. -/
def map (f : α → β) (t : Tri α) : Tri β := ⟨f t.a, f t.b, f t.c⟩
/-- Exchange the last two corners (`std::swap(new_f[1], new_f[2])`, include/kigumi/Extract.h:71). -/
def flip (t : Tri α) : Tri α := ⟨t.a, t.c, t.b⟩
/-- Cyclic rotation of the corners. -/
def rot (t : Tri α) : Tri α := ⟨t.b, t.c, t.a⟩
/-- The corners as a list. -/
def toList (t : Tri α) : List α := [t.a, t.b, t.c]
end Tri

end Kigumi

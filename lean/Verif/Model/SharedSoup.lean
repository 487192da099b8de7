import Verif.Model.SoupCache

/-!
# A soup that several threads ask for its spatial index (include/kigumi/Triangle_soup.h:129-142)

All threads call the const member function `aabb_tree()` of one soup, whose points and faces do not change meanwhile.  Every step is one access to what they share: the mutex, the
pointer `aabb_tree_`, or the points and corners of one face.  What the constructor of the tree makes of the leaves (the threads that it starts itself are in `Verif.Model.AABB`) is a parameter.
-/
namespace Kigumi.SharedSoup
open Kigumi Outcome
open Kigumi.SoupCache (Leaf)

variable {P T : Type}

/-- Where a call of `aabb_tree()` is. -/
inductive Pc (P T : Type) where
  /-- before line 130 -/
  | start
  /-- the mutex is locked, before line 132 -/
  | entered
  /-- in the loop of lines 135-137, with the leaves so far -/
  | collecting (acc : List (Leaf P))
  /-- before line 141 -/
  | ready
  /-- the destructor of the lock (Triangle_soup.h:142) is next; the reference that will be returned, or `none` if an exception passes -/
  | leaving (r : Option T)
  /-- the call has returned a reference, or thrown -/
  | done (r : Option T)
  /-- a null pointer was dereferenced (Triangle_soup.h:141) -/
  | crashed
  deriving DecidableEq, Repr

/-- The soup as the threads see it. -/
structure State (P T : Type) where
  /-- `aabb_tree_` -/
  tree : Option T
  /-- which thread has locked `aabb_tree_mutex_` -/
  owner : Option Nat
  threads : List (Pc P T)

/-- What does not change: the vectors, what the constructor of the tree may make of leaves, and whether allocating memory may fail. -/
structure Env (P T : Type) where
  points : List P
  faces : List (Tri Nat)
  Makes : List (Leaf P) → T → Prop
  mayFail : Prop

/-- One step of a thread that is at the first place: the pointer and the mutex afterwards, and where the thread is then. -/
inductive Act (E : Env P T) (i : Nat) : Option T → Option Nat → Pc P T → Option T → Option Nat → Pc P T → Prop
  /-- line 130, when the mutex is free -/
  | lock {t} : Act E i t none .start t (some i) .entered
  /-- line 132: there is a tree -/
  | found {t o} : Act E i (some t) o .entered (some t) o .ready
  /-- line 132: there is none -/
  | missing {o} : Act E i none o .entered none o (.collecting [])
  /-- lines 135-137, the next face -/
  | leaf {t o acc f c} : E.faces[acc.length]? = some f → SoupCache.corners E.points f = ok c → Act E i t o (.collecting acc) t o (.collecting (acc ++ [(acc.length, c)]))
  /-- `point` throws (mesh_utility.h:21-26) -/
  | bad {t o acc f e} : E.faces[acc.length]? = some f → SoupCache.corners E.points f = exn e → Act E i t o (.collecting acc) t o (.leaving none)
  /-- `reserve`, `emplace_back`, `make_unique` or the constructor of the tree throw -/
  | fail {t o acc} : E.mayFail → Act E i t o (.collecting acc) t o (.leaving none)
  /-- line 138 -/
  | make {t o acc x} : acc.length = E.faces.length → E.Makes acc x → Act E i t o (.collecting acc) (some x) o .ready
  /-- line 141 -/
  | ret {t o} : Act E i (some t) o .ready (some t) o (.leaving (some t))
  | crash {o} : Act E i none o .ready none o .crashed
  /-- line 142 -/
  | unlock {t o r} : Act E i t o (.leaving r) t none (.done r)

/-- Some thread makes a step. -/
inductive Step (E : Env P T) : State P T → State P T → Prop
  | of {s : State P T} {i : Nat} {pc pc' : Pc P T} {t' : Option T} {o' : Option Nat} : s.threads[i]? = some pc → Act E i s.tree s.owner pc t' o' pc' →
    Step E s ⟨t', o', s.threads.set i pc'⟩

/-- Any number of steps, in any order of threads. -/
inductive Steps (E : Env P T) : State P T → State P T → Prop
  | refl {s} : Steps E s s
  | step {s t u} : Steps E s t → Step E t u → Steps E s u

/-- `n` threads are about to call; the tree may have been built before. -/
def init (n : Nat) (tree : Option T) : State P T := ⟨tree, none, List.replicate n .start⟩

/-- Whether the next step reads or writes the pointer `aabb_tree_`: line 132 and line 141 read it, line 138 writes it. -/
inductive Touches : Pc P T → Bool → Prop
  | test : Touches .entered false
  | deref : Touches .ready false
  | assign {acc} : Touches (.collecting acc) true

end Kigumi.SharedSoup
